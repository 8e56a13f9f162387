import Verif.Spec.Writing
import Verif.Props.Compose

/-!
# Property C90: ways to write the same query

White space, the case of keywords, brackets around the whole query, `AND` between words and the hyphen for `AND NOT` do not change
what a query means.
-/

set_option autoImplicit false

namespace Verif

open Spec QueryParser

/-! ## Tokens -/

theorem tokens_exists {isSpace : Char → Bool} (hsp : SpaceOk isSpace) (q : Word) : ∃ ts, Tokens isSpace q ts :=
  ⟨_, (tokenize_iff hsp q _).2 rfl⟩

theorem tokens_spaces {isSpace : Char → Bool} {sp : Word} (hs : ∀ c ∈ sp, isSpace c = true) {q : Word} {ts : List Word}
    (h : Tokens isSpace q ts) : Tokens isSpace (sp ++ q) ts := by
  induction sp with
  | nil => exact h
  | cons c sp ih => exact .space c _ _ (hs c (by simp)) (ih fun c hc => hs c (by simp [hc]))

theorem space_not_word {isSpace : Char → Bool} {c : Char} (h : isSpace c = true) : ¬ WordChar isSpace c := fun hw => by
  rw [hw.2.2.2] at h; cases h

theorem space_not_quote {isSpace : Char → Bool} (hsp : SpaceOk isSpace) {c : Char} (h : isSpace c = true) : c ≠ '"' := by
  rintro rfl; rw [hsp.quote] at h; cases h

theorem delimiter_not_word {isSpace : Char → Bool} {c : Char} (h : Delimiter isSpace c) : ¬ WordChar isSpace c := by
  rcases h with h | rfl | rfl
  · exact space_not_word h
  · exact fun h => h.1 rfl
  · exact fun h => h.2.1 rfl

theorem delimiter_not_quote {isSpace : Char → Bool} (hsp : SpaceOk isSpace) {c : Char} (h : Delimiter isSpace c) : c ≠ '"' := by
  rcases h with h | rfl | rfl
  · exact space_not_quote hsp h
  · decide
  · decide

/-- a delimiter is a token or nothing, whatever follows -/
theorem tokens_delimiter {isSpace : Char → Bool} {c : Char} (h : Delimiter isSpace c) :
    ∃ pre : List Word, ∀ q ts, Tokens isSpace q ts → Tokens isSpace (c :: q) (pre ++ ts) := by
  rcases h with h | h
  · exact ⟨[], fun q ts ht => .space c _ _ h ht⟩
  · exact ⟨[[c]], fun q ts ht => .paren c _ _ h ht⟩

theorem tokens_spaced {isSpace : Char → Bool} (hb : isSpace ' ' = true) (hq : isSpace '"' = false) {ts : List Word}
    (ht : ∀ w ∈ ts, TermShape isSpace w) : Tokens isSpace (spaced ts) ts := by
  have key : ∀ w u us, TermShape isSpace w →
      (∀ c, u.head? = some c → isSpace c = true) → Tokens isSpace u us → Tokens isSpace (w ++ u) (w :: us) := by
    intro w u us hw hu h
    rcases hw with ⟨h1, h2⟩ | ⟨hyphen, body, h1, h2, rfl⟩
    · refine .word w u us h1 h2 (fun c hc => space_not_word (hu c hc)) ?_ h
      rintro ⟨-, body, r, rfl⟩
      have := hu '"' rfl
      rw [hq] at this; cases this
    · have := Tokens.quoted (isSpace := isSpace) hyphen body u us h1 h2 h
      simpa using this
  induction ts with
  | nil => exact .nil
  | cons w ts ih =>
    have ih := ih fun w hw => ht w (by simp [hw])
    cases ts with
    | nil =>
      have := key w [] [] (ht w (by simp)) (by simp) .nil
      simpa [spaced] using this
    | cons v ts =>
      rw [spaced]
      · exact key w _ _ (ht w (by simp)) (by simpa using hb) (.space ' ' _ _ hb ih)
      · simp

/-! ## Parsing -/

section parse

variable (isSpace : Char → Bool) (upper : Word → Word) (parseTerms : Word → List Word)

/-- C90: two texts whose tokens differ at most in the case of keywords are the same query -/
theorem C90_tokens (hsp : SpaceOk isSpace) (q q' : Word) (ts ts' : List Word) (h : Tokens isSpace q ts) (h' : Tokens isSpace q' ts')
    (hs : List.Forall₂ (fun w w' => w = w' ∨ ∃ kw, IsKeyword isSpace upper w kw ∧ IsKeyword isSpace upper w' kw) ts ts') :
    parseQuery isSpace upper parseTerms q = parseQuery isSpace upper parseTerms q' := by
  have e : ts.map (classify upper) = ts'.map (classify upper) := by
    clear h h'
    induction hs with
    | nil => rfl
    | cons h _ ih =>
      rw [List.map_cons, List.map_cons, ih]
      congr 1
      rcases h with rfl | ⟨kw, ⟨-, -, hk, e⟩, -, -, -, e'⟩
      · rfl
      · unfold classify
        rw [e, e']
        simp only [List.mem_cons, List.not_mem_nil, or_false] at hk
        rcases hk with rfl | rfl | rfl <;> rfl
  unfold parseQuery tokens
  rw [(tokenize_iff hsp q ts).1 h, (tokenize_iff hsp q' ts').1 h', e]

/-- C90: outside double quotes, it does not matter how much white space there is between two parts of a query, and of what kind -/
theorem C90_spaces (hsp : SpaceOk isSpace) (q1 q2 sp sp' : Word) (hq : QuotesPaired q1) (h0 : sp ≠ []) (h0' : sp' ≠ [])
    (hs : ∀ c ∈ sp, isSpace c = true) (hs' : ∀ c ∈ sp', isSpace c = true) :
    parseQuery isSpace upper parseTerms (q1 ++ sp ++ q2) = parseQuery isSpace upper parseTerms (q1 ++ sp' ++ q2) := by
  obtain ⟨ts1, k1⟩ := tokens_exists hsp q1
  obtain ⟨ts2, k2⟩ := tokens_exists hsp q2
  have key : ∀ sp : Word, sp ≠ [] → (∀ c ∈ sp, isSpace c = true) → Tokens isSpace (q1 ++ sp ++ q2) (ts1 ++ ts2) := by
    intro sp h0 hs
    have h := tokens_spaces hs k2
    match sp, h0, hs, h with
    | c :: sp, _, hs, h =>
      have hc := hs c (by simp)
      rw [List.append_assoc]
      exact tokens_append_at hsp k1 hq (space_not_word hc) (space_not_quote hsp hc) h
  exact C90_tokens isSpace upper parseTerms hsp _ _ _ _ (key sp h0 hs) (key sp' h0' hs') (List.forall₂_same.2 fun _ _ => .inl rfl)

/-- C90: white space at the beginning and, outside double quotes, at the end of a query and around parentheses does not matter -/
theorem C90_margins (hsp : SpaceOk isSpace) (q1 q2 sp : Word) (hs : ∀ c ∈ sp, isSpace c = true) (hq : QuotesPaired q1) :
    parseQuery isSpace upper parseTerms (sp ++ q1) = parseQuery isSpace upper parseTerms q1 ∧
    parseQuery isSpace upper parseTerms (q1 ++ sp) = parseQuery isSpace upper parseTerms q1 ∧
    ∀ c, c = '(' ∨ c = ')' →
      parseQuery isSpace upper parseTerms (q1 ++ sp ++ c :: q2) = parseQuery isSpace upper parseTerms (q1 ++ c :: q2) ∧
      parseQuery isSpace upper parseTerms (q1 ++ c :: sp ++ q2) = parseQuery isSpace upper parseTerms (q1 ++ c :: q2) := by
  obtain ⟨ts1, k1⟩ := tokens_exists hsp q1
  obtain ⟨ts2, k2⟩ := tokens_exists hsp q2
  have same : ∀ q q' ts, Tokens isSpace q ts → Tokens isSpace q' ts →
      parseQuery isSpace upper parseTerms q = parseQuery isSpace upper parseTerms q' := fun q q' ts h h' =>
    C90_tokens isSpace upper parseTerms hsp _ _ _ _ h h' (List.forall₂_same.2 fun _ _ => .inl rfl)
  have glue : ∀ sp : Word, (∀ c ∈ sp, isSpace c = true) → ∀ u us, Tokens isSpace u us →
      (∀ c, u.head? = some c → ¬ WordChar isSpace c ∧ c ≠ '"') → Tokens isSpace (q1 ++ sp ++ u) (ts1 ++ us) := by
    intro sp hs u us hu hh
    have h := tokens_spaces hs hu
    rw [List.append_assoc]
    cases sp with
    | nil =>
      cases u with
      | nil =>
        obtain rfl : [] = us := (tokenize_iff hsp [] us).1 hu
        simpa using k1
      | cons c u => exact tokens_append_at hsp k1 hq (hh c rfl).1 (hh c rfl).2 h
    | cons c sp =>
      have hc := hs c (by simp)
      exact tokens_append_at hsp k1 hq (space_not_word hc) (space_not_quote hsp hc) h
  refine ⟨same _ _ _ (tokens_spaces hs k1) k1, same _ _ _ ?_ k1, fun c hc => ⟨same _ _ (ts1 ++ [c] :: ts2) ?_ ?_, same _ _ (ts1 ++ [c] :: ts2) ?_ ?_⟩⟩
  · have := glue sp hs [] [] .nil (by simp)
    simpa using this
  all_goals have hd : Delimiter isSpace c := .inr hc
  · exact glue sp hs _ _ (.paren c _ _ hc k2) fun x hx => by cases hx; exact ⟨delimiter_not_word hd, delimiter_not_quote hsp hd⟩
  · exact tokens_append_at hsp k1 hq (delimiter_not_word hd) (delimiter_not_quote hsp hd) (.paren c _ _ hc k2)
  · rw [List.append_assoc]
    exact tokens_append_at hsp k1 hq (delimiter_not_word hd) (delimiter_not_quote hsp hd) (.paren c _ _ hc (tokens_spaces hs k2))
  · exact tokens_append_at hsp k1 hq (delimiter_not_word hd) (delimiter_not_quote hsp hd) (.paren c _ _ hc k2)

/-- C90: outside double quotes, the case of a keyword does not matter -/
theorem C90_case (hsp : SpaceOk isSpace) (q1 q2 w w' kw : Word) (c c' : Char) (hq : QuotesPaired q1) (hc : Delimiter isSpace c)
    (hc' : Delimiter isSpace c') (hw : IsKeyword isSpace upper w kw) (hw' : IsKeyword isSpace upper w' kw) :
    parseQuery isSpace upper parseTerms (q1 ++ c :: w ++ c' :: q2) = parseQuery isSpace upper parseTerms (q1 ++ c :: w' ++ c' :: q2) := by
  obtain ⟨ts1, k1⟩ := tokens_exists hsp q1
  obtain ⟨ts2, k2⟩ := tokens_exists hsp (c' :: q2)
  obtain ⟨pre, hpre⟩ := tokens_delimiter hc
  have key : ∀ w, IsKeyword isSpace upper w kw → Tokens isSpace (q1 ++ c :: w ++ c' :: q2) (ts1 ++ (pre ++ w :: ts2)) := by
    intro w hw
    rw [List.append_assoc]
    refine tokens_append_at hsp k1 hq (delimiter_not_word hc) (delimiter_not_quote hsp hc) (hpre (w ++ c' :: q2) (w :: ts2) ?_)
    refine .word w _ _ hw.1 hw.2.1 (fun x hx => by cases hx; exact delimiter_not_word hc') ?_ k2
    rintro ⟨-, body, r, e⟩
    exact delimiter_not_quote hsp hc' (List.cons.inj e).1
  refine C90_tokens isSpace upper parseTerms hsp _ _ _ _ (key w hw) (key w' hw') ?_
  have hrefl : ∀ l : List Word, List.Forall₂ (fun w w' => w = w' ∨ ∃ kw, IsKeyword isSpace upper w kw ∧ IsKeyword isSpace upper w' kw) l l :=
    fun l => List.forall₂_same.2 fun _ _ => .inl rfl
  exact List.rel_append (hrefl ts1) (List.rel_append (hrefl pre) (.cons (.inr ⟨kw, hw, hw'⟩) (hrefl ts2)))

/-! ### Derivations -/

theorem parse_flat (hsp : SpaceOk isSpace) {q : Word} {ts : List Word} (h : Tokens isSpace q ts) (o : OrE)
    (ho : List.Forall₂ (TokOf upper) ts o.flat) :
    parseQuery isSpace upper parseTerms q =
      match o.mean parseTerms with
      | .ok (some t) => .ok (t, ignT parseTerms o.flat)
      | _ => .error .parse := by
  have e := (classify_forall upper _ _).1 ho
  rw [← (tokenize_iff hsp q ts).1 h] at e
  have hne := nonEmptyAtoms (isSpace := isSpace) upper q
  rw [e] at hne
  unfold parseQuery tokens
  rw [e]
  unfold parseTokens
  rw [parseOr_complete (toks := o.flat ++ [Tok.eof]) o (5 * (o.flat ++ [Tok.eof]).length + 5) { index := 0, ignored := [] } .eof [] (by simp)
    ⟨notAtom_eof, by simp, by simp⟩ (by simp) hne (by simp <;> omega)]
  cases hm : o.mean parseTerms with
  | error e => rfl
  | ok m =>
    simp only [ret, lift, Except.map, bind, Except.bind]
    rw [require_adv (parseTerms := parseTerms) (l := []) (drop_adv (by simp)) notAtom_eof]
    cases m with
    | none => rfl
    | some m => simp [adv, pure, Except.pure]

/-- C90: brackets around a query with paired double quotes do not matter -/
theorem C90_brackets (hsp : SpaceOk isSpace) (hp : upper ['('] = ['('] ∧ upper [')'] = [')']) (q : Word) (hq : QuotesPaired q) (t : Node)
    (ign : List Word) (h : parseQuery isSpace upper parseTerms q = .ok (t, ign)) :
    parseQuery isSpace upper parseTerms ('(' :: q ++ [')']) = .ok (t, ign) := by
  obtain ⟨ts, o, k, c, m⟩ := (C47_grammar isSpace upper parseTerms hsp q t).1 ⟨_, h⟩
  rw [parse_flat isSpace upper parseTerms hsp k o c, m] at h
  have k' : Tokens isSpace ('(' :: q ++ [')']) (['('] :: ts ++ [[')']]) :=
    .paren '(' _ _ (.inl rfl) (tokens_append hsp k hq (.paren ')' _ _ (.inr rfl) .nil))
  rw [parse_flat isSpace upper parseTerms hsp k' (.one (.mk (.paren o) .nil)) (by
    simp only [OrE.flat, AndE.flat, TermE.flat, Items.flat, List.append_nil]
    exact .cons hp.1 (List.rel_append c (.cons hp.2 .nil)))]
  have hm : (OrE.one (.mk (.paren o) .nil)).mean parseTerms = .ok (some t) := by
    have hpm : (TermE.paren o).mean parseTerms = .ok (some t) := by
      rw [TermE.mean]
      exact m
    simp only [OrE.mean, OrE.parts, AndE.mean, hpm, Items.parts]
    rfl
  rw [hm]
  simp only [Except.ok.injEq, Prod.mk.injEq, true_and] at h ⊢
  rw [← h]
  simp [OrE.flat, AndE.flat, TermE.flat, Items.flat, ignT, atomsOf]

theorem join_toList (f : List Node → Node) (x : Option Node) : join f x.toList = x := by cases x <;> rfl

/-! ### Brackets -/

/-- open brackets minus closed brackets -/
def bal : List Tok → Int
  | [] => 0
  | .lparen :: l => bal l + 1
  | .rparen :: l => bal l - 1
  | _ :: l => bal l

theorem bal_append (a b : List Tok) : bal (a ++ b) = bal a + bal b := by
  induction a with
  | nil => simp [bal]
  | cons t a ih => cases t <;> simp [bal, ih] <;> omega

/-- the brackets of the list are paired -/
def Paired (l : List Tok) : Prop := bal l = 0 ∧ ∀ p, p <+: l → 0 ≤ bal p

theorem prefix_append_cases {p a b : List Tok} (h : p <+: a ++ b) : p <+: a ∨ ∃ c, p = a ++ c ∧ c <+: b := by
  obtain ⟨t, h⟩ := h
  rcases List.append_eq_append_iff.1 h with ⟨c, e, -⟩ | ⟨c, e, e'⟩
  · exact .inl ⟨c, e.symm⟩
  · exact .inr ⟨c, e, t, e'.symm⟩

theorem paired_append {a b : List Tok} (ha : Paired a) (hb : Paired b) : Paired (a ++ b) := by
  refine ⟨by rw [bal_append, ha.1, hb.1]; rfl, fun p hp => ?_⟩
  rcases prefix_append_cases hp with h | ⟨c, rfl, h⟩
  · exact ha.2 p h
  · rw [bal_append, ha.1]
    have := hb.2 c h
    omega

theorem paired_one {t : Tok} (h1 : t ≠ .lparen) (h2 : t ≠ .rparen) : Paired [t] := by
  have h : bal [t] = 0 := by cases t <;> simp_all [bal]
  refine ⟨h, fun p hp => ?_⟩
  rcases List.prefix_cons_iff.1 hp with rfl | ⟨q, rfl, hq⟩
  · simp [bal]
  · obtain rfl := List.prefix_nil.1 hq
    omega

theorem paired_brackets {a : List Tok} (ha : Paired a) : Paired (.lparen :: a ++ [.rparen]) := by
  refine ⟨by simp [bal, bal_append, ha.1], fun p hp => ?_⟩
  rw [List.cons_append] at hp
  rcases List.prefix_cons_iff.1 hp with rfl | ⟨q, rfl, hq⟩
  · simp [bal]
  · rcases prefix_append_cases hq with h | ⟨c, rfl, h⟩
    · have := ha.2 q h
      simp only [bal]
      omega
    · rw [show bal (Tok.lparen :: (a ++ c)) = bal (a ++ c) + 1 from rfl, bal_append, ha.1]
      rcases List.prefix_cons_iff.1 h with rfl | ⟨q, rfl, hq2⟩
      · simp [bal]
      · obtain rfl := List.prefix_nil.1 hq2
        simp [bal]

theorem paired_atoms (ws : List Word) : Paired (ws.map Tok.atom) := by
  induction ws with
  | nil => exact ⟨rfl, fun p hp => by rw [List.prefix_nil.1 hp]; simp [bal]⟩
  | cons w ws ih => exact paired_append (paired_one (t := .atom w) (by simp) (by simp)) ih

mutual

theorem OrE_paired : ∀ o : OrE, Paired o.flat
  | .one a => AndE_paired a
  | .more a rest => by
    rw [OrE.flat]
    exact paired_append (AndE_paired a) (paired_append (a := [.or]) (paired_one (by simp) (by simp)) (OrE_paired rest))

theorem AndE_paired : ∀ a : AndE, Paired a.flat
  | .mk t rest => paired_append (TermE_paired t) (Items_paired rest)

theorem Items_paired : ∀ i : Items, Paired i.flat
  | .nil => paired_atoms []
  | .andTerm t rest => by
    rw [Items.flat, List.cons_append]
    exact paired_append (a := [.and]) (paired_one (by simp) (by simp)) (paired_append (TermE_paired t) (Items_paired rest))
  | .andNot t rest => by
    rw [Items.flat, List.cons_append, List.cons_append]
    exact paired_append (a := [.and]) (paired_one (by simp) (by simp)) (paired_append (a := [.not]) (paired_one (by simp) (by simp))
      (paired_append (TermE_paired t) (Items_paired rest)))
  | .not t rest => by
    rw [Items.flat, List.cons_append]
    exact paired_append (a := [.not]) (paired_one (by simp) (by simp)) (paired_append (TermE_paired t) (Items_paired rest))

theorem TermE_paired : ∀ t : TermE, Paired t.flat
  | .paren o => paired_brackets (OrE_paired o)
  | .atoms w ws => paired_atoms (w :: ws)

end

/-- a bracketed part of two phrases lies in one of them -/
theorem paired_split {x y a m b : List Tok} (hx : Paired x) (hm : Paired m) (h : x ++ y = a ++ (.lparen :: m ++ [.rparen]) ++ b) :
    (∃ b', x = a ++ (.lparen :: m ++ [.rparen]) ++ b' ∧ b = b' ++ y) ∨
    (∃ a', a = x ++ a' ∧ y = a' ++ (.lparen :: m ++ [.rparen]) ++ b) := by
  rw [List.append_assoc] at h
  rcases List.append_eq_append_iff.1 h with ⟨a', rfl, e⟩ | ⟨c, rfl, e⟩
  · exact .inr ⟨a', rfl, by rw [e, ← List.append_assoc]⟩
  · rcases List.append_eq_append_iff.1 e with ⟨d, rfl, e'⟩ | ⟨d, e', e''⟩
    · exact .inl ⟨d, by simp, e'⟩
    · -- `c` ends inside the brackets
      rcases c with _ | ⟨t, p⟩
      · refine .inr ⟨[], by simp, ?_⟩
        simp only [List.nil_append] at e' ⊢
        rw [e'', ← e']
      · rcases List.eq_nil_or_concat d with rfl | ⟨d, z, rfl⟩
        · refine .inl ⟨[], ?_, ?_⟩
          · rw [e']; simp
          · simpa using e''.symm
        · exfalso
          rw [List.cons_append, List.cons_append, List.cons.injEq] at e'
          obtain ⟨rfl, e'⟩ := e'
          rw [List.concat_eq_append, ← List.append_assoc] at e'
          obtain ⟨e1, -⟩ := List.append_inj' e' rfl
          have h1 := hm.2 p ⟨d, e1.symm⟩
          have h2 := hx.2 a ⟨_, rfl⟩
          have h3 := hx.1
          rw [bal_append, show bal (Tok.lparen :: p) = bal p + 1 from rfl] at h3
          omega

mutual

theorem OrE_double : ∀ (o : OrE) (a m b : List Tok), Paired m → o.flat = a ++ (.lparen :: m ++ [.rparen]) ++ b →
    ∃ o' : OrE, o'.flat = a ++ (.lparen :: (.lparen :: m ++ [.rparen]) ++ [.rparen]) ++ b ∧ o'.parts parseTerms = o.parts parseTerms
  | .one x, a, m, b, hm, h => by
    obtain ⟨x', h1, h2⟩ := AndE_double x a m b hm h
    exact ⟨.one x', h1, by rw [OrE.parts, OrE.parts, h2]⟩
  | .more x rest, a, m, b, hm, h => by
    rw [OrE.flat] at h
    rcases paired_split (AndE_paired x) hm h with ⟨b', h1, rfl⟩ | ⟨a', rfl, h2⟩
    · obtain ⟨x', e1, e2⟩ := AndE_double x a m b' hm h1
      exact ⟨.more x' rest, by rw [OrE.flat, e1]; simp, by rw [OrE.parts, OrE.parts, e2]⟩
    · rcases paired_split (x := [.or]) (y := rest.flat) (paired_one (by simp) (by simp)) hm h2 with ⟨b', h1, -⟩ | ⟨a', rfl, h3⟩
      · have := congrArg List.length h1
        simp at this
        omega
      · obtain ⟨r', e1, e2⟩ := OrE_double rest a' m b hm h3
        exact ⟨.more x r', by rw [OrE.flat, e1]; simp, by rw [OrE.parts, OrE.parts, e2]⟩

theorem AndE_double : ∀ (x : AndE) (a m b : List Tok), Paired m → x.flat = a ++ (.lparen :: m ++ [.rparen]) ++ b →
    ∃ x' : AndE, x'.flat = a ++ (.lparen :: (.lparen :: m ++ [.rparen]) ++ [.rparen]) ++ b ∧ x'.mean parseTerms = x.mean parseTerms
  | .mk t rest, a, m, b, hm, h => by
    rw [AndE.flat] at h
    rcases paired_split (TermE_paired t) hm h with ⟨b', h1, rfl⟩ | ⟨a', rfl, h2⟩
    · obtain ⟨t', e1, e2⟩ := TermE_double t a m b' hm h1
      exact ⟨.mk t' rest, by rw [AndE.flat, e1]; simp, by rw [AndE.mean, AndE.mean, e2]⟩
    · obtain ⟨r', e1, e2⟩ := Items_double rest a' m b hm h2
      exact ⟨.mk t r', by rw [AndE.flat, e1]; simp, by rw [AndE.mean, AndE.mean, e2]⟩

theorem Items_double : ∀ (i : Items) (a m b : List Tok), Paired m → i.flat = a ++ (.lparen :: m ++ [.rparen]) ++ b →
    ∃ i' : Items, i'.flat = a ++ (.lparen :: (.lparen :: m ++ [.rparen]) ++ [.rparen]) ++ b ∧ i'.parts parseTerms = i.parts parseTerms
  | .nil, a, m, b, _, h => by simp [Items.flat] at h
  | .andTerm t rest, a, m, b, hm, h => by
    rw [Items.flat, List.cons_append] at h
    rcases paired_split (x := [.and]) (y := t.flat ++ rest.flat) (paired_one (by simp) (by simp)) hm h with ⟨b', h1, -⟩ | ⟨a', rfl, h2⟩
    · have := congrArg List.length h1
      simp at this
      omega
    · rcases paired_split (TermE_paired t) hm h2 with ⟨b', h1, rfl⟩ | ⟨a', rfl, h3⟩
      · obtain ⟨t', e1, e2⟩ := TermE_double t a' m b' hm h1
        exact ⟨.andTerm t' rest, by rw [Items.flat, e1]; simp, by rw [Items.parts, Items.parts, e2]⟩
      · obtain ⟨r', e1, e2⟩ := Items_double rest a' m b hm h3
        exact ⟨.andTerm t r', by rw [Items.flat, e1]; simp, by rw [Items.parts, Items.parts, e2]⟩
  | .andNot t rest, a, m, b, hm, h => by
    rw [Items.flat, List.cons_append, List.cons_append] at h
    rcases paired_split (x := [.and, .not]) (y := t.flat ++ rest.flat) (paired_append (a := [.and]) (paired_one (by simp) (by simp))
      (paired_one (by simp) (by simp))) hm h with ⟨b', h1, -⟩ | ⟨a', rfl, h2⟩
    · have : Tok.lparen ∈ [Tok.and, Tok.not] := by rw [h1]; simp
      simp at this
    · rcases paired_split (TermE_paired t) hm h2 with ⟨b', h1, rfl⟩ | ⟨a', rfl, h3⟩
      · obtain ⟨t', e1, e2⟩ := TermE_double t a' m b' hm h1
        exact ⟨.andNot t' rest, by rw [Items.flat, e1]; simp, by rw [Items.parts, Items.parts, e2]⟩
      · obtain ⟨r', e1, e2⟩ := Items_double rest a' m b hm h3
        exact ⟨.andNot t r', by rw [Items.flat, e1]; simp, by rw [Items.parts, Items.parts, e2]⟩
  | .not t rest, a, m, b, hm, h => by
    rw [Items.flat, List.cons_append] at h
    rcases paired_split (x := [.not]) (y := t.flat ++ rest.flat) (paired_one (by simp) (by simp)) hm h with ⟨b', h1, -⟩ | ⟨a', rfl, h2⟩
    · have := congrArg List.length h1
      simp at this
      omega
    · rcases paired_split (TermE_paired t) hm h2 with ⟨b', h1, rfl⟩ | ⟨a', rfl, h3⟩
      · obtain ⟨t', e1, e2⟩ := TermE_double t a' m b' hm h1
        exact ⟨.not t' rest, by rw [Items.flat, e1]; simp, by rw [Items.parts, Items.parts, e2]⟩
      · obtain ⟨r', e1, e2⟩ := Items_double rest a' m b hm h3
        exact ⟨.not t r', by rw [Items.flat, e1]; simp, by rw [Items.parts, Items.parts, e2]⟩

theorem TermE_double : ∀ (t : TermE) (a m b : List Tok), Paired m → t.flat = a ++ (.lparen :: m ++ [.rparen]) ++ b →
    ∃ t' : TermE, t'.flat = a ++ (.lparen :: (.lparen :: m ++ [.rparen]) ++ [.rparen]) ++ b ∧ t'.mean parseTerms = t.mean parseTerms
  | .atoms w ws, a, m, b, _, h => by
    have : Tok.lparen ∈ (TermE.atoms w ws).flat := by rw [h]; simp
    simp [TermE.flat] at this
  | .paren o, [], m, b, hm, h => by
    rw [TermE.flat, List.nil_append, List.cons_append, List.cons_append, List.cons_append, List.cons.injEq] at h
    have h := h.2
    have hb : b = [] := by
      rcases List.eq_nil_or_concat b with hb | ⟨b, z, rfl⟩
      · exact hb
      · exfalso
        rw [List.concat_eq_append, ← List.append_assoc] at h
        obtain ⟨e, -⟩ := List.append_inj' h rfl
        have := (OrE_paired o).2 (m ++ [.rparen]) ⟨b, e.symm⟩
        rw [bal_append, hm.1] at this
        simp [bal] at this
    subst hb
    simp only [List.append_nil, List.append_cancel_right_eq] at h
    subst h
    refine ⟨.paren (.one (.mk (.paren o) .nil)), by simp [TermE.flat, OrE.flat, AndE.flat, Items.flat], ?_⟩
    rw [TermE.mean, OrE.parts, AndE.mean, TermE.mean, Items.parts]
    cases o.parts parseTerms with
    | error e => rfl
    | ok l =>
      simp only [bind, Except.bind, pure, Except.pure, join_toList, List.append_nil]
      cases join Node.or l <;> rfl
  | .paren o, x :: a, m, b, hm, h => by
    rw [TermE.flat, List.cons_append, List.cons_append, List.cons_append, List.cons.injEq] at h
    obtain ⟨rfl, h⟩ := h
    rcases paired_split (OrE_paired o) hm h with ⟨b', h1, rfl⟩ | ⟨a', rfl, h2⟩
    · obtain ⟨o', e1, e2⟩ := OrE_double o a m b' hm h1
      exact ⟨.paren o', by rw [TermE.flat, e1]; simp, by rw [TermE.mean, TermE.mean, e2]⟩
    · have := congrArg List.length h2
      simp at this
      omega

end

/-- C90: brackets doubled anywhere in a query: `q1 (q) q2` and `q1 ((q)) q2` -/
theorem C90_brackets_inside (hsp : SpaceOk isSpace) (hp : upper ['('] = ['('] ∧ upper [')'] = [')']) (q1 q q2 : Word)
    (h1 : QuotesPaired q1) (h2 : QuotesPaired q) (hq : ∃ r, parseQuery isSpace upper parseTerms q = .ok r) (t : Node) (ign : List Word)
    (h : parseQuery isSpace upper parseTerms (q1 ++ '(' :: q ++ ')' :: q2) = .ok (t, ign)) :
    parseQuery isSpace upper parseTerms (q1 ++ '(' :: '(' :: q ++ ')' :: ')' :: q2) = .ok (t, ign) := by
  obtain ⟨⟨tq, ignq⟩, hq⟩ := hq
  obtain ⟨tsq, oq, kq, cq, -⟩ := (C47_grammar isSpace upper parseTerms hsp q tq).1 ⟨_, hq⟩
  obtain ⟨ts1, k1⟩ := tokens_exists hsp q1
  obtain ⟨ts2, k2⟩ := tokens_exists hsp q2
  have k : Tokens isSpace (q1 ++ '(' :: q ++ ')' :: q2) (ts1 ++ ['('] :: (tsq ++ [')'] :: ts2)) := by
    rw [List.append_assoc]
    exact tokens_append_at hsp k1 h1 (fun h => h.1 rfl) (by decide) (.paren '(' _ _ (.inl rfl)
      (tokens_append hsp kq h2 (.paren ')' _ _ (.inr rfl) k2)))
  have k' : Tokens isSpace (q1 ++ '(' :: '(' :: q ++ ')' :: ')' :: q2) (ts1 ++ ['('] :: ['('] :: (tsq ++ [')'] :: [')'] :: ts2)) := by
    rw [List.append_assoc]
    exact tokens_append_at hsp k1 h1 (fun h => h.1 rfl) (by decide) (.paren '(' _ _ (.inl rfl) (.paren '(' _ _ (.inl rfl)
      (tokens_append hsp kq h2 (.paren ')' _ _ (.inr rfl) (.paren ')' _ _ (.inr rfl) k2)))))
  obtain ⟨ts, o, ko, c, m⟩ := (C47_grammar isSpace upper parseTerms hsp _ t).1 ⟨_, h⟩
  obtain rfl : ts = _ := by rw [← (tokenize_iff hsp _ ts).1 ko, (tokenize_iff hsp _ _).1 k]
  have e := (classify_forall upper _ _).1 c
  have eq := (classify_forall upper _ _).1 cq
  have hl := (classify_iff upper ['('] .lparen).2 hp.1
  have hr := (classify_iff upper [')'] .rparen).2 hp.2
  simp only [List.map_append, List.map_cons, hl, hr, eq] at e
  obtain ⟨o', f', m'⟩ := OrE_double parseTerms o (ts1.map (classify upper)) oq.flat (ts2.map (classify upper)) (OrE_paired oq)
    (by rw [← e]; simp)
  rw [parse_flat isSpace upper parseTerms hsp k o c] at h
  rw [parse_flat isSpace upper parseTerms hsp k' o' ((classify_forall upper _ _).2 (by
    simp only [List.map_append, List.map_cons, hl, hr, eq, f']
    simp))]
  have hm : o'.mean parseTerms = o.mean parseTerms := by rw [OrE.mean, OrE.mean, m']
  rw [m] at h
  rw [hm, m]
  simp only [Except.ok.injEq, Prod.mk.injEq, true_and] at h ⊢
  rw [← h, f', ← e]
  simp only [ignT, List.append_assoc, List.cons_append, List.nil_append]
  congr 1
  simp [atomsOf, List.filterMap_append]

/-- `AND w1 AND w2 ...`, then `tail` -/
def andItems (tail : Items) : List Word → Items
  | [] => tail
  | w :: ws => .andTerm (.atoms w []) (andItems tail ws)

/-- `AND NOT w1 AND NOT w2 ...` -/
def andNotItems : List Word → Items
  | [] => .nil
  | w :: ws => .andNot (.atoms w []) (andNotItems ws)

/-- `NOT w1 NOT w2 ...` -/
def notItems : List Word → Items
  | [] => .nil
  | w :: ws => .not (.atoms w []) (notItems ws)

theorem atomMean_plain {w : Word} (h : w.head? ≠ some '-') (m : Bool × Node) (hm : atomMean parseTerms w = some m) : m.1 = false := by
  unfold atomMean at hm
  split at hm
  · cases hm
  · cases hm; simpa using h
  · cases hm; simpa using h

/-- the nodes of some terms, ignored ones left out -/
def termNodes (ws : List Word) : List Node := (ws.filterMap (atomMean parseTerms)).map (·.2)

theorem termNodes_cons (w : Word) (ws : List Word) :
    termNodes parseTerms (w :: ws) = ((atomMean parseTerms w).map (·.2)).toList ++ termNodes parseTerms ws := by
  unfold termNodes
  rw [List.filterMap_cons]
  cases atomMean parseTerms w <;> simp

theorem atoms_plain {ws : List Word} (h : ∀ w ∈ ws, w.head? ≠ some '-') :
    atomsMean parseTerms ws = .ok (join .and (termNodes parseTerms ws)) := by
  have hf : ∀ m ∈ ws.filterMap (atomMean parseTerms), m.1 = false := by
    intro m hm
    obtain ⟨w, hw, e⟩ := List.mem_filterMap.1 hm
    exact atomMean_plain parseTerms (h w hw) m e
  unfold atomsMean termNodes
  dsimp only
  rw [List.filter_eq_self.2 (fun m hm => by simp [hf m hm]), List.filter_eq_nil_iff.2 (fun m hm => by simp [hf m hm])]
  simp

theorem atoms_one {w : Word} (h : w.head? ≠ some '-') :
    (TermE.atoms w []).mean parseTerms = .ok ((atomMean parseTerms w).map (·.2)) := by
  rw [TermE.mean, atoms_plain parseTerms (by simpa using h), termNodes_cons]
  cases atomMean parseTerms w <;> rfl

theorem andItems_parts {ws : List Word} (h : ∀ w ∈ ws, w.head? ≠ some '-') {tail : Items} {p n : List Node}
    (ht : tail.parts parseTerms = .ok (p, n)) : (andItems tail ws).parts parseTerms = .ok (termNodes parseTerms ws ++ p, n) := by
  induction ws with
  | nil => exact ht
  | cons w ws ih =>
    rw [andItems, Items.parts, atoms_one parseTerms (h w (by simp)), ih fun w hw => h w (by simp [hw]), termNodes_cons]
    simp [bind, Except.bind, pure, Except.pure]

theorem andNotItems_parts {vs : List Word} (h : ∀ w ∈ vs, w.head? ≠ some '-') :
    (andNotItems vs).parts parseTerms = .ok ([], termNodes parseTerms vs) ∧
    (notItems vs).parts parseTerms = .ok ([], termNodes parseTerms vs) := by
  induction vs with
  | nil => exact ⟨rfl, rfl⟩
  | cons w vs ih =>
    obtain ⟨h1, h2⟩ := ih fun w hw => h w (by simp [hw])
    rw [andNotItems, notItems, Items.parts, Items.parts, atoms_one parseTerms (h w (by simp)), h1, h2, termNodes_cons]
    simp [bind, Except.bind, pure, Except.pure]

/-- the meaning of `w1 AND w2 ... AND NOT v1 ...` -/
theorem mean_items {w : Word} {ws : List Word} (h : ∀ x ∈ w :: ws, x.head? ≠ some '-') {tail : Items} {n : List Node}
    (ht : tail.parts parseTerms = .ok ([], n)) :
    (OrE.one (.mk (.atoms w []) (andItems tail ws))).mean parseTerms =
      .ok (if termNodes parseTerms (w :: ws) = [] then none else join .and (termNodes parseTerms (w :: ws) ++ n.map .not)) := by
  rw [OrE.mean, OrE.parts, AndE.mean, atoms_one parseTerms (h w (by simp)), andItems_parts parseTerms (fun x hx => h x (by simp [hx])) ht,
    termNodes_cons]
  simp only [bind, Except.bind, pure, Except.pure, join_toList, List.append_nil, List.isEmpty_iff]

/-- the meaning of the terms side by side -/
theorem mean_atoms {w : Word} {ws : List Word} {m : Option Node} (h : atomsMean parseTerms (w :: ws) = .ok m) :
    (OrE.one (.mk (.atoms w ws) .nil)).mean parseTerms = .ok m := by
  rw [OrE.mean, OrE.parts, AndE.mean, TermE.mean, h, Items.parts]
  simp only [bind, Except.bind, pure, Except.pure, join_toList, List.append_nil]
  cases m <;> rfl

theorem flat_and (hu : upper ['A', 'N', 'D'] = ['A', 'N', 'D']) {w : Word} {ws : List Word} (h : ∀ x ∈ w :: ws, TokOf upper x (.atom x))
    {tail : Items} {us : List Word} (ht : List.Forall₂ (TokOf upper) us tail.flat) :
    List.Forall₂ (TokOf upper) (withAnd (w :: ws) ++ us) (Tok.atom w :: (andItems tail ws).flat) := by
  induction ws generalizing w with
  | nil => exact .cons (h w (by simp)) ht
  | cons v ws ih =>
    have := ih (w := v) fun x hx => h x (by simp only [List.mem_cons] at hx ⊢; exact .inr hx)
    rw [withAnd, andItems, Items.flat]
    · exact .cons (h w (by simp)) (.cons hu (by simpa [TermE.flat] using this))
    · simp

theorem flat_juxtaposed {ws : List Word} (h : ∀ x ∈ ws, TokOf upper x (.atom x)) :
    List.Forall₂ (TokOf upper) ws (ws.map Tok.atom) := by
  induction ws with
  | nil => exact .nil
  | cons w ws ih => exact .cons (h w (by simp)) (ih fun x hx => h x (by simp [hx]))

theorem atomsOf_items (ws : List Word) : atomsOf (andItems .nil ws).flat = ws := by
  induction ws with
  | nil => rfl
  | cons w ws ih =>
    rw [andItems, Items.flat, TermE.flat]
    simp only [List.map_nil, List.cons_append, List.nil_append]
    show w :: atomsOf (andItems .nil ws).flat = _
    rw [ih]

theorem atomsOf_atoms (ws : List Word) : atomsOf (ws.map Tok.atom) = ws := by
  induction ws with
  | nil => rfl
  | cons w ws ih => show w :: atomsOf (ws.map Tok.atom) = _; rw [ih]

theorem withAnd_mem {ws : List Word} {x : Word} (h : x ∈ withAnd ws) : x ∈ ws ∨ x = ['A', 'N', 'D'] := by
  induction ws with
  | nil => cases h
  | cons w ws ih =>
    cases ws with
    | nil => exact .inl h
    | cons v ws =>
      rw [withAnd] at h
      · simp only [List.mem_cons] at h ih ⊢
        rcases h with rfl | rfl | h
        · simp
        · simp
        · rcases ih h with h | h <;> tauto
      · simp

theorem keyword_shape (hu : KeywordsOk isSpace upper) :
    TermShape isSpace ['A', 'N', 'D'] ∧ TermShape isSpace ['N', 'O', 'T'] := by
  have hl := hu.letters
  constructor <;> refine .inl ⟨by decide, fun c hc => ⟨?_, ?_, ?_, hl c ?_⟩⟩ <;> revert c <;> decide

/-- C90: terms side by side mean the same as with `AND` between them, and the same terms are ignored -/
theorem C90_and (hsp : SpaceOk isSpace) (hu : KeywordsOk isSpace upper) (ts : List Word) (ht : ∀ w ∈ ts, IsTerm isSpace upper w)
    (hh : ∀ w ∈ ts, w.head? ≠ some '-') :
    parseQuery isSpace upper parseTerms (spaced ts) = parseQuery isSpace upper parseTerms (spaced (withAnd ts)) := by
  match ts, ht, hh with
  | [], _, _ => rfl
  | w :: ws, ht, hh =>
    have hta : ∀ x ∈ w :: ws, TokOf upper x (.atom x) := fun x hx => (ht x hx).2
    have k1 := tokens_spaced hu.blank hsp.quote (ts := w :: ws) fun x hx => (ht x hx).1
    have k2 := tokens_spaced hu.blank hsp.quote (ts := withAnd (w :: ws)) fun x hx => by
      rcases withAnd_mem hx with h | rfl
      · exact (ht x h).1
      · exact (keyword_shape isSpace upper hu).1
    rw [parse_flat isSpace upper parseTerms hsp k1 (.one (.mk (.atoms w ws) .nil)) (by
        simp only [OrE.flat, AndE.flat, TermE.flat, Items.flat, List.append_nil]
        exact flat_juxtaposed upper hta),
      parse_flat isSpace upper parseTerms hsp k2 (.one (.mk (.atoms w []) (andItems .nil ws))) (by
        simp only [OrE.flat, AndE.flat, TermE.flat, List.map_nil, List.cons_append, List.nil_append]
        have := flat_and upper hu.and (tail := .nil) (us := []) hta .nil
        simpa using this),
      mean_items parseTerms hh rfl, mean_atoms parseTerms (atoms_plain parseTerms hh)]
    have e1 : (OrE.one (.mk (.atoms w ws) .nil)).flat = (w :: ws).map Tok.atom := by
      simp [OrE.flat, AndE.flat, TermE.flat, Items.flat]
    have e2 : atomsOf (OrE.one (.mk (.atoms w []) (andItems .nil ws))).flat = w :: ws := by
      simp only [OrE.flat, AndE.flat, TermE.flat, List.map_nil, List.cons_append, List.nil_append]
      show w :: atomsOf _ = _
      rw [atomsOf_items]
    rw [e1, ignT, ignT, atomsOf_atoms, e2, List.map_nil, List.append_nil]
    congr 1
    split
    · rename_i h; rw [h]; rfl
    · rfl

/-- C90: a term with a hyphen, after at least one without, means the same as `AND NOT` or `NOT` and the term, provided that the
lexicon finds the same words in it with and without the hyphen.  (Of the ignored terms, those with a hyphen are reported with it.) -/
theorem C90_hyphen (hsp : SpaceOk isSpace) (hu : KeywordsOk isSpace upper) (ws vs : List Word) (h0 : ws ≠ [])
    (ht : ∀ w ∈ ws, IsTerm isSpace upper w ∧ w.head? ≠ some '-')
    (hv : ∀ v ∈ vs, IsTerm isSpace upper v ∧ IsTerm isSpace upper ('-' :: v) ∧ v.head? ≠ some '-' ∧ parseTerms ('-' :: v) = parseTerms v) :
    (parseQuery isSpace upper parseTerms (spaced (ws ++ vs.map ('-' :: ·)))).map Prod.fst =
      (parseQuery isSpace upper parseTerms (spaced (withAnd ws ++ vs.flatMap fun v => [['A', 'N', 'D'], ['N', 'O', 'T'], v]))).map Prod.fst ∧
    (parseQuery isSpace upper parseTerms (spaced (ws ++ vs.map ('-' :: ·)))).map Prod.fst =
      (parseQuery isSpace upper parseTerms (spaced (withAnd ws ++ vs.flatMap fun v => [['N', 'O', 'T'], v]))).map Prod.fst := by
  match ws, ht, h0 with
  | w :: ws, ht, _ =>
    have hta : ∀ x ∈ w :: ws, TokOf upper x (.atom x) := fun x hx => (ht x hx).1.2
    have hh : ∀ x ∈ w :: ws, x.head? ≠ some '-' := fun x hx => (ht x hx).2
    have hvh : ∀ x ∈ vs, x.head? ≠ some '-' := fun x hx => (hv x hx).2.2.1
    obtain ⟨sA, sN⟩ := keyword_shape isSpace upper hu
    have k0 := tokens_spaced hu.blank hsp.quote (ts := w :: ws ++ vs.map ('-' :: ·)) fun x hx => by
      rcases List.mem_append.1 hx with h | h
      · exact (ht x h).1.1
      · obtain ⟨v, hm, rfl⟩ := List.mem_map.1 h
        exact (hv v hm).2.1.1
    have k1 := tokens_spaced hu.blank hsp.quote (ts := withAnd (w :: ws) ++ vs.flatMap fun v => [['A', 'N', 'D'], ['N', 'O', 'T'], v])
      fun x hx => by
        rcases List.mem_append.1 hx with h | h
        · rcases withAnd_mem h with h | rfl
          · exact (ht x h).1.1
          · exact sA
        · obtain ⟨v, hm, h⟩ := List.mem_flatMap.1 h
          simp only [List.mem_cons, List.not_mem_nil, or_false] at h
          rcases h with rfl | rfl | rfl
          · exact sA
          · exact sN
          · exact (hv _ hm).1.1
    have k2 := tokens_spaced hu.blank hsp.quote (ts := withAnd (w :: ws) ++ vs.flatMap fun v => [['N', 'O', 'T'], v])
      fun x hx => by
        rcases List.mem_append.1 hx with h | h
        · rcases withAnd_mem h with h | rfl
          · exact (ht x h).1.1
          · exact sA
        · obtain ⟨v, hm, h⟩ := List.mem_flatMap.1 h
          simp only [List.mem_cons, List.not_mem_nil, or_false] at h
          rcases h with rfl | rfl
          · exact sN
          · exact (hv _ hm).1.1
    -- the tokens of the negated terms
    have f1 : List.Forall₂ (TokOf upper) (vs.flatMap fun v => [['A', 'N', 'D'], ['N', 'O', 'T'], v]) (andNotItems vs).flat := by
      clear k0 k1 k2 hvh
      induction vs with
      | nil => exact .nil
      | cons v vs ih =>
        rw [andNotItems, Items.flat, TermE.flat, List.flatMap_cons]
        exact .cons hu.and (.cons hu.not (.cons (hv v (by simp)).1.2 (ih fun x hx => hv x (by simp [hx]))))
    have f2 : List.Forall₂ (TokOf upper) (vs.flatMap fun v => [['N', 'O', 'T'], v]) (notItems vs).flat := by
      clear k0 k1 k2 hvh f1
      induction vs with
      | nil => exact .nil
      | cons v vs ih =>
        rw [notItems, Items.flat, TermE.flat, List.flatMap_cons]
        exact .cons hu.not (.cons (hv v (by simp)).1.2 (ih fun x hx => hv x (by simp [hx])))
    obtain ⟨p1, p2⟩ := andNotItems_parts parseTerms hvh
    rw [parse_flat isSpace upper parseTerms hsp k0 (.one (.mk (.atoms w (ws ++ vs.map ('-' :: ·))) .nil)) (by
        simp only [OrE.flat, AndE.flat, TermE.flat, Items.flat, List.append_nil]
        refine flat_juxtaposed upper (ws := w :: ws ++ vs.map ('-' :: ·)) fun x hx => ?_
        rcases List.mem_append.1 hx with h | h
        · exact hta x h
        · obtain ⟨v, hm, rfl⟩ := List.mem_map.1 h
          exact (hv v hm).2.1.2),
      parse_flat isSpace upper parseTerms hsp k1 (.one (.mk (.atoms w []) (andItems (andNotItems vs) ws))) (by
        simp only [OrE.flat, AndE.flat, TermE.flat, List.map_nil, List.cons_append, List.nil_append]
        exact flat_and upper hu.and hta f1),
      parse_flat isSpace upper parseTerms hsp k2 (.one (.mk (.atoms w []) (andItems (notItems vs) ws))) (by
        simp only [OrE.flat, AndE.flat, TermE.flat, List.map_nil, List.cons_append, List.nil_append]
        exact flat_and upper hu.and hta f2),
      mean_items parseTerms hh p1, mean_items parseTerms hh p2]
    -- the terms side by side
    have hneg : (vs.map ('-' :: ·)).filterMap (atomMean parseTerms) = (vs.filterMap (atomMean parseTerms)).map fun m => (true, m.2) := by
      clear k0 k1 k2 f1 f2 p1 p2 hvh
      induction vs with
      | nil => rfl
      | cons v vs ih =>
        have e : atomMean parseTerms ('-' :: v) = (atomMean parseTerms v).map fun m => (true, m.2) := by
          unfold atomMean
          rw [(hv v (by simp)).2.2.2]
          split <;> simp
        rw [List.map_cons, List.filterMap_cons, List.filterMap_cons, e, ih fun x hx => hv x (by simp [hx])]
        cases atomMean parseTerms v <;> rfl
    have hpos : ∀ m ∈ (w :: ws).filterMap (atomMean parseTerms), m.1 = false := by
      intro m hm
      obtain ⟨x, hx, e⟩ := List.mem_filterMap.1 hm
      exact atomMean_plain parseTerms (hh x hx) m e
    have hat : atomsMean parseTerms (w :: (ws ++ vs.map ('-' :: ·))) =
        if termNodes parseTerms (w :: ws) = [] ∧ termNodes parseTerms vs ≠ [] then .error ()
        else .ok (join .and (termNodes parseTerms (w :: ws) ++ (termNodes parseTerms vs).map Node.not)) := by
      unfold atomsMean
      dsimp only
      have a1 : ((w :: ws).filterMap (atomMean parseTerms)).filter (fun m => !m.1) = (w :: ws).filterMap (atomMean parseTerms) :=
        List.filter_eq_self.2 fun m hm => by simp [hpos m hm]
      have a2 : ((w :: ws).filterMap (atomMean parseTerms)).filter (fun m => m.1) = [] :=
        List.filter_eq_nil_iff.2 fun m hm => by simp [hpos m hm]
      have a3 : ((vs.filterMap (atomMean parseTerms)).map fun m => (true, m.2)).filter (fun m => !m.1) = [] :=
        List.filter_eq_nil_iff.2 fun m hm => by obtain ⟨x, -, rfl⟩ := List.mem_map.1 hm; simp
      have a4 : ((vs.filterMap (atomMean parseTerms)).map fun m => (true, m.2)).filter (fun m => m.1) =
          (vs.filterMap (atomMean parseTerms)).map fun m => (true, m.2) :=
        List.filter_eq_self.2 fun m hm => by obtain ⟨x, -, rfl⟩ := List.mem_map.1 hm; simp
      rw [← List.cons_append, List.filterMap_append, hneg, List.filter_append, List.filter_append, a1, a2, a3, a4]
      unfold termNodes
      simp only [List.append_nil, List.nil_append, List.isEmpty_iff, List.map_eq_nil_iff, List.map_map, ne_eq]
      rfl
    have hside : ∀ (ign ign' : List Word),
        (match (OrE.one (.mk (.atoms w (ws ++ vs.map ('-' :: ·))) .nil)).mean parseTerms with
          | .ok (some t) => (.ok (t, ign) : Except Fail (Node × List Word))
          | _ => .error .parse).map Prod.fst =
        (match (.ok (if termNodes parseTerms (w :: ws) = [] then none
            else join .and (termNodes parseTerms (w :: ws) ++ (termNodes parseTerms vs).map Node.not)) : Except Unit (Option Node)) with
          | .ok (some t) => (.ok (t, ign') : Except Fail (Node × List Word))
          | _ => .error .parse).map Prod.fst := by
      intro ign ign'
      by_cases hp : termNodes parseTerms (w :: ws) = []
      · rw [if_pos hp]
        by_cases hn : termNodes parseTerms vs = []
        · rw [mean_atoms parseTerms (m := none) (by rw [hat, if_neg (by simp [hn]), hp, hn]; rfl)]
        · rw [if_pos ⟨hp, hn⟩] at hat
          have : (OrE.one (.mk (.atoms w (ws ++ vs.map ('-' :: ·))) .nil)).mean parseTerms = .error () := by
            rw [OrE.mean, OrE.parts, AndE.mean, TermE.mean, hat]
            rfl
          rw [this]
      · rw [if_neg hp]
        rw [if_neg (by simp [hp])] at hat
        rw [mean_atoms parseTerms hat]
        cases join Node.and (termNodes parseTerms (w :: ws) ++ (termNodes parseTerms vs).map Node.not) <;> rfl
    exact ⟨hside _ _, hside _ _⟩

end parse

/-! ## Answers -/

/-- C90: `apply` gives the same answer to the same query, in every state of every index -/
theorem C90_apply {D R : Type} [LinearOrder D] (K : Text.Kind D R) (isSpace : Char → Bool) (upper : Word → Word)
    (odd : Word → Except PyErr (Word → Bool)) (pipeline : List Element) (s : Text.TI D R) (q q' : Word)
    (h : (parseQuery isSpace upper (Lexicon.parseTerms pipeline) q).map Prod.fst =
      (parseQuery isSpace upper (Lexicon.parseTerms pipeline) q').map Prod.fst) :
    Text.apply K isSpace upper odd pipeline s q = Text.apply K isSpace upper odd pipeline s q' := by
  unfold Text.apply
  cases e : parseQuery isSpace upper (Lexicon.parseTerms pipeline) q with
  | error x =>
    cases e' : parseQuery isSpace upper (Lexicon.parseTerms pipeline) q' with
    | error y => rfl
    | ok r => rw [e, e'] at h; cases h
  | ok r =>
    cases e' : parseQuery isSpace upper (Lexicon.parseTerms pipeline) q' with
    | error y => rw [e, e'] at h; cases h
    | ok r' =>
      rw [e, e'] at h
      obtain ⟨t, i⟩ := r
      obtain ⟨t', i'⟩ := r'
      obtain rfl : t = t' := Except.ok.inj h
      rfl

/-- the default pipeline finds the same words with and without a hyphen in front, as `C90_hyphen` needs -/
theorem hyphen_default (isW : Char → Bool) (lower : Word → Word) (h : isW '-' = false) (v : Word) :
    Lexicon.parseTerms (Text.defaultPipeline isW lower) ('-' :: v) = Lexicon.parseTerms (Text.defaultPipeline isW lower) v := by
  change ((Splitter.processGlob isW ['-' :: v]).map lower).filter (fun w => !isStop w) =
    ((Splitter.processGlob isW [v]).map lower).filter (fun w => !isStop w)
  have : Splitter.findall isW (fun c => isW c || Lexicon.isGlobChar c) ('-' :: v) =
      Splitter.findall isW (fun c => isW c || Lexicon.isGlobChar c) v := by
    unfold Splitter.findall
    rw [List.length_cons, Splitter.findallF, h]
    rfl
  unfold Splitter.processGlob
  rw [List.flatMap_singleton, List.flatMap_singleton, this]

/-! ## The hypotheses are met -/

theorem exTerm {w : Word} (h1 : w ≠ []) (h2 : ∀ c ∈ w, c ≠ '(' ∧ c ≠ ')' ∧ c ≠ '"' ∧ exIsSpace c = false)
    (h3 : exUpper w ≠ ['A', 'N', 'D'] ∧ exUpper w ≠ ['O', 'R'] ∧ exUpper w ≠ ['N', 'O', 'T'] ∧ exUpper w ≠ ['('] ∧ exUpper w ≠ [')']) :
    IsTerm exIsSpace exUpper w := ⟨.inl ⟨h1, h2⟩, rfl, h3⟩

-- `dog big -eel` and `dog AND big AND NOT eel`
example {D R : Type} [LinearOrder D] (K : Text.Kind D R) (odd : Word → Except PyErr (Word → Bool)) (s : Text.TI D R) :
    Text.apply K exIsSpace exUpper odd exPipeline s ['d', 'o', 'g', ' ', 'b', 'i', 'g', ' ', '-', 'e', 'e', 'l'] =
      Text.apply K exIsSpace exUpper odd exPipeline s ['d', 'o', 'g', ' ', 'A', 'N', 'D', ' ', 'b', 'i', 'g', ' ', 'A', 'N', 'D', ' ', 'N', 'O', 'T', ' ', 'e', 'e', 'l'] := by
  refine C90_apply K exIsSpace exUpper odd exPipeline s _ _ ?_
  have := (C90_hyphen exIsSpace exUpper (Lexicon.parseTerms exPipeline) exIsSpace_ok exKeywordsOk [['d', 'o', 'g'], ['b', 'i', 'g']] [['e', 'e', 'l']]
    (by simp) (by
      intro w hw
      simp only [List.mem_cons, List.not_mem_nil, or_false] at hw
      rcases hw with rfl | rfl <;> exact ⟨exTerm (by decide) (by decide) (by decide), by decide⟩) (by
      intro w hw
      simp only [List.mem_cons, List.not_mem_nil, or_false] at hw
      obtain rfl := hw
      exact ⟨exTerm (by decide) (by decide) (by decide), exTerm (by decide) (by decide) (by decide), by decide,
        hyphen_default exIsW exLowerWord (by decide) _⟩)).1
  exact this

-- ` dog  oR "big eel"` and `(dog or "big eel")`
example : parseQuery exIsSpace exUpper exParseTerms [' ', 'd', 'o', 'g', ' ', ' ', 'o', 'R', ' ', '"', 'b', 'i', 'g', ' ', 'e', 'e', 'l', '"'] =
    parseQuery exIsSpace exUpper exParseTerms ['d', 'o', 'g', ' ', 'o', 'r', ' ', '"', 'b', 'i', 'g', ' ', 'e', 'e', 'l', '"'] := by
  refine (C90_margins exIsSpace exUpper exParseTerms exIsSpace_ok ['d', 'o', 'g', ' ', ' ', 'o', 'R', ' ', '"', 'b', 'i', 'g', ' ', 'e', 'e', 'l', '"'] [] [' '] (by decide)
    (by unfold QuotesPaired; decide)).1.trans ?_
  refine (C90_spaces exIsSpace exUpper exParseTerms exIsSpace_ok ['d', 'o', 'g'] ['o', 'R', ' ', '"', 'b', 'i', 'g', ' ', 'e', 'e', 'l', '"'] [' ', ' '] [' ']
    (by unfold QuotesPaired; decide) (by simp) (by simp) (by decide) (by decide)).trans ?_
  exact C90_case exIsSpace exUpper exParseTerms exIsSpace_ok ['d', 'o', 'g'] ['"', 'b', 'i', 'g', ' ', 'e', 'e', 'l', '"'] ['o', 'R'] ['o', 'r'] ['O', 'R'] ' ' ' '
    (by unfold QuotesPaired; decide) (.inl (by decide)) (.inl (by decide)) ⟨by decide, by unfold WordChar; decide, by decide, by decide⟩
    ⟨by decide, by unfold WordChar; decide, by decide, by decide⟩

example : parseQuery exIsSpace exUpper exParseTerms ['(', 'd', 'o', 'g', ' ', 'o', 'r', ' ', '"', 'b', 'i', 'g', ' ', 'e', 'e', 'l', '"', ')'] =
    .ok (.or [.atom ['d', 'o', 'g'], .phrase [['b', 'i', 'g'], ['e', 'e', 'l']]], []) :=
  C90_brackets exIsSpace exUpper exParseTerms exIsSpace_ok ⟨by decide, by decide⟩ ['d', 'o', 'g', ' ', 'o', 'r', ' ', '"', 'b', 'i', 'g', ' ', 'e', 'e', 'l', '"']
    (by unfold QuotesPaired; decide) _ _ rfl

-- `a AND (b OR c)` and `a AND ((b OR c))`
example : parseQuery exIsSpace exUpper exParseTerms (['a', ' ', 'A', 'N', 'D', ' '] ++
      '(' :: '(' :: ['b', ' ', 'O', 'R', ' ', 'c'] ++ ')' :: ')' :: []) =
    .ok (.and [.atom ['a'], .or [.atom ['b'], .atom ['c']]], []) :=
  C90_brackets_inside exIsSpace exUpper exParseTerms exIsSpace_ok ⟨by decide, by decide⟩ ['a', ' ', 'A', 'N', 'D', ' ']
    ['b', ' ', 'O', 'R', ' ', 'c'] [] (by unfold QuotesPaired; decide) (by unfold QuotesPaired; decide) ⟨_, rfl⟩ _ _ rfl

-- `dog the big` and `dog AND the AND big`; `the` is ignored in both
example : parseQuery exIsSpace exUpper (Lexicon.parseTerms exPipeline) ['d', 'o', 'g', ' ', 't', 'h', 'e', ' ', 'b', 'i', 'g'] =
    parseQuery exIsSpace exUpper (Lexicon.parseTerms exPipeline) ['d', 'o', 'g', ' ', 'A', 'N', 'D', ' ', 't', 'h', 'e', ' ', 'A', 'N', 'D', ' ', 'b', 'i', 'g'] :=
  C90_and exIsSpace exUpper (Lexicon.parseTerms exPipeline) exIsSpace_ok exKeywordsOk [['d', 'o', 'g'], ['t', 'h', 'e'], ['b', 'i', 'g']]
    (by
      intro w hw
      simp only [List.mem_cons, List.not_mem_nil, or_false] at hw
      rcases hw with rfl | rfl | rfl <;> exact exTerm (by decide) (by decide) (by decide))
    (by decide)

/-- C90: brackets inside double quotes, and white space there, are part of the text; and `a) OR (b` is no query although it is one
with brackets around it -/
example : parseQuery exIsSpace exUpper exParseTerms ['a', ')', ' ', 'O', 'R', ' ', '(', 'b'] = .error .parse ∧
    parseQuery exIsSpace exUpper exParseTerms ['(', 'a', ')', ' ', 'O', 'R', ' ', '(', 'b', ')'] = .ok (.or [.atom ['a'], .atom ['b']], []) := ⟨rfl, rfl⟩

end Verif
