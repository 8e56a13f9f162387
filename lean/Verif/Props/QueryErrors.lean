import Verif.Props.TextSearch

/-! C60 for all pipelines: the exceptions of a query come from its glob patterns and from the parser, never from arithmetic. -/

set_option autoImplicit false

namespace Verif

open Spec Text Lexicon

variable {D R : Type} [LinearOrder D] {A : Arith R} {Pos : R → Prop} {K : Kind D R}

/-- the documents each leaf finds, read off the answers of an index -/
def foundBy (ix : Searcher D R) : Leaves D where
  word w := match ix.search w with
    | .ok (some m) => some (fun d => d ∈ m.keys)
    | _ => none
  phrase ws := match ix.searchPhrase ws with
    | .ok (some m) => some (fun d => d ∈ m.keys)
    | _ => none
  glob w := match ix.searchGlob w with
    | .ok (some m) => some (fun d => d ∈ m.keys)
    | _ => none

/-- an answer with positive scores only, or no answer -/
def Positives (Pos : R → Prop) (r : Option (SMap D R)) : Prop := ∀ m d v, r = some m → m.get? d = some v → Pos v

theorem leaf_kind {n t : Node} (h : LeafOf n t) : (∃ w, n = .atom w) ∨ (∃ ws, n = .phrase ws) ∨ ∃ w, n = .glob w := by
  induction h with
  | atom w => exact Or.inl ⟨w, rfl⟩
  | phrase ws => exact Or.inr (Or.inl ⟨ws, rfl⟩)
  | glob w => exact Or.inr (Or.inr ⟨w, rfl⟩)
  | not _ _ _ ih => exact ih
  | and _ _ _ _ _ ih => exact ih
  | or _ _ _ _ _ ih => exact ih

/-- when no leaf fails the tree does not fail -/
theorem execute_positive {A : WArith R} (hA : Closed A Pos) {ix : Searcher D R} {t : Node} (hc : Clean t)
    (h : ∀ n, LeafOf n t → ∃ r, n.execute A ix = .ok r ∧ Positives Pos r) :
    ∃ r, t.execute A ix = .ok r ∧ Positives Pos r := by
  obtain ⟨r, e, ha⟩ := execute_answers (L := foundBy ix) hA hc (by
    intro n hn
    obtain ⟨r, e, hp⟩ := h n hn
    refine ⟨r, e, ?_⟩
    rcases leaf_kind hn with ⟨w, rfl⟩ | ⟨ws, rfl⟩ | ⟨w, rfl⟩
    · rw [Node.execute] at e
      rw [Leaves.matches?]
      show Answers Pos r (match ix.search w with | .ok (some m) => some (fun d => d ∈ m.keys) | _ => none)
      rw [e]
      cases r with
      | none => trivial
      | some m => exact ⟨fun _ => Iff.rfl, fun d v hd => hp m d v rfl hd⟩
    · rw [Node.execute] at e
      rw [Leaves.matches?]
      show Answers Pos r (match ix.searchPhrase ws with | .ok (some m) => some (fun d => d ∈ m.keys) | _ => none)
      rw [e]
      cases r with
      | none => trivial
      | some m => exact ⟨fun _ => Iff.rfl, fun d v hd => hp m d v rfl hd⟩
    · rw [Node.execute] at e
      rw [Leaves.matches?]
      show Answers Pos r (match ix.searchGlob w with | .ok (some m) => some (fun d => d ∈ m.keys) | _ => none)
      rw [e]
      cases r with
      | none => trivial
      | some m => exact ⟨fun _ => Iff.rfl, fun d v hd => hp m d v rfl hd⟩)
  refine ⟨r, e, ?_⟩
  rintro m d v rfl hd
  rcases answers_cases ha with ⟨h, -⟩ | ⟨m', P, h, -, -, hp⟩
  · cases h
  · cases h; exact hp d v hd

theorem executeOr_error {A : WArith R} {ix : Searcher D R} {Bad : PyErr → Prop} (l : List Node)
    (h : ∀ n ∈ l, (∃ r, n.execute A ix = .ok r) ∨ ∃ e, n.execute A ix = .error e ∧ Bad e)
    (hx : ∃ n ∈ l, ∃ e, n.execute A ix = .error e) : ∃ e, Node.executeOr A ix l = .error e ∧ Bad e := by
  induction l with
  | nil => obtain ⟨n, hn, -⟩ := hx; cases hn
  | cons n l ih =>
    rw [Node.executeOr]
    rcases h n List.mem_cons_self with ⟨r, e⟩ | ⟨e, he, hb⟩
    · obtain ⟨x, hm, e', he'⟩ := hx
      rcases List.mem_cons.1 hm with rfl | hm
      · rw [e] at he'; cases he'
      · obtain ⟨e2, h2, h3⟩ := ih (fun x hx => h x (List.mem_cons_of_mem _ hx)) ⟨x, hm, e', he'⟩
        rw [e, h2]
        exact ⟨e2, rfl, h3⟩
    · rw [he]
      exact ⟨e, rfl, hb⟩

/-- what is executed for an operand of AND -/
def andOperand : Node → Node
  | .not m => m
  | n => n

theorem executeAnd_error {A : WArith R} {ix : Searcher D R} {Bad : PyErr → Prop} (l : List Node)
    (h : ∀ n ∈ l, (∃ r, (andOperand n).execute A ix = .ok r) ∨ ∃ e, (andOperand n).execute A ix = .error e ∧ Bad e)
    (hx : ∃ n ∈ l, ∃ e, (andOperand n).execute A ix = .error e) : ∃ e, Node.executeAnd A ix l = .error e ∧ Bad e := by
  induction l with
  | nil => obtain ⟨n, hn, -⟩ := hx; cases hn
  | cons n l ih =>
    have key : (∃ r, (andOperand n).execute A ix = .ok r) → ∃ e, Node.executeAnd A ix l = .error e ∧ Bad e := by
      rintro ⟨r, e⟩
      obtain ⟨x, hm, e', he'⟩ := hx
      rcases List.mem_cons.1 hm with rfl | hm
      · rw [e] at he'; cases he'
      · exact ih (fun x hx => h x (List.mem_cons_of_mem _ hx)) ⟨x, hm, e', he'⟩
    have h0 := h n List.mem_cons_self
    have fin : ∀ m, m = andOperand n → (∀ f : Option (SMap D R) → List (SMap D R) × List (SMap D R) → Except PyErr (List (SMap D R) × List (SMap D R)),
        (do let r ← m.execute A ix; let ms ← Node.executeAnd A ix l; f r ms) =
        .error (match m.execute A ix with | .error e => e | .ok _ => match Node.executeAnd A ix l with | .error e => e | .ok _ => .KeyError)) := by
      rintro m rfl f
      rcases h0 with ⟨r, e⟩ | ⟨e, he, hb⟩
      · obtain ⟨e2, h2, h3⟩ := key ⟨r, e⟩
        rw [e, h2]; rfl
      · rw [he]; rfl
    have bad : ∀ m, m = andOperand n →
        Bad (match m.execute A ix with | .error e => e | .ok _ => match Node.executeAnd A ix l with | .error e => e | .ok _ => .KeyError) := by
      rintro m rfl
      rcases h0 with ⟨r, e⟩ | ⟨e, he, hb⟩
      · obtain ⟨e2, h2, h3⟩ := key ⟨r, e⟩
        rw [e, h2]; exact h3
      · rw [he]; exact hb
    cases n with
    | not m =>
      rw [Node.executeAnd]
      exact ⟨_, fin m rfl _, bad m rfl⟩
    | atom w => rw [Node.executeAnd]; · exact ⟨_, fin _ rfl _, bad _ rfl⟩
                · rintro m h; cases h
    | phrase w => rw [Node.executeAnd]; · exact ⟨_, fin _ rfl _, bad _ rfl⟩
                  · rintro m h; cases h
    | glob w => rw [Node.executeAnd]; · exact ⟨_, fin _ rfl _, bad _ rfl⟩
                · rintro m h; cases h
    | and w => rw [Node.executeAnd]; · exact ⟨_, fin _ rfl _, bad _ rfl⟩
               · rintro m h; cases h
    | or w => rw [Node.executeAnd]; · exact ⟨_, fin _ rfl _, bad _ rfl⟩
              · rintro m h; cases h

theorem andOperand_clean {n : Node} (h : Clean n) : andOperand n = n := by
  cases h <;> rfl

/-- a tree fails only with an exception of one of its leaves -/
theorem execute_error {A : WArith R} (hA : Closed A Pos) {ix : Searcher D R} {Bad : PyErr → Prop} {t : Node} (hc : Clean t)
    (h : ∀ n, LeafOf n t → (∃ r, n.execute A ix = .ok r ∧ Positives Pos r) ∨ ∃ e, n.execute A ix = .error e ∧ Bad e) :
    (∀ n, LeafOf n t → ∃ r, n.execute A ix = .ok r ∧ Positives Pos r) ∨ ∃ e, t.execute A ix = .error e ∧ Bad e := by
  induction hc with
  | atom w =>
    rcases h _ (.atom w) with h | h
    · left; intro n hn; cases hn; exact h
    · exact Or.inr h
  | phrase ws _ =>
    rcases h _ (.phrase ws) with h | h
    · left; intro n hn; cases hn; exact h
    · exact Or.inr h
  | glob w =>
    rcases h _ (.glob w) with h | h
    · left; intro n hn; cases hn; exact h
    · exact Or.inr h
  | and pos neg _ _ hcp hcn ih1 ih2 =>
    have h1 : ∀ n ∈ pos, _ := fun n hn => ih1 n hn (fun x hx => h x (.and x n _ (List.mem_append_left _ hn) hx))
    have h2 : ∀ n ∈ neg, _ := fun n hn => ih2 n hn (fun x hx =>
      h x (.and x (.not n) _ (List.mem_append_right _ (List.mem_map.2 ⟨n, hn, rfl⟩)) (.not x n hx)))
    by_cases hx : ∃ n ∈ pos ++ neg.map Node.not, ∃ e, (andOperand n).execute A ix = .error e
    · right
      obtain ⟨e, he, hb⟩ := executeAnd_error (Bad := Bad) (pos ++ neg.map Node.not) (by
        intro n hn
        rcases List.mem_append.1 hn with hn | hn
        · rw [andOperand_clean (hcp n hn)]
          rcases h1 n hn with h | h
          · exact Or.inl ((execute_positive hA (hcp n hn) h).imp (fun _ h => h.1))
          · exact Or.inr h
        · obtain ⟨m, hm, rfl⟩ := List.mem_map.1 hn
          show (∃ r, m.execute A ix = .ok r) ∨ _
          rcases h2 m hm with h | h
          · exact Or.inl ((execute_positive hA (hcn m hm) h).imp (fun _ h => h.1))
          · exact Or.inr h) hx
      refine ⟨e, ?_, hb⟩
      rw [Node.execute, he]; rfl
    · left
      intro x hx'
      generalize hl : Node.and (pos ++ neg.map Node.not) = T at hx'
      cases hx' with
      | atom => cases hl
      | phrase => cases hl
      | glob => cases hl
      | not => cases hl
      | or => cases hl
      | and x n l hn hxn =>
        cases hl
        rcases List.mem_append.1 hn with hn' | hn'
        · rcases h1 n hn' with h | ⟨e, he, -⟩
          · exact h x hxn
          · exact absurd ⟨n, hn, e, by rw [andOperand_clean (hcp n hn')]; exact he⟩ hx
        · obtain ⟨m, hm, rfl⟩ := List.mem_map.1 hn'
          cases hxn with
          | not _ _ hxm =>
            rcases h2 m hm with h | ⟨e, he, -⟩
            · exact h x hxm
            · exact absurd ⟨_, hn, e, he⟩ hx
  | or l _ hcl ih =>
    have h1 : ∀ n ∈ l, _ := fun n hn => ih n hn (fun x hx => h x (.or x n _ hn hx))
    by_cases hx : ∃ n ∈ l, ∃ e, n.execute A ix = .error e
    · right
      obtain ⟨e, he, hb⟩ := executeOr_error (Bad := Bad) l (by
        intro n hn
        rcases h1 n hn with h | h
        · exact Or.inl ((execute_positive hA (hcl n hn) h).imp (fun _ h => h.1))
        · exact Or.inr h) hx
      refine ⟨e, ?_, hb⟩
      rw [Node.execute, he]; rfl
    · left
      intro x hx'
      generalize hl : Node.or l = T at hx'
      cases hx' with
      | atom => cases hl
      | phrase => cases hl
      | glob => cases hl
      | not => cases hl
      | and => cases hl
      | or x n l hn hxn =>
        cases hl
        rcases h1 n hn with h | ⟨e, he, -⟩
        · exact h x hxn
        · exact absurd ⟨n, hn, e, he⟩ hx

/-- what `globToWordIds` raises: `QueryError`, or what compiling the regular expression raises -/
theorem glob_errors {odd : Word → Except PyErr (Word → Bool)} {lex : Lexicon} {p : Word} {e : PyErr}
    (h : lex.globToWordIds odd p = .error e) : e = .GlobQueryError ∨ odd p = .error e := by
  unfold globToWordIds at h
  dsimp only at h
  split at h
  · cases h
  · split at h
    · cases h; exact Or.inl rfl
    · cases hc : Lexicon.compile odd (p.takeWhile (fun c => !isGlobChar c)) (p.dropWhile (fun c => !isGlobChar c)) with
      | ok prog => rw [hc] at h; cases h
      | error x =>
        rw [hc] at h
        cases h
        right
        unfold compile at hc
        split at hc
        · rw [List.takeWhile_append_dropWhile] at hc; exact hc
        · cases hc

/-- C60 for all pipelines and all queries: `TextIndex.apply` answers with positive scores, or raises `ParseError`, or the `QueryError`
of a pattern that starts with a glob character, or the exception of a pattern that is no regular expression; nothing else -/
theorem C60_errors (hA : Positive A Pos) (hK : Ranked A Pos K) (isSpace : Char → Bool) (upper : Word → Word)
    (odd : Word → Except PyErr (Word → Bool)) (pipeline : List Element) (ops : List (Text.Op D)) (hs : SmallLexicon pipeline ops)
    (he : K.hasTotal = true → LengthsExact A pipeline ops) (s : TI D R) (hr : run K pipeline ops = .ok s) (q : Word) :
    (∃ r, apply K isSpace upper odd pipeline s q = .ok r ∧ ∀ m d v, r = some m → m.get? d = some v → Pos v) ∨
    apply K isSpace upper odd pipeline s q = .error .ParseError ∨
    apply K isSpace upper odd pipeline s q = .error .GlobQueryError ∨
    ∃ p e, odd p = .error e ∧ apply K isSpace upper odd pipeline s q = .error e := by
  rcases C46_total isSpace upper (Lexicon.parseTerms pipeline) q with ⟨t, ign, hq⟩ | hq
  · have hc := C48_shape isSpace upper _ q t ign hq
    have hleaf : ∀ n, LeafOf n t →
        (∃ r, n.execute A.toWArith (searcher K odd pipeline s) = .ok r ∧ Positives Pos r) ∨
        ∃ e, n.execute A.toWArith (searcher K odd pipeline s) = .error e ∧ (e = .GlobQueryError ∨ ∃ p, odd p = .error e) := by
      intro n hn
      rcases leaf_kind hn with ⟨w, rfl⟩ | ⟨ws, rfl⟩ | ⟨w, rfl⟩
      · left
        rw [Node.execute]
        exact (C60_searches hA hK pipeline ops hs he s hr (.str w) (by simp)).1
      · left
        obtain ⟨r, e, hp⟩ := (C60_searches hA hK pipeline ops hs he s hr (.list ws) (by simp)).2.1
        refine ⟨some r, ?_, ?_⟩
        · rw [Node.execute]
          show (searchPhrase K pipeline s.lex s.ix (.list ws)).map some = _
          rw [e]; rfl
        · rintro m d v h hd
          cases h
          exact hp d v hd
      · rw [Node.execute]
        show (∃ r, (searchGlob K odd s.lex s.ix w).map some = .ok r ∧ _) ∨ ∃ e, (searchGlob K odd s.lex s.ix w).map some = .error e ∧ _
        cases hg : s.lex.globToWordIds odd w with
        | ok ids =>
          left
          obtain ⟨hl, hi, hso, -⟩ := hK.run hA hs he hr
          have ha := hK.arith
          subst ha
          obtain ⟨r, e, -, hp⟩ := searchGlob_ok hA hso odd s.lex w ids hg
          rw [e]
          exact ⟨some r, rfl, by rintro m d v h hd; cases h; exact hp d v hd⟩
        | error e =>
          right
          refine ⟨e, ?_, (glob_errors hg).imp id (fun h => ⟨w, h⟩)⟩
          unfold searchGlob
          rw [hg]; rfl
    have hcl := hA.closed
    obtain ⟨-, -, -, hwt⟩ := hK.run hA hs he hr
    have har := hK.arith
    subst har
    unfold apply
    rw [hq]
    simp only
    unfold applyTree
    rcases execute_error hcl hc hleaf with hall | ⟨e, ee, hb⟩
    · left
      obtain ⟨r, e, hp⟩ := execute_positive hcl hc hall
      rw [e, bind_ok]
      cases r with
      | none => exact ⟨none, rfl, hp⟩
      | some m =>
        simp only
        by_cases hem : m.isEmpty = true
        · rw [if_pos hem]
          exact ⟨_, rfl, hp⟩
        · rw [if_neg hem]
          obtain ⟨ids, ei⟩ := termWids_ok pipeline s.lex t.terms (terms_ne_none t)
          obtain ⟨w, ew, hw⟩ := hwt ids
          have eq : queryWeight K pipeline s t.terms = .ok w := by
            unfold queryWeight; rw [ei, bind_ok]; exact ew
          rw [eq, bind_ok]
          have hpw : Pos (if K.arith.isZero w = true then K.arith.one else w) := by
            split
            · exact hA.one
            · rename_i h0
              rcases hw with h | h
              · exact absurd h h0
              · exact h
          obtain ⟨r, er, hk, hp', -⟩ := scale_ok hA (fun d v hd => hp m d v rfl hd) (hA.mul _ _ hpw hA.one)
          rw [er, bind_ok]
          exact ⟨_, rfl, by rintro m d v h hd; cases h; exact hp' d v hd⟩
    · right
      right
      rw [ee]
      rcases hb with rfl | ⟨p, hp⟩
      · exact Or.inl rfl
      · exact Or.inr ⟨p, e, hp, rfl⟩
  · right
    left
    unfold apply
    rw [hq]

/-- the example: the query `(a*` of an index without splitter, when `re.compile` rejects the pattern: that exception is raised -/
example : ((run (okapi exPosArith { k1 := 1, b := 1 }) [] [.index (1 : Nat) (.str ['a'])]).bind (fun s =>
    apply (okapi exPosArith { k1 := 1, b := 1 }) exIsSpace exUpper (fun _ => .error .ValueError) [] s ['a', '|', 'b', '*'])).toOption.isNone = true ∧
    ((run (okapi exPosArith { k1 := 1, b := 1 }) [] [.index (1 : Nat) (.str ['a'])]).bind (fun s =>
    apply (okapi exPosArith { k1 := 1, b := 1 }) exIsSpace exUpper (fun _ => .error .ValueError) [] s ['a', '*'])).toOption.map
      (fun r => r.map SMap.keys) = some (some [1]) := by decide +kernel

end Verif
