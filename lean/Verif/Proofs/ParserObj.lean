import Verif.Model.ParserObj
import Verif.Proofs.KeywordHeap
import Verif.Proofs.QueryTokens

/-! The parser object behaves like the functions of `Verif.Model.QueryParser`, whatever it was used for before. -/

set_option autoImplicit false

namespace Verif.ParserObj

open QueryParser (Fail Tok St)

/-- the token type of a token -/
def kindOf : Tok → TType
  | .and => .and
  | .or => .or
  | .not => .not
  | .lparen => .lparen
  | .rparen => .rparen
  | .atom _ => .atom
  | .eof => .eof

theorem kindOf_classify (upper : Word → Word) (w : Word) : kindOf (QueryParser.classify upper w) = typeOf upper w := by
  unfold QueryParser.classify typeOf
  simp only
  split
  · rfl
  split
  · rfl
  split
  · rfl
  split
  · rfl
  split <;> rfl

/-- the term, if it is one the lexicon knows no words for -/
def ignoredAtom (parseTerms : Word → List Word) : Tok → Option Word
  | .atom w => if parseTerms w = [] then some w else none
  | _ => none

theorem bind_ok {α β : Type} {f : PM α} {k : α → PM β} {m m' : Mem} {x : α} (h : f m = (.ok x, m')) : (f >>= k) m = k x m' := by
  show (match f m with | (.ok x, m') => k x m' | (.error e, m') => (.error e, m')) = _
  rw [h]

theorem bind_error {α β : Type} {f : PM α} {k : α → PM β} {m m' : Mem} {e : Fail} (h : f m = (.error e, m')) :
    (f >>= k) m = (.error e, m') := by
  show (match f m with | (.ok x, m') => k x m' | (.error e, m') => (.error e, m')) = _
  rw [h]

variable {parseTerms : Word → List Word} {toks : List Tok} {h₀ : Heap (List Word)} {a : Nat}

/-- the parser `m` is in the state `st` of the other model; its list of ignored terms is at `a`, and the other lists are those of `h₀` -/
structure Rep (parseTerms : Word → List Word) (toks : List Tok) (h₀ : Heap (List Word)) (a : Nat) (m : Mem) (st : St) : Prop where
  types : m.obj.types = toks.map kindOf
  len : m.obj.tokens.length = toks.length
  tokens : ∀ (i : Nat) (w : Word), toks[i]? = some (Tok.atom w) → m.obj.tokens[i]? = some w
  index : m.obj.index = st.index
  ignored : m.obj.ignored = some a
  list : m.lists.get? a = some st.ignored
  others : ∀ b, b ≠ a → m.lists.get? b = h₀.get? b
  next : m.lists.next = h₀.next
  mean : st.ignored = (toks.take st.index).filterMap (ignoredAtom parseTerms)

/-- the outcomes of the two models agree; a parser that raised is in some state too -/
def Out (parseTerms : Word → List Word) (toks : List Tok) (h₀ : Heap (List Word)) (a : Nat) {α : Type} (r : Except Fail α × Mem) :
    Except Fail (α × St) → Prop
  | .ok p => r.1 = .ok p.1 ∧ Rep parseTerms toks h₀ a r.2 p.2
  | .error e => r.1 = .error e ∧ ∃ st, Rep parseTerms toks h₀ a r.2 st

theorem Out.bind {α β : Type} {f : PM α} {m : Mem} {e : Except Fail (α × St)} {k : α → PM β} {k' : α × St → Except Fail (β × St)}
    (h : Out parseTerms toks h₀ a (f m) e)
    (hk : ∀ x st m', Rep parseTerms toks h₀ a m' st → Out parseTerms toks h₀ a (k x m') (k' (x, st))) :
    Out parseTerms toks h₀ a ((f >>= k) m) (e >>= k') := by
  obtain ⟨o, m', hf⟩ : ∃ o m', f m = (o, m') := ⟨_, _, rfl⟩
  rw [hf] at h
  cases e with
  | ok p =>
    obtain ⟨h1, h2⟩ := h
    simp only at h1 h2
    subst h1
    rw [bind_ok hf]
    exact hk _ _ _ h2
  | error e =>
    obtain ⟨h1, h2⟩ := h
    simp only at h1 h2
    subst h1
    rw [bind_error hf]
    exact ⟨rfl, h2⟩

/-- the same for steps that are not in the other model -/
theorem Out.ret {α : Type} {x : α} {m : Mem} {st : St} (h : Rep parseTerms toks h₀ a m st) :
    Out parseTerms toks h₀ a ((pure x : PM α) m) (.ok (x, st)) := ⟨rfl, h⟩

theorem Out.raise {α : Type} {e : Fail} {m : Mem} {st : St} (h : Rep parseTerms toks h₀ a m st) :
    Out parseTerms toks h₀ a ((fail e : PM α) m) (.error e) := ⟨rfl, st, h⟩

theorem kindOf_get {m : Mem} {st : St} (h : Rep parseTerms toks h₀ a m st) :
    m.obj.types[m.obj.index]? = (toks[st.index]?).map kindOf := by
  rw [h.types, h.index, List.getElem?_map]

theorem currentType_none {m : Mem} {st : St} (h : Rep parseTerms toks h₀ a m st) (hg : toks[st.index]? = none) :
    currentType m = (.error .index, m) := by
  unfold currentType; rw [kindOf_get h, hg]; rfl

theorem currentType_some {m : Mem} {st : St} (h : Rep parseTerms toks h₀ a m st) {t : Tok} (hg : toks[st.index]? = some t) :
    currentType m = (.ok (kindOf t), m) := by
  unfold currentType; rw [kindOf_get h, hg]; rfl

/-- the token types other than `ATOM` belong to one token -/
theorem kindOf_eq {t t' : Tok} (ht : ∀ w, t ≠ .atom w) : kindOf t' = kindOf t ↔ t' = t := by
  cases t <;> cases t' <;> simp_all [kindOf]

theorem Rep.advance {m : Mem} {st : St} (h : Rep parseTerms toks h₀ a m st) {t : Tok} (ht : toks[st.index]? = some t)
    (hn : ignoredAtom parseTerms t = none) :
    Rep parseTerms toks h₀ a { m with obj := { m.obj with index := m.obj.index + 1 } } { st with index := st.index + 1 } where
  types := h.types
  len := h.len
  tokens := h.tokens
  index := by show m.obj.index + 1 = _; rw [h.index]
  ignored := h.ignored
  list := h.list
  others := h.others
  next := h.next
  mean := by
    show st.ignored = (toks.take (st.index + 1)).filterMap _
    rw [List.take_add_one, ht, List.filterMap_append, h.mean]
    simp [hn]

theorem check_out {m : Mem} {st : St} (h : Rep parseTerms toks h₀ a m st) {t : Tok} (ht : ∀ w, t ≠ .atom w) :
    Out parseTerms toks h₀ a (check (kindOf t) m) (QueryParser.check toks t st) := by
  unfold check QueryParser.check
  cases hg : toks[st.index]? with
  | none =>
    rw [bind_error (currentType_none h hg)]
    exact ⟨rfl, st, h⟩
  | some t' =>
    rw [bind_ok (currentType_some h hg)]
    simp only
    by_cases he : t' = t
    · rw [if_pos he, if_pos (by rw [he])]
      subst he
      exact ⟨rfl, h.advance hg (by cases t' <;> first | rfl | exact absurd rfl (ht _))⟩
    · rw [if_neg he, if_neg (fun hk => he ((kindOf_eq ht).1 hk))]
      exact ⟨rfl, h⟩

theorem check_bind {β : Type} {m : Mem} {st : St} (h : Rep parseTerms toks h₀ a m st) {t : Tok} (ht : ∀ w, t ≠ .atom w)
    {kt kf : PM β} {kt' : St → Except Fail (β × St)} {kf' : Except Fail (β × St)}
    (h1 : ∀ st' m', Rep parseTerms toks h₀ a m' st' → Out parseTerms toks h₀ a (kt m') (kt' st'))
    (h2 : ∀ m', Rep parseTerms toks h₀ a m' st → st.index < toks.length → Out parseTerms toks h₀ a (kf m') kf') :
    Out parseTerms toks h₀ a ((check (kindOf t) >>= fun b => if b = true then kt else kf) m)
      (QueryParser.check toks t st >>= fun c => if c.1 = true then kt' c.2 else kf') := by
  have hc := check_out h ht
  have hst : ∀ p, QueryParser.check toks t st = .ok p → p.1 = false → p.2 = st ∧ st.index < toks.length := by
    intro p hp hf
    unfold QueryParser.check at hp
    cases hg : toks[st.index]? with
    | none => rw [hg] at hp; cases hp
    | some t' =>
      rw [hg] at hp
      simp only at hp
      split at hp
      · cases hp; cases hf
      · cases hp; exact ⟨rfl, (List.getElem?_eq_some_iff.1 hg).1⟩
  obtain ⟨o, m', hf⟩ : ∃ o m', check (kindOf t) m = (o, m') := ⟨_, _, rfl⟩
  rw [hf] at hc
  cases hq : QueryParser.check toks t st with
  | error e =>
    rw [hq] at hc
    obtain ⟨e1, e2⟩ := hc
    simp only at e1 e2
    subst e1
    rw [bind_error hf]
    exact ⟨rfl, e2⟩
  | ok p =>
    rw [hq] at hc
    obtain ⟨e1, e2⟩ := hc
    simp only at e1 e2
    subst e1
    rw [bind_ok hf]
    obtain ⟨b, st'⟩ := p
    cases b with
    | true => exact h1 _ _ e2
    | false =>
      obtain ⟨e3, e4⟩ := hst _ hq rfl
      simp only at e3
      subst e3
      exact h2 _ e2 e4

/-- steps that return nothing -/
def Out1 (parseTerms : Word → List Word) (toks : List Tok) (h₀ : Heap (List Word)) (a : Nat) (r : Except Fail Unit × Mem)
    (e : Except Fail St) : Prop := Out parseTerms toks h₀ a r (e.map (fun st => ((), st)))

theorem require_out {m : Mem} {st : St} (h : Rep parseTerms toks h₀ a m st) {t : Tok} (ht : ∀ w, t ≠ .atom w) :
    Out1 parseTerms toks h₀ a (require (kindOf t) m) (QueryParser.require toks t st) := by
  unfold Out1 require QueryParser.require
  have := check_bind h ht (kt := (pure () : PM Unit)) (kf := (currentToken >>= fun _ => fail .parse))
    (kt' := fun st => .ok ((), st)) (kf' := .error .parse) (fun st' m' h' => ⟨rfl, h'⟩) (fun m' h' hlt => by
      have : currentToken m' = (.ok (m'.obj.tokens[m'.obj.index]'(by rw [h'.index, h'.len]; exact hlt)), m') := by
        unfold currentToken
        rw [List.getElem?_eq_getElem]
      rw [bind_ok this]
      exact ⟨rfl, _, h'⟩)
  refine Eq.mp (congrArg _ ?_) this
  cases QueryParser.check toks t st with
  | error e => rfl
  | ok p => obtain ⟨b, st'⟩ := p; cases b <;> rfl

theorem peek_out {m : Mem} {st : St} (h : Rep parseTerms toks h₀ a m st) :
    Out parseTerms toks h₀ a (peek .atom m) ((QueryParser.peekAtom toks st).map (fun b => (b, st))) := by
  unfold peek QueryParser.peekAtom
  cases hg : toks[st.index]? with
  | none =>
    rw [bind_error (currentType_none h hg)]
    exact ⟨rfl, st, h⟩
  | some t' =>
    rw [bind_ok (currentType_some h hg)]
    cases t' <;> exact ⟨rfl, h⟩

theorem parseAtom_out {m : Mem} {st : St} (h : Rep parseTerms toks h₀ a m st) :
    Out parseTerms toks h₀ a (parseAtom parseTerms m) (QueryParser.parseAtom parseTerms toks st) := by
  unfold parseAtom QueryParser.parseAtom get QueryParser.getAtom
  cases hg : toks[st.index]? with
  | none =>
    have hl : m.obj.tokens[m.obj.index]? = none := by
      rw [h.index, List.getElem?_eq_none_iff, h.len]
      exact List.getElem?_eq_none_iff.1 hg
    show Out parseTerms toks h₀ a ((currentToken >>= _ >>= _) m) _
    have : (currentToken m : Except Fail Word × Mem) = (.error .index, m) := by unfold currentToken; rw [hl]
    simp only [Bind.bind, this]
    exact ⟨rfl, st, h⟩
  | some t =>
    have hlt := (List.getElem?_eq_some_iff.1 hg).1
    obtain ⟨tok, htok⟩ : ∃ tok, m.obj.tokens[m.obj.index]? = some tok := by
      rw [h.index]; exact ⟨_, List.getElem?_eq_getElem (by rw [h.len]; exact hlt)⟩
    have h1 : (currentToken m : Except Fail Word × Mem) = (.ok tok, m) := by unfold currentToken; rw [htok]
    have h2 : (currentType m : Except Fail TType × Mem) = (.ok (kindOf t), m) := by
      unfold currentType; rw [kindOf_get h, hg]; rfl
    by_cases ha : ∃ w, t = .atom w
    · obtain ⟨w, rfl⟩ := ha
      have hw : tok = w := by
        have := h.tokens _ _ hg
        rw [← h.index, htok] at this
        exact Option.some.inj this
      subst hw
      have h3 : (require .atom m : Except Fail Unit × Mem) = (.ok (), { m with obj := { m.obj with index := m.obj.index + 1 } }) := by
        unfold require check
        simp only [Bind.bind, h2, kindOf, advance]
        rfl
      simp only [Bind.bind, h1, h3, Except.bind]
      show Out parseTerms toks h₀ a ((match QueryParser.atomNode (parseTerms tok) with | none => _ | some tree => _ : PM (Option Node)) _) _
      cases hn : QueryParser.atomNode (parseTerms tok) with
      | none =>
        have hnil : parseTerms tok = [] := by
          unfold QueryParser.atomNode at hn
          split at hn
          · assumption
          · split at hn <;> cases hn
          · cases hn
        simp only [ignore, h.ignored]
        refine ⟨rfl, ?_⟩
        show Rep parseTerms toks h₀ a _ { index := st.index + 1, ignored := st.ignored ++ [tok] }
        exact {
          types := h.types
          len := h.len
          tokens := h.tokens
          index := by show m.obj.index + 1 = _; rw [h.index]
          ignored := rfl
          list := by
            show (m.lists.put a _).get? a = _
            rw [Heap.get?_put, if_pos rfl, h.list]; rfl
          others := fun b hb => by
            show (m.lists.put a _).get? b = _
            rw [Heap.get?_put, if_neg hb, h.others b hb]
          next := h.next
          mean := by
            show st.ignored ++ [tok] = (toks.take (st.index + 1)).filterMap _
            rw [List.take_add_one, hg, List.filterMap_append, h.mean]
            simp [ignoredAtom, hnil] }
      | some tree =>
        have hne : parseTerms tok ≠ [] := by
          intro hnil; rw [hnil] at hn; cases hn
        have hr := h.advance hg (by simp [ignoredAtom, hne])
        cases tok with
        | nil => exact ⟨rfl, _, hr⟩
        | cons c r =>
          simp only
          split
          · exact ⟨rfl, hr⟩
          · exact ⟨rfl, hr⟩
    · have hk : kindOf t ≠ .atom := by
        intro hk
        cases t <;> first | (cases hk; done) | exact ha ⟨_, rfl⟩
      have h4 : (check .atom m : Except Fail Bool × Mem) = (.ok false, m) := by
        unfold check
        rw [bind_ok h2, if_neg hk]
        rfl
      have h3 : (require .atom m : Except Fail Unit × Mem) = (.error .parse, m) := by
        unfold require
        rw [bind_ok h4]
        simp only [Bool.false_eq_true, if_false]
        rw [bind_ok h1]
        rfl
      simp only [Bind.bind, h1, h3]
      cases t <;> first | exact ⟨rfl, st, h⟩ | exact absurd ⟨_, rfl⟩ ha

theorem atomLoop_out (fuel : Nat) : ∀ {m : Mem} {st : St} (nodes : List (Option Node)), Rep parseTerms toks h₀ a m st →
    Out parseTerms toks h₀ a (atomLoop parseTerms fuel nodes m) (QueryParser.atomLoop parseTerms toks fuel nodes st) := by
  induction fuel with
  | zero => intro m st nodes h; exact ⟨rfl, st, h⟩
  | succ fuel ih =>
    intro m st nodes h
    unfold atomLoop QueryParser.atomLoop
    have hp := peek_out h
    have := Out.bind (k := fun b => if b = true then (parseAtom parseTerms >>= fun n => atomLoop parseTerms fuel (nodes ++ [n])) else pure nodes)
      (k' := fun p => if p.1 = true then QueryParser.parseAtom parseTerms toks p.2 >>= fun r =>
        QueryParser.atomLoop parseTerms toks fuel (nodes ++ [r.1]) r.2 else .ok (nodes, p.2)) hp (by
      intro b st' m' h'
      cases b with
      | true => exact Out.bind (parseAtom_out h') (fun x st'' m'' h'' => ih _ h'')
      | false => exact ⟨rfl, h'⟩)
    refine Eq.mp (congrArg _ ?_) this
    cases QueryParser.peekAtom toks st <;> rfl

theorem out_loops (fuel : Nat) :
    (∀ {m : Mem} {st : St}, Rep parseTerms toks h₀ a m st →
      Out parseTerms toks h₀ a (parseOr parseTerms fuel m) (QueryParser.parseOr parseTerms toks fuel st)) ∧
    (∀ {m : Mem} {st : St} (l), Rep parseTerms toks h₀ a m st →
      Out parseTerms toks h₀ a (orLoop parseTerms fuel l m) (QueryParser.orLoop parseTerms toks fuel l st)) ∧
    (∀ {m : Mem} {st : St}, Rep parseTerms toks h₀ a m st →
      Out parseTerms toks h₀ a (parseAnd parseTerms fuel m) (QueryParser.parseAnd parseTerms toks fuel st)) ∧
    (∀ {m : Mem} {st : St} (l nots), Rep parseTerms toks h₀ a m st →
      Out parseTerms toks h₀ a (andLoop parseTerms fuel l nots m)
        ((QueryParser.andLoop parseTerms toks fuel l nots st).map (fun r => ((r.1, r.2.1), r.2.2)))) ∧
    (∀ {m : Mem} {st : St}, Rep parseTerms toks h₀ a m st →
      Out parseTerms toks h₀ a (parseNot parseTerms fuel m) (QueryParser.parseNot parseTerms toks fuel st)) ∧
    (∀ {m : Mem} {st : St}, Rep parseTerms toks h₀ a m st →
      Out parseTerms toks h₀ a (parseTerm parseTerms fuel m) (QueryParser.parseTerm parseTerms toks fuel st)) := by
  induction fuel with
  | zero =>
    refine ⟨?_, ?_, ?_, ?_, ?_, ?_⟩ <;> intro m st <;> intros <;>
      simp only [parseOr, orLoop, parseAnd, andLoop, parseNot, parseTerm, QueryParser.parseOr, QueryParser.orLoop, QueryParser.parseAnd,
        QueryParser.andLoop, QueryParser.parseNot, QueryParser.parseTerm] <;> exact ⟨rfl, st, by assumption⟩
  | succ fuel ih =>
    obtain ⟨iOr, iOrL, iAnd, iAndL, iNot, iTerm⟩ := ih
    refine ⟨?_, ?_, ?_, ?_, ?_, ?_⟩
    · intro m st h
      rw [parseOr, QueryParser.parseOr]
      exact Out.bind (iAnd h) (fun x st' m' h' => Out.bind (iOrL _ h') (fun y st'' m'' h'' => ⟨rfl, h''⟩))
    · intro m st l h
      rw [orLoop, QueryParser.orLoop]
      exact check_bind h (t := .or) (by intro w hw; cases hw) (fun st' m' h' => Out.bind (iAnd h') (fun x st'' m'' h'' => iOrL _ h''))
        (fun m' h' _ => ⟨rfl, h'⟩)
    · intro m st h
      rw [parseAnd, QueryParser.parseAnd]
      refine Out.bind (iTerm h) (fun x st' m' h' => ?_)
      have := Out.bind (k := fun r : List Node × List Node => (pure (QueryParser.andTree r.1 r.2) : PM (Option Node)))
        (k' := fun r => .ok (QueryParser.andTree r.1.1 r.1.2, r.2)) (iAndL x.toList [] h') (fun y st'' m'' h'' => ⟨rfl, h''⟩)
      refine Eq.mp (congrArg _ ?_) this
      show _ = (QueryParser.andLoop parseTerms toks fuel x.toList [] st' >>= _)
      cases QueryParser.andLoop parseTerms toks fuel x.toList [] st' <;> rfl
    · intro m st l nots h
      rw [andLoop, QueryParser.andLoop]
      have := check_bind h (t := .and) (by intro w hw; cases hw)
        (kt := (parseNot parseTerms fuel >>= fun x => match x with
          | none => andLoop parseTerms fuel l nots
          | some t => if t.isNot = true then andLoop parseTerms fuel l (nots ++ [t]) else andLoop parseTerms fuel (l ++ [t]) nots))
        (kf := (check (kindOf .not) >>= fun b => if b = true then (parseTerm parseTerms fuel >>= fun x => match x with
          | none => andLoop parseTerms fuel l nots
          | some t => andLoop parseTerms fuel l (nots ++ [.not t])) else pure (l, nots)))
        (kt' := fun st => QueryParser.parseNot parseTerms toks fuel st >>= fun r => match r.1 with
          | none => (QueryParser.andLoop parseTerms toks fuel l nots r.2).map (fun r => ((r.1, r.2.1), r.2.2))
          | some t => if t.isNot = true then (QueryParser.andLoop parseTerms toks fuel l (nots ++ [t]) r.2).map (fun r => ((r.1, r.2.1), r.2.2))
            else (QueryParser.andLoop parseTerms toks fuel (l ++ [t]) nots r.2).map (fun r => ((r.1, r.2.1), r.2.2)))
        (kf' := QueryParser.check toks .not st >>= fun c => if c.1 = true then
            (QueryParser.parseTerm parseTerms toks fuel c.2 >>= fun r => match r.1 with
              | none => (QueryParser.andLoop parseTerms toks fuel l nots r.2).map (fun r => ((r.1, r.2.1), r.2.2))
              | some t => (QueryParser.andLoop parseTerms toks fuel l (nots ++ [.not t]) r.2).map (fun r => ((r.1, r.2.1), r.2.2)))
          else .ok ((l, nots), st))
        (fun st' m' h' => Out.bind (iNot h') (fun x st'' m'' h'' => by
          cases x with
          | none => exact iAndL _ _ h''
          | some t =>
            simp only
            split
            · exact iAndL _ _ h''
            · exact iAndL _ _ h''))
        (fun m' h' _ => check_bind h' (t := .not) (by intro w hw; cases hw) (fun st' m' h' => Out.bind (iTerm h') (fun x st'' m'' h'' => by
          cases x with
          | none => exact iAndL _ _ h''
          | some t => exact iAndL _ _ h'')) (fun m' h' _ => ⟨rfl, h'⟩))
      refine Eq.mp (congrArg _ ?_) this
      show _ = Except.map _ (QueryParser.check toks .and st >>= _)
      cases QueryParser.check toks .and st with
      | error e => rfl
      | ok c =>
        obtain ⟨b, st'⟩ := c
        cases b with
        | true =>
          show (QueryParser.parseNot parseTerms toks fuel st' >>= _) = Except.map _ (QueryParser.parseNot parseTerms toks fuel st' >>= _)
          cases QueryParser.parseNot parseTerms toks fuel st' with
          | error e => rfl
          | ok r =>
            obtain ⟨x, st''⟩ := r
            cases x with
            | none => rfl
            | some t =>
              show (if t.isNot = true then _ else _) = Except.map _ (if t.isNot = true then _ else _)
              split <;> rfl
        | false =>
          show (QueryParser.check toks .not st >>= _) = Except.map _ (QueryParser.check toks .not st >>= _)
          cases QueryParser.check toks .not st with
          | error e => rfl
          | ok c =>
            obtain ⟨b, st'⟩ := c
            cases b with
            | true =>
              show (QueryParser.parseTerm parseTerms toks fuel st' >>= _) = Except.map _ (QueryParser.parseTerm parseTerms toks fuel st' >>= _)
              cases QueryParser.parseTerm parseTerms toks fuel st' with
              | error e => rfl
              | ok r => obtain ⟨x, st''⟩ := r; cases x <;> rfl
            | false => rfl
    · intro m st h
      rw [parseNot, QueryParser.parseNot]
      exact check_bind h (t := .not) (by intro w hw; cases hw)
        (kt := (parseTerm parseTerms fuel >>= fun t => (pure (t.map .not) : PM (Option Node))))
        (kt' := fun st => QueryParser.parseTerm parseTerms toks fuel st >>= fun r => .ok (r.1.map .not, r.2))
        (fun st' m' h' => Out.bind (iTerm h') (fun x st'' m'' h'' => ⟨rfl, h''⟩)) (fun m' h' _ => iTerm h')
    · intro m st h
      rw [parseTerm, QueryParser.parseTerm]
      refine check_bind h (t := .lparen) (by intro w hw; cases hw) (fun st' m' h' => Out.bind (iOr h') (fun x st'' m'' h'' => ?_))
        (fun m' h' _ => Out.bind (parseAtom_out h') (fun x st'' m'' h'' => Out.bind (atomLoop_out fuel _ h'') (fun y st3 m3 h3 => ?_)))
      · have := Out.bind (k := fun _ => (pure x : PM (Option Node))) (k' := fun p => .ok (x, p.2))
          (require_out h'' (t := .rparen) (by intro w hw; cases hw)) (fun _ st4 m4 h4 => ⟨rfl, h4⟩)
        refine Eq.mp (congrArg _ ?_) this
        show _ = (QueryParser.require toks .rparen st'' >>= _)
        cases QueryParser.require toks .rparen st'' <;> rfl
      · show Out parseTerms toks h₀ a (QueryParser.termTree y, m3) (QueryParser.termTree y >>= fun t => .ok (t, st3))
        cases QueryParser.termTree y with
        | error e => exact ⟨rfl, _, h3⟩
        | ok t => exact ⟨rfl, h3⟩

/-- what a call of `parseQuery` leaves behind: a new list with the terms ignored among the first `k` tokens, all other lists as they
were -/
structure Left (parseTerms : Word → List Word) (toks : List Tok) (m m' : Mem) (k : Nat) : Prop where
  ignored : m'.obj.ignored = some m.lists.next
  list : m'.lists.get? m.lists.next = some ((toks.take k).filterMap (ignoredAtom parseTerms))
  others : ∀ b, b < m.lists.next → m'.lists.get? b = m.lists.get? b
  next : m'.lists.next = m.lists.next + 1

theorem Rep.left {m m' : Mem} {st : St} (h : Rep parseTerms toks (m.lists.alloc []) m.lists.next m' st) :
    Left parseTerms toks m m' st.index :=
  ⟨h.ignored, by rw [h.list, h.mean], fun b hb => by
    rw [h.others b (Nat.ne_of_lt hb), Heap.get?_alloc, if_neg (Nat.ne_of_lt hb)], h.next⟩

theorem parseQuery_left (parseTerms : Word → List Word) (isSpace : Char → Bool) (upper : Word → Word) (q : Word) (m : Mem) :
    (parseQuery parseTerms isSpace upper q m).1 = (QueryParser.parseQuery isSpace upper parseTerms q).map (·.1) ∧
    ∃ k, Left parseTerms (QueryParser.tokens isSpace upper q) m (parseQuery parseTerms isSpace upper q m).2 k ∧
      ∀ t ign, QueryParser.parseQuery isSpace upper parseTerms q = .ok (t, ign) →
        ign = ((QueryParser.tokens isSpace upper q).take k).filterMap (ignoredAtom parseTerms) := by
  set toks := QueryParser.tokens isSpace upper q with htoks
  have hlen : toks.length = (QueryParser.tokenize isSpace q).length + 1 := by
    rw [htoks]; unfold QueryParser.tokens; simp
  have h0 : Rep parseTerms toks (m.lists.alloc []) m.lists.next (prepare isSpace upper q m).2 { index := 0, ignored := [] } := by
    refine ⟨?_, ?_, ?_, rfl, rfl, ?_, fun b _ => rfl, rfl, rfl⟩
    · show (QueryParser.tokenize isSpace q).map (typeOf upper) ++ [.eof] = toks.map kindOf
      rw [htoks]
      unfold QueryParser.tokens
      rw [List.map_append, List.map_map]
      congr 1
      exact List.map_congr_left fun w _ => (kindOf_classify upper w).symm
    · show (QueryParser.tokenize isSpace q ++ [eofToken]).length = _
      rw [hlen]; simp
    · intro i w hi
      show (QueryParser.tokenize isSpace q ++ [eofToken])[i]? = some w
      rw [htoks] at hi
      unfold QueryParser.tokens at hi
      by_cases hl : i < (QueryParser.tokenize isSpace q).length
      · rw [List.getElem?_append_left (by simpa using hl), List.getElem?_map, List.getElem?_eq_getElem hl] at hi
        rw [List.getElem?_append_left hl, List.getElem?_eq_getElem hl]
        exact congrArg some (QueryParser.classify_atom (Option.some.inj hi)).symm
      · rw [List.getElem?_append_right (by simpa using hl)] at hi
        simp only [List.length_map] at hi
        rcases Nat.eq_zero_or_pos (i - (QueryParser.tokenize isSpace q).length) with h | h
        · rw [h] at hi; cases hi
        · rw [List.getElem?_eq_none (show 1 ≤ _ from h)] at hi; cases hi
    · show ((m.lists.alloc []).get? m.lists.next) = some []
      rw [Heap.get?_alloc, if_pos rfl]
  have hout := Out.bind (k := fun tree => (require .eof >>= fun _ => match tree with
      | none => (fail .parse : PM Node)
      | some tree => pure tree))
    (k' := fun r => (QueryParser.require toks .eof r.2 >>= fun st => match r.1 with
      | none => .error .parse
      | some tree => .ok (tree, st)))
    ((out_loops (5 * toks.length + 5)).1 h0) (fun x st m' h' => by
      have := Out.bind (k := fun _ => (match x with
          | none => (fail .parse : PM Node)
          | some tree => pure tree))
        (k' := fun p => match x with
          | none => .error .parse
          | some tree => .ok (tree, p.2))
        (require_out h' (t := .eof) (by intro w hw; cases hw)) (fun _ st' m'' h'' => by
          cases x with
          | none => exact ⟨rfl, _, h''⟩
          | some tree => exact ⟨rfl, h''⟩)
      refine Eq.mp (congrArg _ ?_) this
      show _ = (QueryParser.require toks .eof st >>= _)
      cases QueryParser.require toks .eof st <;> rfl)
  have hrun : parseQuery parseTerms isSpace upper q m = ((parseOr parseTerms (5 * toks.length + 5) >>= fun tree =>
      (require .eof >>= fun _ => match tree with
      | none => (fail .parse : PM Node)
      | some tree => pure tree)) (prepare isSpace upper q m).2) := by
    rw [hlen]; rfl
  rw [hrun]
  have hfun : QueryParser.parseQuery isSpace upper parseTerms q =
      ((QueryParser.parseOr parseTerms toks (5 * toks.length + 5) { index := 0, ignored := [] }) >>= fun r =>
        QueryParser.require toks .eof r.2 >>= fun st => match r.1 with
        | none => .error .parse
        | some tree => .ok (tree, st)).map (fun p => (p.1, p.2.ignored)) := by
    unfold QueryParser.parseQuery QueryParser.parseTokens
    rw [← htoks]
    cases QueryParser.parseOr parseTerms toks (5 * toks.length + 5) { index := 0, ignored := [] } with
    | error e => rfl
    | ok r =>
      show (QueryParser.require toks .eof r.2 >>= _) = Except.map _ (QueryParser.require toks .eof r.2 >>= _)
      cases QueryParser.require toks .eof r.2 with
      | error e => rfl
      | ok st => obtain ⟨x, st'⟩ := r; cases x <;> rfl
  rw [hfun]
  generalize ((QueryParser.parseOr parseTerms toks (5 * toks.length + 5) { index := 0, ignored := [] }) >>= fun r =>
        QueryParser.require toks .eof r.2 >>= fun st => match r.1 with
        | none => .error .parse
        | some tree => .ok (tree, st)) = e at hout ⊢
  cases e with
  | ok p =>
    refine ⟨hout.1, p.2.index, hout.2.left, ?_⟩
    rintro t ign h
    cases h
    exact hout.2.mean
  | error e =>
    obtain ⟨st, hst⟩ := hout.2
    exact ⟨hout.1, st.index, hst.left, fun t ign h => by cases h⟩

/-- the ignored terms among the first tokens, in terms of the pieces of the query -/
theorem ignored_take (parseTerms : Word → List Word) (upper : Word → Word) (ts : List Word) (k : Nat) :
    ((ts.map (QueryParser.classify upper) ++ [Tok.eof]).take k).filterMap (ignoredAtom parseTerms) =
      (ts.take k).filter (fun w => decide (QueryParser.classify upper w = .atom w) && decide (parseTerms w = [])) := by
  have key : ∀ l : List Word, (l.map (QueryParser.classify upper)).filterMap (ignoredAtom parseTerms) =
      l.filter (fun w => decide (QueryParser.classify upper w = .atom w) && decide (parseTerms w = [])) := by
    intro l
    induction l with
    | nil => rfl
    | cons w l ih =>
      rw [List.map_cons, List.filterMap_cons, List.filter_cons, ih]
      cases hc : QueryParser.classify upper w with
      | atom v =>
        obtain rfl := QueryParser.classify_atom hc
        by_cases hp : parseTerms v = [] <;> simp_all [ignoredAtom]
      | _ => simp [ignoredAtom]
  rw [List.take_append, List.filterMap_append, ← List.map_take, key]
  cases k - (ts.map (QueryParser.classify upper)).length <;> simp [ignoredAtom]

/-- the parser's list of ignored terms exists -/
theorem run_inv (parseTerms : Word → List Word) (isSpace : Char → Bool) (upper : Word → Word) (steps : List Step) :
    ∀ b, (run parseTerms isSpace upper steps).obj.ignored = some b → b < (run parseTerms isSpace upper steps).lists.next := by
  induction steps using List.reverseRecOn with
  | nil => intro b hb; cases hb
  | append_singleton steps s ih =>
    intro b hb
    unfold run at hb ih ⊢
    rw [List.foldl_append] at hb ⊢
    simp only [List.foldl_cons, List.foldl_nil] at hb ⊢
    cases s with
    | parse q =>
      obtain ⟨k, hl, -⟩ := (parseQuery_left parseTerms isSpace upper q (steps.foldl (step parseTerms isSpace upper) new)).2
      have e := hl.ignored.symm.trans hb
      cases e
      show _ < Heap.next _
      exact hl.next ▸ Nat.lt_succ_self _
    | change a l => exact ih b hb

end Verif.ParserObj
