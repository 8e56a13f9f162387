import Verif.Model.OkaScore
import Mathlib.Data.Multiset.AddSub

/-! # Lemmas about the C function `score` -/

set_option autoImplicit false

namespace Verif.OkaScore

open Text

variable {W O R : Type} [DecidableEq O]

/-- the code comes to an end without misuse, with `Q` -/
def Sure {α : Type} (x : CM W O α) (fr : Frame W O) (Q : α → Frame W O → Prop) : Prop := ∃ a fr', x fr = .ok (a, fr') ∧ Q a fr'

omit [DecidableEq O] in
theorem andThen_eq {α β : Type} {x : CM W O α} {f : α → CM W O β} {fr fr' : Frame W O} {a : α} (h : x fr = .ok (a, fr')) :
    andThen x f fr = f a fr' := by
  unfold andThen
  rw [h]

theorem Sure.andThen {α β : Type} {x : CM W O α} {f : α → CM W O β} {fr : Frame W O} {Q : α → Frame W O → Prop}
    {Q' : β → Frame W O → Prop} (h : Sure x fr Q) (hf : ∀ a fr', Q a fr' → Sure (f a) fr' Q') : Sure (andThen x f) fr Q' := by
  obtain ⟨a, fr', e, hq⟩ := h
  obtain ⟨b, fr'', e', hq'⟩ := hf a fr' hq
  exact ⟨b, fr'', by unfold OkaScore.andThen; rw [e]; exact e', hq'⟩

theorem Sure.mono {α : Type} {x : CM W O α} {fr : Frame W O} {Q Q' : α → Frame W O → Prop} (h : Sure x fr Q)
    (hq : ∀ a fr', Q a fr' → Q' a fr') : Sure x fr Q' := by
  obtain ⟨a, fr', e, h⟩ := h
  exact ⟨a, fr', e, hq a fr' h⟩

theorem sure_give {α : Type} (a : α) (fr : Frame W O) : Sure (give a) fr (fun b fr' => a = b ∧ fr = fr') := ⟨a, fr, rfl, rfl, rfl⟩

variable (api : CApi W O R)

theorem sure_use {args os : List O} {fr : Frame W O} (h : ∀ o ∈ os, Alive api args fr.held o) :
    Sure (use api args os) fr (fun _ fr' => fr = fr') := ⟨(), fr, by unfold use; rw [if_pos h], rfl⟩

theorem sure_decref {o : O} {fr : Frame W O} {rest : Multiset O} (h : fr.held = o ::ₘ rest) :
    Sure (decref o) fr (fun _ fr' => fr'.held = rest ∧ fr'.exc = fr.exc) := by
  refine ⟨(), { fr with held := fr.held.erase o }, by unfold decref; rw [if_pos (by rw [h]; exact Multiset.mem_cons_self _ _)], ?_, rfl⟩
  rw [h]
  exact Multiset.erase_cons_head _ _

theorem sure_newRef (c : W → W × Except PyErr O) (fr : Frame W O) :
    Sure (newRef c) fr (fun r fr' => (∃ o w w', r = some o ∧ c w = (w', .ok o) ∧ fr'.held = o ::ₘ fr.held ∧ fr'.exc = fr.exc) ∨
      (r = none ∧ fr'.held = fr.held ∧ fr'.exc ≠ none)) := by
  cases h : c fr.world with
  | mk w r =>
    cases r with
    | ok o => exact ⟨some o, { fr with world := w, held := o ::ₘ fr.held }, by simp only [newRef, h], Or.inl ⟨o, fr.world, w, rfl, h, rfl, rfl⟩⟩
    | error e => exact ⟨none, { fr with world := w, exc := some e }, by simp only [newRef, h], Or.inr ⟨rfl, rfl, by simp⟩⟩

theorem sure_toDouble (A : Arith R) (o : O) (fr : Frame W O) :
    Sure (toDouble api A o) fr (fun _ fr' => fr'.held = fr.held ∧ (fr'.exc = fr.exc ∨ fr'.exc ≠ none ∧ ∃ w e, (api.asDouble w o).2 = .error e)) := by
  cases h : api.asDouble fr.world o with
  | mk w r =>
    cases r with
    | ok x => exact ⟨x, { fr with world := w }, by simp only [toDouble, h], rfl, Or.inl rfl⟩
    | error e => exact ⟨A.sub (A.sub A.one A.one) A.one, { fr with world := w, exc := some e }, by simp only [toDouble, h], rfl, Or.inr ⟨by simp, fr.world, e, by rw [h]⟩⟩

theorem sure_store (result d o : O) (fr : Frame W O) :
    Sure (store api result d o) fr (fun b fr' => fr'.held = fr.held ∧ (b = true ∧ fr'.exc = fr.exc ∨ b = false ∧ fr'.exc ≠ none)) := by
  cases h : api.setItem fr.world result d o with
  | mk w r =>
    cases r with
    | none => exact ⟨true, { fr with world := w }, by simp only [store, h], rfl, Or.inl ⟨rfl, rfl⟩⟩
    | some e => exact ⟨false, { fr with world := w, exc := some e }, by simp only [store, h], rfl, Or.inr ⟨rfl, by simp⟩⟩

/-- the numbers in the arguments can be converted -/
structure Numeric (d2fitems d2len : O) : Prop where
  length : ∀ w, ∃ n, (api.length w d2fitems).2 = .ok n
  counts : ∀ w i w' x p, api.seqItem w d2fitems i = (w', .ok x) → api.pair x = some p → ∀ w, ∃ r, (api.asDouble w p.2).2 = .ok r
  lengths : ∀ w d w' x, api.getItem w d2len d = (w', .ok x) → ∀ w, ∃ r, (api.asDouble w x).2 = .ok r

/-- what is said about a part of the code: it gives back what it takes, and an exception is set if it fails; and if `num`, none is set
if it does not -/
def Fair (num : Prop) (held : Multiset O) (exc : Option PyErr) (b : Bool) (fr' : Frame W O) : Prop :=
  fr'.held = held ∧ (b = false → fr'.exc ≠ none) ∧ (num → b = true → fr'.exc = exc)

variable (A : Arith R) (cdiv : R → R → R) (P : Bm25 R)

theorem sure_finish {args : List O} {result d dAndF doclen : O} {score : Option O} {fr : Frame W O} {held : Multiset O} {num : Prop}
    {exc : Option PyErr} (hres : result ∈ args) (hd : ∃ p, api.pair dAndF = some p ∧ p.1 = d)
    (hs : ∀ s, score = some s → fr.held = s ::ₘ doclen ::ₘ dAndF ::ₘ held)
    (hn : score = none → fr.held = doclen ::ₘ dAndF ::ₘ held ∧ fr.exc ≠ none) (hexc : num → score ≠ none → fr.exc = exc) :
    Sure (finish api args result d dAndF doclen score) fr (Fair num held exc) := by
  unfold finish
  cases score with
  | none =>
    obtain ⟨h1, h2⟩ := hn rfl
    refine (sure_give false fr).andThen ?_
    rintro _ _ ⟨rfl, rfl⟩
    refine (sure_decref (rest := doclen ::ₘ held) (by rw [h1, Multiset.cons_swap])).andThen ?_
    rintro - fr1 ⟨h3, h4⟩
    refine (sure_decref h3).andThen ?_
    rintro - fr2 ⟨h5, h6⟩
    refine (sure_give () fr2).andThen ?_
    rintro _ _ ⟨rfl, rfl⟩
    refine (sure_give _ _).mono ?_
    rintro _ _ ⟨rfl, rfl⟩
    exact ⟨h5, fun _ => by rw [h6, h4]; exact h2, fun _ h => by cases h⟩
  | some s =>
    have h1 := hs s rfl
    obtain ⟨p, hp, rfl⟩ := hd
    refine ((sure_use api (fr := fr) (args := args) (os := [result, p.1, s]) ?_).andThen ?_ :
      Sure _ fr (fun b fr' => fr'.held = fr.held ∧ (b = true ∧ fr'.exc = fr.exc ∨ b = false ∧ fr'.exc ≠ none))).andThen ?_
    · intro o ho
      simp only [List.mem_cons, List.not_mem_nil, or_false] at ho
      rcases ho with rfl | rfl | rfl
      · exact Or.inl hres
      · exact Or.inr (Or.inr ⟨dAndF, by rw [h1]; simp, by rw [hp]; exact Or.inl rfl⟩)
      · exact Or.inr (Or.inl (by rw [h1]; simp))
    · rintro _ _ rfl
      exact sure_store api result p.1 s fr
    · rintro b fr1 ⟨h2, h3⟩
      refine (sure_decref (rest := s ::ₘ doclen ::ₘ held) (by
        rw [h2, h1, Multiset.cons_swap doclen, Multiset.cons_swap s])).andThen ?_
      rintro - fr2 ⟨h4, h5⟩
      refine (sure_decref (rest := s ::ₘ held) (by rw [h4, Multiset.cons_swap])).andThen ?_
      rintro - fr3 ⟨h6, h7⟩
      refine (sure_decref h6).andThen ?_
      rintro - fr4 ⟨h8, h9⟩
      refine (sure_give _ _).mono ?_
      rintro _ _ ⟨rfl, rfl⟩
      have e : fr4.exc = fr1.exc := by rw [h9, h7, h5]
      refine ⟨h8, fun hb => ?_, fun hnum hb => ?_⟩
      · rcases h3 with ⟨h3, -⟩ | ⟨-, h3⟩
        · rw [hb] at h3; cases h3
        · rw [e]; exact h3
      · rcases h3 with ⟨-, h3⟩ | ⟨h3, -⟩
        · rw [e, h3]; exact hexc hnum (by simp)
        · rw [hb] at h3; cases h3

theorem sure_scorePair {args : List O} {result d2fitems d2len dAndF : O} {idf mean : R} {p : O × O} {fr : Frame W O} {held : Multiset O}
    (hres : result ∈ args) (hlen : d2len ∈ args) (hp : api.pair dAndF = some p) (hh : fr.held = dAndF ::ₘ held)
    (hseq : ∃ w i w', api.seqItem w d2fitems i = (w', .ok dAndF)) :
    Sure (scorePair api A cdiv P args result d2len idf mean dAndF p.1 p.2) fr (Fair (Numeric api d2fitems d2len) held fr.exc) := by
  unfold scorePair
  obtain ⟨sw, si, sw', hseq⟩ := hseq
  have alive : ∀ (fr' : Frame W O), fr'.held = fr.held → ∀ o, (o = p.1 ∨ o = p.2) → Alive api args fr'.held o := by
    intro fr' e o ho
    exact Or.inr (Or.inr ⟨dAndF, by rw [e, hh]; simp, by rw [hp]; exact ho⟩)
  refine (sure_use api (by
    intro o ho
    obtain rfl : o = p.2 := by simpa using ho
    exact alive fr rfl _ (Or.inr rfl))).andThen ?_
  rintro - _ rfl
  refine (sure_toDouble api A p.2 fr).andThen ?_
  rintro f fr1 ⟨h1, h2⟩
  have h2' : Numeric api d2fitems d2len → fr1.exc = fr.exc := by
    intro hnum
    rcases h2 with h2 | ⟨-, w, e, h2⟩
    · exact h2
    · obtain ⟨r, hr⟩ := hnum.counts _ _ _ _ _ hseq hp w
      rw [hr] at h2; cases h2
  refine (sure_use api (by
    intro o ho
    simp only [List.mem_cons, List.not_mem_nil, or_false] at ho
    rcases ho with rfl | rfl
    · exact Or.inl hlen
    · exact alive fr1 h1 _ (Or.inl rfl))).andThen ?_
  rintro - _ rfl
  refine (sure_newRef (fun w => api.getItem w d2len p.1) fr1).andThen ?_
  rintro doclen fr2 (⟨o, w, w', rfl, h3, h4, h5⟩ | ⟨rfl, h3, h4⟩)
  · simp only
    refine (sure_use api (by
      intro o' ho
      obtain rfl : o' = o := by simpa using ho
      exact Or.inr (Or.inl (by rw [h4]; simp)))).andThen ?_
    rintro - _ rfl
    refine (sure_toDouble api A o fr2).andThen ?_
    rintro len fr3 ⟨h6, h7⟩
    have h7' : Numeric api d2fitems d2len → fr3.exc = fr.exc := by
      intro hnum
      rcases h7 with h7 | ⟨-, w, e, h7⟩
      · rw [h7, h5, h2' hnum]
      · obtain ⟨r, hr⟩ := hnum.lengths _ _ _ _ h3 w
        rw [hr] at h7; cases h7
    refine (sure_newRef (fun w => api.fromDouble w (A.mul (cTf A cdiv P f len mean) idf)) fr3).andThen ?_
    have hheld : fr3.held = o ::ₘ dAndF ::ₘ held := by rw [h6, h4, h1, hh]
    rintro score fr4 (⟨s, w, w', rfl, -, h9, h10⟩ | ⟨rfl, h9, h10⟩)
    · refine sure_finish api hres ⟨p, hp, rfl⟩ ?_ (by intro h; cases h) (fun hnum _ => by rw [h10]; exact h7' hnum)
      rintro _ ⟨⟩
      rw [h9, hheld]
    · refine sure_finish api hres ⟨p, hp, rfl⟩ (by intro s h; cases h) (fun _ => ⟨by rw [h9, hheld], h10⟩) (fun _ h => absurd rfl h)
  · simp only
    refine (sure_decref (by rw [h3, h1, hh])).andThen ?_
    rintro - fr3 ⟨h5, h6⟩
    refine (sure_give _ _).mono ?_
    rintro _ _ ⟨rfl, rfl⟩
    exact ⟨h5, fun _ => by rw [h6]; exact h4, fun _ h => by cases h⟩

theorem sure_iteration {args : List O} {result d2fitems d2len : O} {idf mean : R} (fr : Frame W O) (i : Nat)
    (hres : result ∈ args) (hitems : d2fitems ∈ args) (hlen : d2len ∈ args) :
    Sure (iteration api A cdiv P args result d2fitems d2len idf mean i) fr (Fair (Numeric api d2fitems d2len) fr.held fr.exc) := by
  unfold iteration
  refine (sure_use api (by
    intro o ho
    obtain rfl : o = d2fitems := by simpa using ho
    exact Or.inl hitems)).andThen ?_
  rintro - _ rfl
  refine (sure_newRef (fun w => api.seqItem w d2fitems i) fr).andThen ?_
  rintro x fr1 (⟨x, w, w', rfl, h1, h2, h3⟩ | ⟨rfl, h1, h2⟩)
  · simp only
    refine (sure_use api (by
      intro o ho
      obtain rfl : o = x := by simpa using ho
      exact Or.inr (Or.inl (by rw [h2]; simp)))).andThen ?_
    rintro - _ rfl
    cases hp : api.pair x with
    | none =>
      simp only
      have hset : Sure (setError .TypeError) fr1 (fun _ fr' => { fr1 with exc := some .TypeError } = fr') := ⟨(), _, rfl, rfl⟩
      refine hset.andThen ?_
      rintro - _ rfl
      refine (sure_decref (fr := { fr1 with exc := some .TypeError }) h2).andThen ?_
      rintro - fr2 ⟨h4, h5⟩
      refine (sure_give _ _).mono ?_
      rintro _ _ ⟨rfl, rfl⟩
      exact ⟨h4, fun _ => by rw [h5]; simp, fun _ h => by cases h⟩
    | some p =>
      simp only
      rw [← h3]
      exact sure_scorePair api A cdiv P hres hlen hp h2 ⟨w, i, w', h1⟩
  · simp only
    refine (sure_give _ _).mono ?_
    rintro _ _ ⟨rfl, rfl⟩
    exact ⟨h1, fun _ => h2, fun _ h => by cases h⟩

theorem sure_loop {args : List O} {result d2fitems d2len : O} {idf mean : R} (hres : result ∈ args) (hitems : d2fitems ∈ args)
    (hlen : d2len ∈ args) (is : List Nat) (fr : Frame W O) :
    Sure (loop api A cdiv P args result d2fitems d2len idf mean is) fr (Fair (Numeric api d2fitems d2len) fr.held fr.exc) := by
  induction is generalizing fr with
  | nil =>
    refine (sure_give _ _).mono ?_
    rintro _ _ ⟨rfl, rfl⟩
    exact ⟨rfl, fun h => by (cases h), fun _ _ => rfl⟩
  | cons i is ih =>
    unfold loop
    refine (sure_iteration api A cdiv P fr i hres hitems hlen).andThen ?_
    rintro b fr1 ⟨h1, h2, h3⟩
    cases b with
    | true =>
      simp only [if_true]
      refine (ih fr1).mono ?_
      rintro b fr2 ⟨h4, h5, h6⟩
      exact ⟨by rw [h4, h1], h5, fun hnum hb => by rw [h6 hnum hb, h3 hnum rfl]⟩
    | false =>
      simp only [Bool.false_eq_true, if_false]
      refine (sure_give _ _).mono ?_
      rintro _ _ ⟨rfl, rfl⟩
      exact ⟨h1, fun _ => h2 rfl, fun _ h => by cases h⟩

theorem sure_score (args : List O) (fr : Frame W O) :
    Sure (score api A cdiv P args) fr (fun r fr' => fr'.held = (match r with | none => fr.held | some o => o ::ₘ fr.held) ∧
      (r = none → fr'.exc ≠ none) ∧ (∀ o, r = some o → o = api.none) ∧
      (∀ a b c d e, args = [a, b, c, d, e] → Numeric api b c → r ≠ none → fr'.exc = fr.exc)) := by
  unfold score
  have hp : Sure (parseArgs api args) fr (fun r fr' => fr'.held = fr.held ∧ (r = none → fr'.exc ≠ none) ∧
      ∀ x, r = some x → fr'.exc = fr.exc ∧ ∃ d e, args = [x.1, x.2.1, x.2.2.1, d, e]) := by
    match args with
    | [a, b, c, d, e] =>
      cases h : api.asDouble fr.world d with
      | mk w r =>
        cases r with
        | error x => exact ⟨none, { fr with world := w, exc := some x }, by simp only [parseArgs, h], rfl, fun _ => by simp, fun x h => by cases h⟩
        | ok idf =>
          cases h' : api.asDouble w e with
          | mk w' r =>
            cases r with
            | error x =>
              exact ⟨none, { fr with world := w', exc := some x }, by simp only [parseArgs, h, h'], rfl, fun _ => by simp, fun x h => by cases h⟩
            | ok mean =>
              exact ⟨some (a, b, c, idf, mean), { fr with world := w' }, by simp only [parseArgs, h, h'], rfl, fun h => by (cases h), fun x h => by
                cases h; exact ⟨rfl, _, _, rfl⟩⟩
    | [] => exact ⟨none, { fr with exc := some .TypeError }, rfl, rfl, fun _ => by simp, fun x h => by cases h⟩
    | [_] => exact ⟨none, { fr with exc := some .TypeError }, rfl, rfl, fun _ => by simp, fun x h => by cases h⟩
    | [_, _] => exact ⟨none, { fr with exc := some .TypeError }, rfl, rfl, fun _ => by simp, fun x h => by cases h⟩
    | [_, _, _] => exact ⟨none, { fr with exc := some .TypeError }, rfl, rfl, fun _ => by simp, fun x h => by cases h⟩
    | [_, _, _, _] => exact ⟨none, { fr with exc := some .TypeError }, rfl, rfl, fun _ => by simp, fun x h => by cases h⟩
    | _ :: _ :: _ :: _ :: _ :: _ :: _ =>
      exact ⟨none, { fr with exc := some .TypeError }, rfl, rfl, fun _ => by simp, fun x h => by cases h⟩
  refine hp.andThen ?_
  rintro parsed fr1 ⟨h1, h2, h3⟩
  cases parsed with
  | none =>
    simp only
    refine (sure_give _ _).mono ?_
    rintro _ _ ⟨rfl, rfl⟩
    exact ⟨h1, fun _ => h2 rfl, fun o h => by (cases h), fun a b c d e _ _ h => absurd rfl h⟩
  | some x =>
    obtain ⟨result, d2fitems, d2len, idf, mean⟩ := x
    obtain ⟨h3, d, e, hargs⟩ := h3 _ rfl
    simp only at hargs ⊢
    refine (sure_use api (by
      intro o ho
      obtain rfl : o = d2fitems := by simpa using ho
      exact Or.inl (by rw [hargs]; simp))).andThen ?_
    rintro - _ rfl
    have hl : Sure (lengthOf api d2fitems) fr1 (fun _ fr' => fr'.held = fr1.held ∧ (Numeric api d2fitems d2len → fr'.exc = fr1.exc)) := by
      cases h : api.length fr1.world d2fitems with
      | mk w r =>
        cases r with
        | ok n => exact ⟨toCInt n, { fr1 with world := w }, by simp only [lengthOf, h], rfl, fun _ => rfl⟩
        | error e =>
          refine ⟨-1, { fr1 with world := w, exc := some e }, by simp only [lengthOf, h], rfl, fun hnum => ?_⟩
          obtain ⟨n, hn⟩ := hnum.length fr1.world
          rw [h] at hn; cases hn
    refine hl.andThen ?_
    rintro n fr2 ⟨h4, h5⟩
    refine (sure_loop api A cdiv P (by rw [hargs]; simp) (by rw [hargs]; simp) (by rw [hargs]; simp) (List.range n.toNat) fr2).andThen ?_
    rintro b fr3 ⟨h6, h7, h8⟩
    cases b with
    | true =>
      simp only [if_true]
      have hi : Sure (incref api args api.none) fr3 (fun _ fr' => fr'.held = api.none ::ₘ fr3.held ∧ fr'.exc = fr3.exc) :=
        ⟨(), { fr3 with held := api.none ::ₘ fr3.held }, by unfold incref; rw [if_pos (Or.inl rfl)], rfl, rfl⟩
      refine hi.andThen ?_
      rintro - fr4 ⟨h9, h10⟩
      refine (sure_give _ _).mono ?_
      rintro _ _ ⟨rfl, rfl⟩
      refine ⟨by simp only [h9, h6, h4, h1], fun h => by (cases h), fun o h => by cases h; rfl, ?_⟩
      intro a b c d' e' hargs' hnum _
      rw [hargs] at hargs'
      cases hargs'
      rw [h10, h8 hnum rfl, h5 hnum, h3]
    | false =>
      simp only [Bool.false_eq_true, if_false]
      refine (sure_give _ _).mono ?_
      rintro _ _ ⟨rfl, rfl⟩
      exact ⟨by simp only [h6, h4, h1], fun _ => h7 rfl, fun o h => by (cases h), fun a b c d e _ _ h => absurd rfl h⟩

end Verif.OkaScore
