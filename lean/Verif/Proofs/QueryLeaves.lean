import Verif.Props.Query
import Verif.Spec.Boolean

/-! # Where the leaves of a parsed query come from -/

set_option autoImplicit false
set_option linter.unusedSectionVars false

namespace Verif

open Spec QueryParser

section

variable {parseTerms : Word → List Word} {Q : Node → Prop} (hatom : ∀ w b n, atomMean parseTerms w = some (b, n) → Q n)
  (hnot : ∀ n, Q n → Q (.not n)) (hand : ∀ l, (∀ n ∈ l, Q n) → Q (.and l)) (hor : ∀ l, (∀ n ∈ l, Q n) → Q (.or l))

theorem join_ind {f : List Node → Node} (hf : ∀ l, (∀ n ∈ l, Q n) → Q (f l)) {l : List Node} (hl : ∀ n ∈ l, Q n) {n : Node}
    (h : join f l = some n) : Q n := by
  match l, hl, h with
  | [], _, h => cases h
  | [_], hl, h => cases h; exact hl _ (by simp)
  | a :: b :: l, hl, h => cases h; exact hf _ hl

include hatom hnot hand in
theorem atomsMean_ind {ws : List Word} {n : Node} (h : atomsMean parseTerms ws = .ok (some n)) : Q n := by
  unfold atomsMean at h
  simp only at h
  split at h
  · cases h
  · refine join_ind hand ?_ (Except.ok.inj h)
    intro m hm
    rcases List.mem_append.1 hm with hm | hm
    · obtain ⟨p, hp, rfl⟩ := List.mem_map.1 hm
      obtain ⟨w, -, hw⟩ := List.mem_filterMap.1 (List.mem_filter.1 hp).1
      exact hatom w p.1 p.2 hw
    · obtain ⟨p, hp, rfl⟩ := List.mem_map.1 hm
      obtain ⟨w, -, hw⟩ := List.mem_filterMap.1 (List.mem_filter.1 hp).1
      exact hnot _ (hatom w p.1 p.2 hw)

include hatom hnot hand hor

mutual

theorem OrE_ind (o : OrE) (ms : List Node) (h : o.parts parseTerms = .ok ms) : ∀ n ∈ ms, Q n := by
  cases o with
  | one a =>
    rw [OrE.parts] at h
    cases ha : a.mean parseTerms with
    | error e => rw [ha] at h; cases h
    | ok m =>
      rw [ha] at h
      cases h
      intro n hn
      rw [Option.mem_toList] at hn
      rw [Option.mem_def.1 hn] at ha
      exact AndE_ind a n ha
  | more a rest =>
    rw [OrE.parts] at h
    cases ha : a.mean parseTerms with
    | error e => rw [ha] at h; cases h
    | ok m =>
      rw [ha] at h
      cases hr : rest.parts parseTerms with
      | error e => rw [hr] at h; cases h
      | ok ms =>
        rw [hr] at h
        cases h
        intro n hn
        rcases List.mem_append.1 hn with hn | hn
        · rw [Option.mem_toList] at hn
          rw [Option.mem_def.1 hn] at ha
          exact AndE_ind a n ha
        · exact OrE_ind rest ms hr n hn

theorem AndE_ind (a : AndE) (n : Node) (h : a.mean parseTerms = .ok (some n)) : Q n := by
  cases a with
  | mk t rest =>
    rw [AndE.mean] at h
    cases ht : t.mean parseTerms with
    | error e => rw [ht] at h; cases h
    | ok m =>
      rw [ht] at h
      cases hr : rest.parts parseTerms with
      | error e => rw [hr] at h; cases h
      | ok ms =>
        rw [hr] at h
        simp only [bind, Except.bind, pure, Except.pure, Except.ok.injEq] at h
        split at h
        · cases h
        · refine join_ind hand ?_ h
          intro x hx
          rcases List.mem_append.1 hx with hx | hx
          · rcases List.mem_append.1 hx with hx | hx
            · rw [Option.mem_toList] at hx
              rw [Option.mem_def.1 hx] at ht
              exact TermE_ind t x ht
            · exact Items_ind rest ms hr x (List.mem_append_left _ hx)
          · obtain ⟨y, hy, rfl⟩ := List.mem_map.1 hx
            exact hnot _ (Items_ind rest ms hr y (List.mem_append_right _ hy))

theorem Items_ind (i : Items) (ms : List Node × List Node) (h : i.parts parseTerms = .ok ms) : ∀ n ∈ ms.1 ++ ms.2, Q n := by
  have step : ∀ (t : TermE) (m : Option Node), (∀ n, t.mean parseTerms = .ok (some n) → Q n) → t.mean parseTerms = .ok m →
      ∀ n ∈ m.toList, Q n := by
    intro t m ht hm n hn
    rw [Option.mem_toList] at hn
    rw [Option.mem_def.1 hn] at hm
    exact ht n hm
  cases i with
  | nil => cases h; simp
  | andTerm t rest =>
    rw [Items.parts] at h
    cases ht : t.mean parseTerms with
    | error e => rw [ht] at h; cases h
    | ok m =>
      rw [ht] at h
      cases hr : rest.parts parseTerms with
      | error e => rw [hr] at h; cases h
      | ok ms' =>
        rw [hr] at h
        cases h
        have h1 := Items_ind rest ms' hr
        have h2 := step t m (fun n hn => TermE_ind t n hn) ht
        intro n hn
        simp only [List.mem_append] at hn h1
        rcases hn with (hn | hn) | hn
        · exact h2 n hn
        · exact h1 n (Or.inl hn)
        · exact h1 n (Or.inr hn)
  | andNot t rest =>
    rw [Items.parts] at h
    cases ht : t.mean parseTerms with
    | error e => rw [ht] at h; cases h
    | ok m =>
      rw [ht] at h
      cases hr : rest.parts parseTerms with
      | error e => rw [hr] at h; cases h
      | ok ms' =>
        rw [hr] at h
        cases h
        have h1 := Items_ind rest ms' hr
        have h2 := step t m (fun n hn => TermE_ind t n hn) ht
        intro n hn
        simp only [List.mem_append] at hn h1
        rcases hn with hn | hn | hn
        · exact h1 n (Or.inl hn)
        · exact h2 n hn
        · exact h1 n (Or.inr hn)
  | not t rest =>
    rw [Items.parts] at h
    cases ht : t.mean parseTerms with
    | error e => rw [ht] at h; cases h
    | ok m =>
      rw [ht] at h
      cases hr : rest.parts parseTerms with
      | error e => rw [hr] at h; cases h
      | ok ms' =>
        rw [hr] at h
        cases h
        have h1 := Items_ind rest ms' hr
        have h2 := step t m (fun n hn => TermE_ind t n hn) ht
        intro n hn
        simp only [List.mem_append] at hn h1
        rcases hn with hn | hn | hn
        · exact h1 n (Or.inl hn)
        · exact h2 n hn
        · exact h1 n (Or.inr hn)

theorem TermE_ind (x : TermE) (n : Node) (h : x.mean parseTerms = .ok (some n)) : Q n := by
  cases x with
  | paren o =>
    rw [TermE.mean] at h
    cases ho : o.parts parseTerms with
    | error e => rw [ho] at h; cases h
    | ok ms =>
      rw [ho] at h
      exact join_ind hor (OrE_ind o ms ho) (Except.ok.inj h)
  | atoms w ws =>
    rw [TermE.mean] at h
    exact atomsMean_ind hatom hnot hand h

end

theorem OrE_mean_ind (o : OrE) (n : Node) (h : o.mean parseTerms = .ok (some n)) : Q n := by
  unfold OrE.mean at h
  cases ho : o.parts parseTerms with
  | error e => rw [ho] at h; cases h
  | ok ms =>
    rw [ho] at h
    exact join_ind hor (OrE_ind hatom hnot hand hor o ms ho) (Except.ok.inj h)

end

/-- every leaf of a parsed query is the meaning of some atom -/
theorem leaf_from_atom (isSpace : Char → Bool) (upper : Word → Word) (parseTerms : Word → List Word) (q : Word) (t : Node)
    (ign : List Word) (h : parseQuery isSpace upper parseTerms q = .ok (t, ign)) (x : Node) (hx : LeafOf x t) :
    ∃ w b, atomMean parseTerms w = some (b, x) := by
  unfold parseQuery tokens at h
  rcases parse_cases (parseTerms := parseTerms) _ (eof_not_mem upper (tokenize isSpace q)) (nonEmptyAtoms upper q) with
    ⟨o, -, e⟩ | ⟨-, e⟩
  · rw [e] at h
    split at h
    · rename_i hm
      cases h
      refine OrE_mean_ind (Q := fun n => ∀ x, LeafOf x n → ∃ w b, atomMean parseTerms w = some (b, x)) ?_ ?_ ?_ ?_ o _ hm x hx
      · intro w b n hw x hx
        have : x = n := by
          unfold atomMean at hw
          split at hw
          · cases hw
          · simp only [Option.some.injEq, Prod.mk.injEq] at hw
            obtain ⟨-, hw⟩ := hw
            split at hw <;> subst hw <;> cases hx <;> rfl
          · simp only [Option.some.injEq, Prod.mk.injEq] at hw
            obtain ⟨-, hw⟩ := hw
            subst hw; cases hx; rfl
        subst this
        exact ⟨w, b, hw⟩
      · intro n hn x hx
        cases hx with
        | not _ _ h => exact hn x h
      · intro l hl x hx
        cases hx with
        | and _ n _ hm h => exact hl n hm x h
      · intro l hl x hx
        cases hx with
        | or _ n _ hm h => exact hl n hm x h
    · cases h
  · rw [e] at h; cases h

end Verif
