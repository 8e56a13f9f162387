import Verif.Proofs.Base
import Verif.Proofs.NBest
import Verif.Spec.SetOps
import Mathlib.Algebra.BigOperators.Group.List.Lemmas

/-! Lemmas about `Verif.Model.SetOps`. -/

set_option autoImplicit false

namespace Verif.SetOps

open Spec

variable {K R : Type} [LinearOrder K]

theorem get?_wUnion (A : WArith R) (x y : SMap K R) (wx wy : R) (k : K) :
    (wUnion A x y wx wy).get? k = wUnionVal A x y wx wy k := by
  unfold wUnion
  rw [SMap.get?_build]
  split
  · rfl
  · rename_i h
    rw [List.mem_append, not_or, ← SMap.get?_eq_none_iff, ← SMap.get?_eq_none_iff] at h
    simp [wUnionVal, h.1, h.2]

theorem mem_wUnion (A : WArith R) (x y : SMap K R) (wx wy : R) (k : K) :
    k ∈ (wUnion A x y wx wy).keys ↔ k ∈ x.keys ∨ k ∈ y.keys := by
  rw [SMap.mem_keys_iff, get?_wUnion, SMap.mem_keys_iff, SMap.mem_keys_iff]
  unfold wUnionVal
  cases x.get? k <;> cases y.get? k <;> simp

theorem get?_wInter (A : WArith R) (x y : SMap K R) (wx wy : R) (k : K) :
    (wInter A x y wx wy).get? k = wInterVal A x y wx wy k := by
  unfold wInter
  rw [SMap.get?_build]
  split
  · rfl
  · rename_i h
    rw [← SMap.get?_eq_none_iff] at h
    simp [wInterVal, h]

theorem mem_wInter (A : WArith R) (x y : SMap K R) (wx wy : R) (k : K) :
    k ∈ (wInter A x y wx wy).keys ↔ k ∈ x.keys ∧ k ∈ y.keys := by
  rw [SMap.mem_keys_iff, get?_wInter, SMap.mem_keys_iff, SMap.mem_keys_iff]
  unfold wInterVal
  cases x.get? k <;> cases y.get? k <;> simp

/-! ### union loop -/

/-- the (map, weight) pairs in the queue -/
def queue (b : NBest (SMap K R × R) Nat) : List (SMap K R × R) := b.pairs.map (·.1)

theorem queue_add {b : NBest (SMap K R × R) Nat} (hb : b.Inv) (hlt : b.len < b.capacity)
    (p : SMap K R × R) (n : Nat) :
    ∃ b', b.add p n = .ok b' ∧ b'.Inv ∧ b'.capacity = b.capacity ∧ b'.len = b.len + 1 ∧
      (queue b').Perm (p :: queue b) := by
  obtain ⟨b', e, hi, hc, hp⟩ := NBest.add_ok hb p n
  have hpl := NBest.pairs_length hb
  rw [NBest.addPairs, if_pos (by omega)] at hp
  refine ⟨b', e, hi, hc, ?_, ?_⟩
  · rw [← NBest.pairs_length hi, hp, NBest.insAsc_length, hpl]
  · unfold queue
    rw [hp]
    exact (NBest.insAsc_perm (p, n) b.pairs).map _

theorem fill_ok (L : List (SMap K R × R)) : ∀ (b : NBest (SMap K R × R) Nat), b.Inv →
    b.len + L.length ≤ b.capacity →
    ∃ b', L.foldlM fillStep b = .ok b' ∧ b'.Inv ∧ b'.capacity = b.capacity ∧
      b'.len = b.len + L.length ∧ (queue b').Perm (L ++ queue b) := by
  induction L with
  | nil => intro b hb _; exact ⟨b, rfl, hb, rfl, rfl, List.Perm.refl _⟩
  | cons p t ih =>
    intro b hb hl
    rw [List.length_cons] at hl
    obtain ⟨b1, e1, i1, c1, l1, p1⟩ := queue_add hb (by omega) p p.1.len
    obtain ⟨b2, e2, i2, c2, l2, p2⟩ := ih b1 i1 (by omega)
    refine ⟨b2, ?_, i2, c2.trans c1, ?_, ?_⟩
    · rw [List.foldlM_cons]
      show (fillStep b p >>= _) = _
      rw [show fillStep b p = .ok b1 from e1]
      exact e2
    · rw [List.length_cons]; omega
    · exact p2.trans ((List.Perm.append_left t p1).trans List.perm_middle)

/-- A property of the queue content that survives reordering and merging two entries holds of the
result of the loop. -/
theorem unionLoop_spec (A : WArith R) (P : List (SMap K R × R) → Prop)
    (hperm : ∀ {a b}, a.Perm b → P a → P b)
    (hmerge : ∀ x wx y wy rest, P ((x, wx) :: (y, wy) :: rest) → P ((wUnion A x y wx wy, A.one) :: rest)) :
    ∀ (fuel : Nat) (b : NBest (SMap K R × R) Nat), b.Inv → 1 ≤ b.len → b.len ≤ fuel → P (queue b) →
      ∃ r w, unionLoop A fuel b = .ok r ∧ P [(r, w)] ∧ (2 ≤ b.len → w = A.one) := by
  intro fuel
  induction fuel with
  | zero => intro b _ h1 h2 _; omega
  | succ fuel ih =>
    intro b hb h1 h2 hP
    have hpl := NBest.pairs_length hb
    unfold unionLoop
    cases hp : b.pairs with
    | nil => rw [hp] at hpl; simp at hpl; omega
    | cons p1 T1 =>
      obtain ⟨b1, e1, i1, c1, q1⟩ := NBest.pop_ok hb hp
      have hpl1 := NBest.pairs_length i1
      by_cases hlen : b.len > 1
      · rw [if_pos hlen, e1]
        cases hp1 : b1.pairs with
        | nil =>
          rw [hp, ← q1, hp1] at hpl; simp at hpl; omega
        | cons p2 T2 =>
          obtain ⟨b2, e2, i2, c2, q2⟩ := NBest.pop_ok i1 hp1
          have hpl2 := NBest.pairs_length i2
          have hl2 : b2.len + 2 = b.len := by
            rw [← hpl, ← hpl2, hp, ← q1, hp1, ← q2]; simp
          have hle := hb.le
          change b.len ≤ b.capacity at hle
          obtain ⟨b3, e3, i3, c3, l3, q3⟩ := queue_add i2 (by omega)
            (wUnion A p1.1.1 p2.1.1 p1.1.2 p2.1.2, A.one) (wUnion A p1.1.1 p2.1.1 p1.1.2 p2.1.2).len
          have hq : queue b = p1.1 :: p2.1 :: queue b2 := by
            unfold queue; rw [hp, ← q1, hp1, ← q2]; rfl
          have hP3 : P (queue b3) := by
            apply hperm q3.symm
            apply hmerge
            rw [hq] at hP
            exact hP
          obtain ⟨r, w, er, hr, hw⟩ := ih b3 i3 (by omega) (by omega) hP3
          by_cases h3 : 2 ≤ b3.len
          · refine ⟨r, w, ?_, hr, fun _ => hw h3⟩
            show (b1.popSmallest >>= _) = _
            rw [e2]
            show (b2.add _ _ >>= _) = _
            rw [e3]
            exact er
          · -- a single entry is left: the one just added
            have hb3 : b2.len = 0 := by omega
            have hqe : queue b2 = [] := by
              unfold queue
              rw [List.map_eq_nil_iff, ← List.length_eq_zero_iff]; omega
            have hq3 : queue b3 = [(wUnion A p1.1.1 p2.1.1 p1.1.2 p2.1.2, A.one)] := by
              rw [hqe] at q3
              exact List.perm_singleton.1 q3
            cases fuel with
            | zero => omega
            | succ f =>
              cases hp3 : b3.pairs with
              | nil => unfold queue at hq3; rw [hp3] at hq3; simp at hq3
              | cons p4 T4 =>
                obtain ⟨b4, e4, i4, c4, q4⟩ := NBest.pop_ok i3 hp3
                have : p4.1 = (wUnion A p1.1.1 p2.1.1 p1.1.2 p2.1.2, A.one) := by
                  unfold queue at hq3; rw [hp3] at hq3
                  simp at hq3
                  exact hq3.1
                refine ⟨wUnion A p1.1.1 p2.1.1 p1.1.2 p2.1.2, A.one, ?_, ?_, fun _ => rfl⟩
                · show (b1.popSmallest >>= _) = _
                  rw [e2]
                  show (b2.add _ _ >>= _) = _
                  rw [e3]
                  show unionLoop A (f + 1) b3 = _
                  unfold unionLoop
                  rw [if_neg (by omega), e4]
                  show Except.ok p4.1.1 = _
                  rw [this]
                · rw [hq3] at hP3; exact hP3
      · rw [if_neg hlen, e1]
        have hT : T1 = [] := by
          rw [← List.length_eq_zero_iff]
          rw [hp] at hpl; simp at hpl; omega
        refine ⟨p1.1.1, p1.1.2, rfl, ?_, fun h => by omega⟩
        have : queue b = [p1.1] := by unfold queue; rw [hp, hT]; rfl
        rw [this] at hP
        exact hP

/-- `mass_weightedUnion` of two maps or more -/
theorem massUnion_spec (A : WArith R) (L : List (SMap K R × R)) (hL : 2 ≤ L.length)
    (P : List (SMap K R × R) → Prop)
    (hperm : ∀ {a b}, a.Perm b → P a → P b)
    (hmerge : ∀ x wx y wy rest, P ((x, wx) :: (y, wy) :: rest) → P ((wUnion A x y wx wy, A.one) :: rest))
    (h : P L) : ∃ r, massUnion A L = .ok r ∧ P [(r, A.one)] := by
  unfold massUnion
  rw [if_neg (by omega)]
  have h0 : NBest.Inv ({ capacity := L.length, scores := [], items := [] } : NBest (SMap K R × R) Nat) :=
    NBest.init_inv (by omega)
  obtain ⟨b1, e1, i1, c1, l1, q1⟩ := fill_ok L _ h0 (by simp [NBest.len])
  have l1' : b1.len = L.length := by rw [l1]; simp [NBest.len]
  have q1' : (queue b1).Perm L := by simpa [queue, NBest.pairs] using q1
  obtain ⟨r, w, er, hr, hw⟩ := unionLoop_spec A P hperm hmerge L.length b1 i1 (by omega) (by omega)
    (hperm q1'.symm h)
  rw [hw (by omega)] at hr
  refine ⟨r, ?_, hr⟩
  have hn : (NBest.new (L.length : Int) : Except PyErr (NBest (SMap K R × R) Nat))
      = .ok { capacity := L.length, scores := [], items := [] } := by
    unfold NBest.new
    rw [if_neg (by omega)]
    simp
  rw [hn]
  show (L.foldlM fillStep _ >>= _) = _
  rw [e1]
  exact er

section exact
variable [Semiring R] [DecidableEq R]

theorem contribution_wUnion (x y : SMap K R) (wx wy : R) (k : K) :
    contribution k (wUnion (exact R) x y wx wy, (exact R).one)
      = contribution k (x, wx) + contribution k (y, wy) := by
  unfold contribution
  simp only
  rw [get?_wUnion]
  unfold wUnionVal
  cases x.get? k <;> cases y.get? k <;> simp [exact]

theorem get?_eq_of_contribution {x : SMap K R} {w v : R} {k : K} (hw : w = 1)
    (hk : k ∈ x.keys) (h : contribution k (x, w) = v) : x.get? k = some v := by
  obtain ⟨u, hu⟩ := (SMap.mem_keys_iff x k).1 hk
  unfold contribution at h
  simp only at h
  rw [hu] at h ⊢
  subst hw
  simpa using h

end exact

/-! ### intersection -/

theorem foldl_inter_keys (A : WArith R) (rest : List (SMap K R × R)) (r : SMap K R) (k : K) :
    k ∈ (rest.foldl (interStep A) r).keys ↔ k ∈ r.keys ∧ ∀ p ∈ rest, k ∈ p.1.keys := by
  induction rest generalizing r with
  | nil => simp
  | cons p t ih =>
    rw [List.foldl_cons, ih]
    unfold interStep
    rw [mem_wInter]
    simp [and_assoc]

theorem foldl_inter_get? [Semiring R] [DecidableEq R] (rest : List (SMap K R × R)) (r : SMap K R) (k : K)
    (v : R) (hv : r.get? k = some v) (h : ∀ p ∈ rest, k ∈ p.1.keys) :
    (rest.foldl (interStep (exact R)) r).get? k = some (v + (rest.map (contribution k)).sum) := by
  induction rest generalizing r v with
  | nil => simpa using hv
  | cons p t ih =>
    rw [List.foldl_cons]
    obtain ⟨u, hu⟩ := (SMap.mem_keys_iff p.1 k).1 (h p (by simp))
    rw [ih (interStep (exact R) r p) (v + u * p.2) ?_ (fun q hq => h q (by simp [hq]))]
    · simp [contribution, hu, add_assoc]
    · unfold interStep
      rw [get?_wInter]
      simp [wInterVal, hv, hu, exact]

theorem sortByLen_perm (L : List (SMap K R × R)) : (sortByLen L).Perm L :=
  List.perm_insertionSort _ L

theorem sortByLen_cases (L : List (SMap K R × R)) (hL : ¬ L.length < 2) :
    ∃ x wx y wy rest, sortByLen L = (x, wx) :: (y, wy) :: rest := by
  have := (sortByLen_perm L).length_eq
  match hs : sortByLen L with
  | [] => rw [hs] at this; simp at this; omega
  | [_] => rw [hs] at this; simp at this; omega
  | (x, wx) :: (y, wy) :: rest => exact ⟨x, wx, y, wy, rest, rfl⟩

end Verif.SetOps
