import Verif.Proofs.SetOps
import Mathlib.Algebra.Ring.Nat

/-! # C28, C29, C30: weighted unions and intersections of many maps -/

set_option autoImplicit false

namespace Verif

open Spec SetOps

variable {K R : Type} [LinearOrder K]

/-- **C28, keys.** For every arithmetic, `mass_weightedUnion` succeeds and its keys are those that
occur in some input map. -/
theorem C28_union_keys (A : WArith R) (L : List (SMap K R × R)) :
    ∃ m, massUnion A L = .ok m ∧ ∀ k, k ∈ m.keys ↔ InSome k L := by
  by_cases hL : L.length < 2
  · match L, hL with
    | [], _ => exact ⟨SMap.empty, rfl, by simp [InSome]⟩
    | [(x, w)], _ =>
      by_cases hw : A.isOne w = true
      · refine ⟨x, ?_, by simp [InSome]⟩
        simp [massUnion, trivialOp, hw]
      · refine ⟨wUnion A SMap.empty x A.zero w, ?_, ?_⟩
        · simp [massUnion, trivialOp, hw]
        · intro k; rw [mem_wUnion]; simp [InSome]
    | _ :: _ :: _, h => simp at h; omega
  · obtain ⟨r, e, h⟩ := massUnion_spec A L (by omega) (fun Q => ∀ k, InSome k Q ↔ InSome k L)
      (by
        intro a b hab ha k
        rw [← ha k]
        unfold InSome
        constructor
        · rintro ⟨p, hp, hk⟩; exact ⟨p, hab.mem_iff.2 hp, hk⟩
        · rintro ⟨p, hp, hk⟩; exact ⟨p, hab.mem_iff.1 hp, hk⟩)
      (by
        intro x wx y wy rest h k
        rw [← h k]
        simp only [InSome, List.mem_cons, exists_eq_or_imp, mem_wUnion, or_assoc])
      (fun k => Iff.rfl)
    exact ⟨r, e, fun k => by rw [← h k]; simp [InSome]⟩

/-- **C28, values.** In exact arithmetic each key is mapped to the sum of `weight * value` over the
maps that hold it. -/
theorem C28_union_values [Semiring R] [DecidableEq R] (L : List (SMap K R × R)) :
    ∃ m, massUnion (exact R) L = .ok m ∧
      ∀ k v, m.get? k = some v ↔ InSome k L ∧ v = (L.map (contribution k)).sum := by
  obtain ⟨m, e, hm⟩ := C28_union_keys (exact R) L
  refine ⟨m, e, ?_⟩
  have key : ∀ k, k ∈ m.keys → m.get? k = some ((L.map (contribution k)).sum) := by
    by_cases hL : L.length < 2
    · match L, hL with
      | [], _ =>
        intro k hk
        have := (hm k).1 hk
        simp [InSome] at this
      | [(x, w)], _ =>
        intro k hk
        by_cases hw : w = 1
        · have hx : m = x := by
            have : massUnion (exact R) [(x, w)] = .ok x := by simp [massUnion, trivialOp, exact, hw]
            rw [this] at e; cases e; rfl
          subst hx
          apply get?_eq_of_contribution hw hk
          simp
        · have hx : m = wUnion (exact R) SMap.empty x 0 w := by
            have : massUnion (exact R) [(x, w)] = .ok (wUnion (exact R) SMap.empty x 0 w) := by
              simp [massUnion, trivialOp, exact, hw]
            rw [this] at e; cases e; rfl
          subst hx
          apply get?_eq_of_contribution (w := (exact R).one) rfl hk
          rw [contribution_wUnion]
          simp [contribution]
      | _ :: _ :: _, h => simp at h; omega
    · obtain ⟨r, e', h⟩ := massUnion_spec (exact R) L (by omega)
        (fun Q => ∀ k, (Q.map (contribution k)).sum = (L.map (contribution k)).sum)
        (by intro a b hab ha k; rw [← ha k]; exact ((hab.map _).sum_eq).symm)
        (by
          intro x wx y wy rest h k
          rw [← h k]
          simp only [List.map_cons, List.sum_cons]
          rw [contribution_wUnion, add_assoc])
        (fun k => rfl)
      rw [e'] at e; cases e
      intro k hk
      apply get?_eq_of_contribution (w := (exact R).one) rfl hk
      rw [← h k]; simp
  intro k v
  constructor
  · intro h
    have hk : k ∈ m.keys := (SMap.mem_keys_iff m k).2 ⟨v, h⟩
    refine ⟨(hm k).1 hk, ?_⟩
    rw [key k hk] at h
    exact (Option.some.inj h).symm
  · rintro ⟨h1, rfl⟩
    exact key k ((hm k).2 h1)

/-- **C29, keys.** For every arithmetic, `mass_weightedIntersection` succeeds and its keys are those
that occur in every map that is not `None` (no key if there is no such map). -/
theorem C29_inter_keys (A : WArith R) (L : List (Option (SMap K R) × R)) :
    ∃ m, massIntersection A L = .ok m ∧ ∀ k, k ∈ m.keys ↔
      InEvery k (presentMaps L) := by
  unfold massIntersection
  change ∃ m, (if (dropNone L).length < 2 then _ else _) = _ ∧ ∀ k, _ ↔ InEvery k (dropNone L)
  generalize dropNone L = M
  by_cases hL : M.length < 2
  · rw [if_pos hL]
    match M, hL with
    | [], _ => exact ⟨SMap.empty, rfl, by simp [InEvery]⟩
    | [(x, w)], _ =>
      by_cases hw : A.isOne w = true
      · refine ⟨x, ?_, by simp [InEvery]⟩
        simp [trivialOp, hw]
      · refine ⟨wUnion A SMap.empty x A.zero w, ?_, ?_⟩
        · simp [trivialOp, hw]
        · intro k; rw [mem_wUnion]; simp [InEvery]
    | _ :: _ :: _, h => simp at h; omega
  · rw [if_neg hL]
    obtain ⟨x, wx, y, wy, rest, hs⟩ := sortByLen_cases M hL
    rw [hs]
    refine ⟨_, rfl, fun k => ?_⟩
    rw [foldl_inter_keys, mem_wInter]
    have hp := sortByLen_perm M
    rw [hs] at hp
    unfold InEvery
    constructor
    · rintro ⟨⟨h1, h2⟩, h3⟩
      refine ⟨by rintro rfl; simp at hL, fun p hpm => ?_⟩
      have := hp.mem_iff.2 hpm
      rcases List.mem_cons.1 this with rfl | this
      · exact h1
      · rcases List.mem_cons.1 this with rfl | this
        · exact h2
        · exact h3 p this
    · rintro ⟨_, h⟩
      exact ⟨⟨h (x, wx) (hp.mem_iff.1 (by simp)), h (y, wy) (hp.mem_iff.1 (by simp))⟩,
        fun p hpm => h p (hp.mem_iff.1 (by simp [hpm]))⟩

/-- **C29, values.** In exact arithmetic each common key is mapped to the sum of `weight * value`. -/
theorem C29_inter_values [Semiring R] [DecidableEq R] (L : List (Option (SMap K R) × R)) :
    ∃ m, massIntersection (exact R) L = .ok m ∧
      ∀ k v, m.get? k = some v ↔
        InEvery k (presentMaps L) ∧
        v = ((presentMaps L).map (contribution k)).sum := by
  obtain ⟨m, e, hm⟩ := C29_inter_keys (exact R) L
  refine ⟨m, e, ?_⟩
  unfold massIntersection at e
  change (if (dropNone L).length < 2 then _ else _) = _ at e
  change ∀ k, _ ↔ InEvery k (dropNone L) at hm
  change ∀ k v, _ ↔ InEvery k (dropNone L) ∧ v = ((dropNone L).map (contribution k)).sum
  generalize dropNone L = M at e hm
  have key : ∀ k, k ∈ m.keys → m.get? k = some ((M.map (contribution k)).sum) := by
    by_cases hL : M.length < 2
    · rw [if_pos hL] at e
      match M, hL with
      | [], _ =>
        intro k hk
        have := (hm k).1 hk
        simp [InEvery] at this
      | [(x, w)], _ =>
        intro k hk
        by_cases hw : w = 1
        · have hx : m = x := by
            simp [trivialOp, exact, hw] at e
            exact e.symm
          subst hx
          apply get?_eq_of_contribution hw hk
          simp
        · have hx : m = wUnion (exact R) SMap.empty x 0 w := by
            have : trivialOp (exact R) [(x, w)] = .ok (wUnion (exact R) SMap.empty x 0 w) := by
              simp [trivialOp, exact, hw]
            rw [this] at e; cases e; rfl
          subst hx
          apply get?_eq_of_contribution (w := (exact R).one) rfl hk
          rw [contribution_wUnion]
          simp [contribution]
      | _ :: _ :: _, h => simp at h; omega
    · rw [if_neg hL] at e
      obtain ⟨x, wx, y, wy, rest, hs⟩ := sortByLen_cases M hL
      rw [hs] at e
      cases e
      have hp := sortByLen_perm M
      rw [hs] at hp
      intro k hk
      have hk2 := (foldl_inter_keys (exact R) rest _ k).1 hk
      rw [mem_wInter] at hk2
      obtain ⟨a, ha⟩ := (SMap.mem_keys_iff x k).1 hk2.1.1
      obtain ⟨b, hb⟩ := (SMap.mem_keys_iff y k).1 hk2.1.2
      rw [foldl_inter_get? rest _ k (a * wx + b * wy)
        (by rw [get?_wInter]; simp [wInterVal, ha, hb, exact]) hk2.2]
      congr 1
      rw [← (hp.map (contribution k)).sum_eq]
      simp [contribution, ha, hb, add_assoc]
  intro k v
  constructor
  · intro h
    have hk : k ∈ m.keys := (SMap.mem_keys_iff m k).2 ⟨v, h⟩
    refine ⟨(hm k).1 hk, ?_⟩
    rw [key k hk] at h
    exact (Option.some.inj h).symm
  · rintro ⟨h1, rfl⟩
    exact key k ((hm k).2 h1)

/-- non-vacuity of C28/C29: three maps, a weight 2, a `None` -/
example : (massUnion (exact Nat) [(SMap.ofList [(1, 10), (2, 20)], 1), (SMap.ofList [(2, 5)], 2),
      (SMap.ofList [(3, 7), (2, 1)], 1)]).map (·.items) = .ok [(1, 10), (2, 31), (3, 7)] := by decide
example : (massIntersection (exact Nat) [(some (SMap.ofList [(1, 10), (2, 20)]), 1), (none, 9),
      (some (SMap.ofList [(2, 5)]), 2), (some (SMap.ofList [(3, 7), (2, 1)]), 1)]).map (·.items)
      = .ok [(2, 31)] := by decide

/-- **C30, keys.** Reordering the input does not change the keys, in any arithmetic. -/
theorem C30_union_keys_perm (A : WArith R) (L M : List (SMap K R × R)) (h : L.Perm M) :
    ∃ a b, massUnion A L = .ok a ∧ massUnion A M = .ok b ∧ a.keys = b.keys := by
  obtain ⟨a, ea, ha⟩ := C28_union_keys A L
  obtain ⟨b, eb, hb⟩ := C28_union_keys A M
  refine ⟨a, b, ea, eb, SMap.keys_eq_of_iff (fun k => ?_)⟩
  rw [ha, hb]
  unfold InSome
  simp only [h.mem_iff]

/-- **C30, keys, intersection.** -/
theorem C30_inter_keys_perm (A : WArith R) (L M : List (Option (SMap K R) × R)) (h : L.Perm M) :
    ∃ a b, massIntersection A L = .ok a ∧ massIntersection A M = .ok b ∧ a.keys = b.keys := by
  obtain ⟨a, ea, ha⟩ := C29_inter_keys A L
  obtain ⟨b, eb, hb⟩ := C29_inter_keys A M
  refine ⟨a, b, ea, eb, SMap.keys_eq_of_iff (fun k => ?_)⟩
  rw [ha, hb]
  have hp : (presentMaps L).Perm (presentMaps M) := by unfold presentMaps; exact h.filterMap _
  unfold InEvery
  simp only [hp.mem_iff, ne_eq]
  constructor
  · rintro ⟨h1, h2⟩; exact ⟨fun hn => h1 (by rw [hn] at hp; exact hp.eq_nil), h2⟩
  · rintro ⟨h1, h2⟩; exact ⟨fun hn => h1 (by rw [hn] at hp; exact hp.symm.eq_nil), h2⟩

/-- **C30.** In exact arithmetic reordering the input does not change the result. -/
theorem C30_perm [Semiring R] [DecidableEq R] :
    (∀ (L M : List (SMap K R × R)), L.Perm M → massUnion (exact R) L = massUnion (exact R) M) ∧
    (∀ (L M : List (Option (SMap K R) × R)), L.Perm M →
      massIntersection (exact R) L = massIntersection (exact R) M) := by
  constructor
  · intro L M h
    obtain ⟨a, ea, ha⟩ := C28_union_values (R := R) L
    obtain ⟨b, eb, hb⟩ := C28_union_values (R := R) M
    rw [ea, eb]
    congr 1
    apply SMap.ext
    intro k
    apply Option.ext
    intro v
    rw [ha, hb, (h.map _).sum_eq]
    unfold InSome
    simp only [h.mem_iff]
  · intro L M h
    obtain ⟨a, ea, ha⟩ := C29_inter_values (R := R) L
    obtain ⟨b, eb, hb⟩ := C29_inter_values (R := R) M
    have hp : (presentMaps L).Perm (presentMaps M) := by unfold presentMaps; exact h.filterMap _
    rw [ea, eb]
    congr 1
    apply SMap.ext
    intro k
    apply Option.ext
    intro v
    rw [ha, hb, (hp.map _).sum_eq]
    have : InEvery k (presentMaps L) ↔
        InEvery k (presentMaps M) := by
      unfold InEvery
      simp only [hp.mem_iff, ne_eq]
      constructor
      · rintro ⟨h1, h2⟩; exact ⟨fun hn => h1 (by rw [hn] at hp; exact hp.eq_nil), h2⟩
      · rintro ⟨h1, h2⟩; exact ⟨fun hn => h1 (by rw [hn] at hp; exact hp.symm.eq_nil), h2⟩
    rw [this]

end Verif
