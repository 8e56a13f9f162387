import Verif.Spec.Scores
import Verif.Proofs.Boolean

/-! # Scores computed by executing a tree -/

set_option autoImplicit false

namespace Verif

open Spec SetOps Text

variable {D : Type} [LinearOrder D]

/-- the score of a document in a result, 0 if it is missing -/
noncomputable def valueAt (r : Option (SMap D ℝ)) (d : D) : ℝ := ((r.bind (fun m => m.get? d)).getD 0)

noncomputable def sumAt (l : List (SMap D ℝ)) (d : D) : ℝ := (l.map (fun m => (m.get? d).getD 0)).sum

theorem sumAt_append (r : Option (SMap D ℝ)) (l : List (SMap D ℝ)) (d : D) : sumAt (r.toList ++ l) d = valueAt r d + sumAt l d := by
  cases r <;> simp [sumAt, valueAt]

theorem contribution_one (m : SMap D ℝ) (d : D) : contribution d (m, (1 : ℝ)) = (m.get? d).getD 0 := by
  unfold contribution
  cases h : m.get? d <;> simp [h]

theorem sum_contribution_one (l : List (SMap D ℝ)) (d : D) :
    ((l.map (fun x => (x, (1 : ℝ)))).map (contribution d)).sum = sumAt l d := by
  unfold sumAt
  rw [List.map_map]
  congr 1
  apply List.map_congr_left
  intro m _
  exact contribution_one m d

variable {ix : Searcher D ℝ} {L : Leaves D} {rate : Node → D → ℝ}

theorem executeAnd_values (A : WArith ℝ) (pos neg : List Node) (hc : ∀ n ∈ pos, Clean n)
    (hn : ∀ n ∈ neg, ∃ r, n.execute A ix = .ok r)
    (hp : ∀ n ∈ pos, ∃ r, n.execute A ix = .ok r ∧ ∀ d, valueAt r d = score L rate n d)
    {r : List (SMap D ℝ) × List (SMap D ℝ)} (h : Node.executeAnd A ix (pos ++ neg.map .not) = .ok r) (d : D) :
    sumAt r.1 d = scoreSum L rate (pos ++ neg.map .not) d := by
  induction pos generalizing r with
  | nil =>
    rw [List.nil_append] at h ⊢
    induction neg generalizing r with
    | nil =>
      rw [List.map_nil, Node.executeAnd] at h
      cases h
      rw [List.map_nil, scoreSum]; rfl
    | cons n neg ih =>
      obtain ⟨r', e'⟩ := hn n (by simp)
      rw [List.map_cons, Node.executeAnd, e', bind_ok] at h
      cases e : Node.executeAnd A ix (neg.map .not) with
      | error x => rw [e] at h; cases h
      | ok r2 =>
        rw [e, bind_ok] at h
        cases h
        have := ih (fun m hm => hn m (by simp [hm])) e
        rw [List.map_cons, scoreSum, score, ← this]
        simp
  | cons n pos ih =>
    obtain ⟨r', e', hv⟩ := hp n (by simp)
    have hnn := clean_not_not (hc n (by simp))
    rw [List.cons_append, executeAnd_pos _ _ hnn, e', bind_ok] at h
    cases e : Node.executeAnd A ix (pos ++ neg.map .not) with
    | error x => rw [e] at h; cases h
    | ok r2 =>
      rw [e, bind_ok] at h
      cases h
      rw [List.cons_append, scoreSum, ← ih (fun m hm => hc m (by simp [hm])) (fun m hm => hp m (by simp [hm])) e, sumAt_append, hv]

theorem executeOr_values (A : WArith ℝ) (l : List Node)
    (hp : ∀ n ∈ l, ∃ r, n.execute A ix = .ok r ∧ ∀ d, valueAt r d = score L rate n d)
    {r : List (SMap D ℝ)} (h : Node.executeOr A ix l = .ok r) (d : D) :
    sumAt r d = scoreSum L rate l d := by
  induction l generalizing r with
  | nil =>
    rw [Node.executeOr] at h
    cases h
    rw [scoreSum]; rfl
  | cons n l ih =>
    obtain ⟨r', e', hv⟩ := hp n (by simp)
    rw [Node.executeOr, e', bind_ok] at h
    cases e : Node.executeOr A ix l with
    | error x => rw [e] at h; cases h
    | ok r2 =>
      rw [e, bind_ok] at h
      cases h
      rw [scoreSum, ← ih (fun m hm => hp m (by simp [hm])) e, sumAt_append, hv]

theorem closed_exact : Closed realArith.toWArith (fun x : ℝ => 0 < x) :=
  ⟨one_pos, fun _ _ => add_pos, fun _ _ => mul_pos⟩

theorem valueAt_ite {m : SMap D ℝ} {P : D → Prop} {f : D → ℝ} (hk : ∀ d, d ∈ m.keys ↔ P d)
    (hv : ∀ d v, m.get? d = some v → v = f d) {t : Node} (ht : L.matches? t = some P) (d : D) {_ : Decidable (L.Matches t d)} :
    valueAt (some m) d = if L.Matches t d then f d else 0 := by
  have hm : L.Matches t d ↔ P d := by
    constructor
    · rintro ⟨Q, hQ, h⟩; rw [ht] at hQ; cases hQ; exact h
    · exact fun h => ⟨P, ht, h⟩
  unfold valueAt
  rw [Option.bind_some]
  by_cases h : L.Matches t d
  · rw [if_pos h]
    obtain ⟨v, hg⟩ := (SMap.mem_keys_iff m d).1 ((hk d).2 (hm.1 h))
    rw [hg, Option.getD_some]
    exact hv d v hg
  · rw [if_neg h]
    cases hg : m.get? d with
    | none => rfl
    | some v => exact absurd (hm.2 ((hk d).1 ((SMap.mem_keys_iff m d).2 ⟨v, hg⟩))) h

/-- executing a tree computes which documents match and their scores -/
theorem execute_scores {t : Node} (hc : Clean t)
    (h : ∀ n, LeafOf n t → ∃ r, n.execute realArith.toWArith ix = .ok r ∧ Answers (fun x => 0 < x) r (L.matches? n) ∧
      ∀ d, valueAt r d = score L rate n d) :
    ∃ r, t.execute realArith.toWArith ix = .ok r ∧ Answers (fun x => 0 < x) r (L.matches? t) ∧
      ∀ d, valueAt r d = score L rate t d := by
  induction hc with
  | atom w => exact h _ (.atom w)
  | phrase ws _ => exact h _ (.phrase ws)
  | glob w => exact h _ (.glob w)
  | and pos neg hne hs hcp hcn ih1 ih2 =>
    have k1 : ∀ n ∈ pos, _ := fun n hn => ih1 n hn (fun x hx => h x (.and x n _ (List.mem_append_left _ hn) hx))
    have k2 : ∀ n ∈ neg, _ := fun n hn =>
      ih2 n hn (fun x hx => h x (.and x (.not n) _ (List.mem_append_right _ (List.mem_map.2 ⟨n, hn, rfl⟩)) (.not x n hx)))
    obtain ⟨r, e, ha⟩ := execute_answers (L := L) closed_exact (Clean.and pos neg hne hs hcp hcn)
      (fun n hn => (h n hn).imp (fun r hr => ⟨hr.1, hr.2.1⟩))
    refine ⟨r, e, ha, ?_⟩
    intro d
    rcases answers_cases ha with ⟨-, h1⟩ | ⟨m, P, rfl, h1, h2, h3⟩
    · rw [Leaves.matches?] at h1; cases h1
    rw [score]
    refine valueAt_ite h2 ?_ h1 d
    intro d v hv
    rw [Node.execute] at e
    cases e' : Node.executeAnd realArith.toWArith ix (pos ++ neg.map .not) with
    | error x => rw [e'] at e; cases e
    | ok r2 =>
      rw [e', bind_ok] at e
      have hsum := executeAnd_values (L := L) (rate := rate) realArith.toWArith pos neg hcp (fun n hn => (k2 n hn).imp (fun r hr => hr.1))
        (fun n hn => (k1 n hn).imp (fun r hr => ⟨hr.1, hr.2.2⟩)) e' d
      rw [← hsum]
      obtain ⟨m1, em, hm⟩ := @C29_inter_values D ℝ _ _ (Classical.decEq ℝ) (r2.1.map (fun x => (some x, (1 : ℝ))))
      have em' : massIntersection realArith.toWArith (r2.1.map (fun x => (some x, realArith.one))) = .ok m1 := em
      rw [em', bind_ok] at e
      have key : ∀ v, m1.get? d = some v → v = sumAt r2.1 d := by
        intro v hv
        have := ((hm d v).1 hv).2
        rw [presentMaps_ones, sum_contribution_one] at this
        exact this
      by_cases hr : r2.2.isEmpty = true
      · rw [if_pos hr] at e
        obtain rfl := Option.some.inj (Except.ok.inj e)
        exact key v hv
      · rw [if_neg hr] at e
        obtain ⟨m2, em2, -⟩ := C28_union_keys realArith.toWArith (r2.2.map (fun x => (x, realArith.one)))
        rw [em2, bind_ok] at e
        obtain rfl := Option.some.inj (Except.ok.inj e)
        rw [get?_difference] at hv
        split at hv
        · cases hv
        · exact key v hv
  | or l hne hcl ih =>
    have k1 : ∀ n ∈ l, _ := fun n hn => ih n hn (fun x hx => h x (.or x n _ hn hx))
    obtain ⟨r, e, ha⟩ := execute_answers (L := L) closed_exact (Clean.or l hne hcl)
      (fun n hn => (h n hn).imp (fun r hr => ⟨hr.1, hr.2.1⟩))
    refine ⟨r, e, ha, ?_⟩
    intro d
    rcases answers_cases ha with ⟨-, h1⟩ | ⟨m, P, rfl, h1, h2, h3⟩
    · rw [Leaves.matches?] at h1; cases h1
    rw [score]
    refine valueAt_ite h2 ?_ h1 d
    intro d v hv
    rw [Node.execute] at e
    cases e' : Node.executeOr realArith.toWArith ix l with
    | error x => rw [e'] at e; cases e
    | ok r2 =>
      rw [e', bind_ok] at e
      have hsum := executeOr_values (L := L) (rate := rate) realArith.toWArith l (fun n hn => (k1 n hn).imp (fun r hr => ⟨hr.1, hr.2.2⟩)) e' d
      rw [← hsum]
      obtain ⟨m1, em, hm⟩ := @C28_union_values D ℝ _ _ (Classical.decEq ℝ) (r2.map (fun x => (x, (1 : ℝ))))
      have em' : massUnion realArith.toWArith (r2.map (fun x => (x, realArith.one))) = .ok m1 := em
      rw [em', bind_ok] at e
      obtain rfl := Option.some.inj (Except.ok.inj e)
      have := ((hm d v).1 hv).2
      rw [sum_contribution_one] at this
      exact this

end Verif
