import Verif.Proofs.Scores
import Verif.Props.TextSearch

/-! # Scores of the text indexes over the real numbers -/

set_option autoImplicit false

namespace Verif

namespace Text

open Spec SetOps

variable {D : Type} [LinearOrder D]

/-! ## loops that succeed -/

theorem mapM_ok {α β : Type} (f : α → Except PyErr β) (l : List α) {L : List β} (h : l.mapM f = .ok L) :
    List.Forall₂ (fun a y => f a = .ok y) l L := by
  induction l generalizing L with
  | nil => cases h; exact .nil
  | cons a l ih =>
    rw [List.mapM_cons] at h
    cases e : f a with
    | error x => rw [e] at h; cases h
    | ok y =>
      rw [e, bind_ok] at h
      cases e' : l.mapM f with
      | error x => rw [e'] at h; cases h
      | ok L' =>
        rw [e', bind_ok] at h
        cases h
        exact .cons e (ih e')

theorem foldlM_set_ok {R : Type} (stp : SMap D R → D × R → Except PyErr (SMap D R)) (h : D → R → Option R) (l : List (D × R))
    (hn : l.Pairwise (fun a b => a.1 < b.1))
    (hs : ∀ p ∈ l, ∀ acc acc', stp acc p = .ok acc' → ∃ v, h p.1 p.2 = some v ∧ acc' = acc.set p.1 v) (m : SMap D R)
    {r : SMap D R} (hr : l.foldlM stp m = .ok r) (d : D) : r.get? d = ((SMap.getL l d).bind (h d)).or (m.get? d) := by
  induction l generalizing m with
  | nil => cases hr; simp
  | cons p l ih =>
    rw [List.pairwise_cons] at hn
    rw [List.foldlM_cons] at hr
    cases e : stp m p with
    | error x => rw [e] at hr; cases hr
    | ok m' =>
      rw [e, bind_ok] at hr
      obtain ⟨v, hv, rfl⟩ := hs p (by simp) m m' e
      rw [ih hn.2 (fun q hq => hs q (by simp [hq])) _ hr, SMap.get?_set, SMap.getL_cons]
      by_cases hd : d = p.1
      · subst hd
        have hnone : SMap.getL l p.1 = none := by
          rw [SMap.getL_eq_none]
          intro q hq
          exact (ne_of_lt (hn.1 q hq)).symm
        simp [hnone, hv]
      · simp [hd, Ne.symm hd]

/-! ## real arithmetic -/

theorem pyDiv_real {x y z : ℝ} (h : pyDiv realArith x y = .ok z) : y ≠ 0 ∧ z = x / y := by
  unfold pyDiv realArith at h
  simp only at h
  split at h
  · rename_i z' hz
    split at hz
    · cases hz
    · rename_i hy
      cases hz; cases h
      exact ⟨hy, rfl⟩
  · cases h

theorem pyDiv_real_eq {x y : ℝ} (h : y ≠ 0) : pyDiv realArith x y = .ok (x / y) := by
  unfold pyDiv realArith
  simp only [if_neg h]

theorem pyLog_real {x z : ℝ} (h : pyLog realArith x = .ok z) : 0 < x ∧ z = Real.log x := by
  unfold pyLog realArith at h
  simp only at h
  split at h
  · rename_i z' hz
    split at hz
    · rename_i hx
      cases hz; cases h
      exact ⟨hx, rfl⟩
    · cases hz
  · cases h

theorem pySqrt_real {x z : ℝ} (h : pySqrt realArith x = .ok z) : 0 ≤ x ∧ z = Real.sqrt x := by
  unfold pySqrt realArith at h
  simp only at h
  split at h
  · rename_i z' hz
    split at hz
    · rename_i hx
      cases hz; cases h
      exact ⟨hx, rfl⟩
    · cases hz
  · cases h

theorem idf_real {n : ℕ} {N z : ℝ} (h : idf realArith n N = .ok z) : z = invFreq N n := by
  unfold idf at h
  cases e : pyDiv realArith N (realArith.ofNat n) with
  | error x => rw [e] at h; cases h
  | ok q =>
    rw [e, bind_ok] at h
    obtain ⟨-, rfl⟩ := pyDiv_real e
    exact (pyLog_real h).2

theorem okapiTf_real {P : Bm25 ℝ} {f len mean z : ℝ} (h : okapiTf realArith P f len mean = .ok z) : z = bm25 P f len mean := by
  unfold okapiTf at h
  cases e : pyDiv realArith (realArith.mul P.b len) mean with
  | error x => rw [e] at h; cases h
  | ok q =>
    rw [e, bind_ok] at h
    obtain ⟨-, rfl⟩ := pyDiv_real e
    exact (pyDiv_real h).2

theorem real_positive : Positive realArith (fun x => 0 < x) := by
  refine ⟨one_pos, ?_, ?_, fun _ _ => add_pos, ?_, fun _ _ => mul_pos, ?_, ?_, ?_, ?_, ?_, ?_, fun _ h => h, ?_, ?_⟩
  · intro n hn; show (0 : ℝ) < n; exact_mod_cast hn
  · intro n hn; show (0 : ℝ) < n; exact_mod_cast hn
  · intro x hx; show (0 : ℝ) < 0 + x; linarith
  · intro x y hx hy
    exact ⟨x / y, by show (if y = 0 then none else some (x / y)) = _; rw [if_neg (ne_of_gt hy)], div_pos hx hy⟩
  · intro N n hn hN x q hx hq
    have hn' : (0 : ℝ) < n := by exact_mod_cast hn
    have hN' : (0 : ℝ) < N := by exact_mod_cast lt_of_lt_of_le hn hN
    have hx : x = N := by rcases hx with rfl | rfl <;> simp [realArith]
    have hq : (if (n : ℝ) = 0 then none else some (x / n)) = some q := hq
    rw [if_neg (ne_of_gt hn'), hx] at hq
    obtain rfl := Option.some.inj hq
    have h1 : (0 : ℝ) < N / n := div_pos hN' hn'
    refine ⟨Real.log (1 + N / n), ?_, Real.log_pos (by linarith)⟩
    show (if 0 < 1 + (N : ℝ) / n then some (Real.log (1 + N / n)) else none) = _
    rw [if_pos (by linarith)]
  · intro n hn
    have h1 : (0 : ℝ) < n := by exact_mod_cast hn
    refine ⟨Real.log n, ?_, ?_⟩
    · show (if 0 < (n : ℝ) then some (Real.log (n : ℝ)) else none) = _
      rw [if_pos h1]
    · have : 0 ≤ Real.log (n : ℝ) := Real.log_natCast_nonneg n
      show (0 : ℝ) < 1 + Real.log n
      linarith
  · intro x hx
    refine ⟨Real.sqrt x, ?_, Real.sqrt_pos.2 hx⟩
    show (if 0 ≤ x then some (Real.sqrt x) else none) = _
    rw [if_pos (le_of_lt hx)]
  · refine ⟨0, ?_, ?_⟩
    · show (if 0 ≤ (0 : ℝ) then some (Real.sqrt 0) else none) = _
      simp
    · show decide ((0 : ℝ) = 0) = true
      simp
  · show decide ((0 : ℝ) = 0) = true
    simp
  · intro x y _ _ h
    have h : decide (x ≠ y) = false := h
    simpa using h
  · intro x hx
    have hx : 0 < x := hx
    show decide (x = 0) = false
    simp [ne_of_gt hx]

theorem real_params {P : Bm25 ℝ} (h : Bm25Params P) : PosParams realArith (fun x => 0 < x) P :=
  ⟨h.k1, h.b0, by have := h.b1; show 0 < 1 - P.b; linarith⟩

theorem real_lengths (pipeline : List Element) (ops : List (Op D)) : LengthsExact realArith pipeline ops := by
  intro d t _
  show (if 0 ≤ (((wordsOf pipeline t).length : ℕ) : ℝ) then ⌊(((wordsOf pipeline t).length : ℕ) : ℝ)⌋
    else ⌈(((wordsOf pipeline t).length : ℕ) : ℝ)⌉) = _
  rw [if_pos (Nat.cast_nonneg _), Int.floor_natCast]

/-! ## values of `_search_wids` and `query_weight` -/

theorem okapi_values {P : Bm25 ℝ} {s : Ix D ℝ} {wids : List Int} {L : List (SMap D ℝ × ℝ)}
    (h : okapiSearchWids realArith P s wids = .ok L) :
    List.Forall₂ (fun wid p => ∃ e, s.wordinfo.get? wid = some e ∧ p.2 = 1 ∧ ∀ d, p.1.get? d = (e.map.get? d).bind (fun f =>
      (s.docweight.get? d).map (fun len => bm25 P f len (s.total / s.documentCount) * invFreq s.documentCount e.map.len))) wids L := by
  unfold okapiSearchWids at h
  cases wids with
  | nil => cases h; exact .nil
  | cons w0 ws =>
    simp only [List.isEmpty_cons, Bool.false_eq_true, if_false] at h
    cases e : pyDiv realArith (realArith.ofInt s.total) (realArith.ofInt s.documentCount) with
    | error x => rw [e] at h; cases h
    | ok mean =>
      rw [e, bind_ok] at h
      obtain ⟨-, rfl⟩ := pyDiv_real e
      refine (mapM_ok _ _ h).imp ?_
      intro wid p hp
      unfold okapiWord at hp
      cases hw : s.wordinfo.get? wid with
      | none => rw [hw] at hp; cases hp
      | some d2f =>
        rw [hw] at hp
        simp only at hp
        cases ei : idf realArith d2f.map.len (realArith.ofInt s.documentCount) with
        | error x => rw [ei] at hp; cases hp
        | ok z =>
          rw [ei, bind_ok] at hp
          obtain rfl := idf_real ei
          cases er : d2f.map.items.foldlM (okapiScoreStep realArith P s.docweight (invFreq (realArith.ofInt s.documentCount) d2f.map.len)
              (realArith.ofInt s.total / realArith.ofInt s.documentCount)) SMap.empty with
          | error x => rw [er] at hp; cases hp
          | ok r =>
            rw [er, bind_ok] at hp
            cases hp
            refine ⟨d2f, rfl, rfl, ?_⟩
            intro d
            have := foldlM_set_ok _ (fun d f => (s.docweight.get? d).map (fun len =>
              bm25 P f len (s.total / s.documentCount) * invFreq s.documentCount d2f.map.len)) d2f.map.items d2f.map.sorted (by
              intro p _ acc acc' ha
              unfold okapiScoreStep at ha
              cases hl : s.docweight.get? p.1 with
              | none => rw [hl] at ha; cases ha
              | some len =>
                rw [hl] at ha
                simp only at ha
                cases et : okapiTf realArith P p.2 len (realArith.ofInt s.total / realArith.ofInt s.documentCount) with
                | error x => rw [et] at ha; cases ha
                | ok tf =>
                  rw [et, bind_ok] at ha
                  obtain rfl := okapiTf_real et
                  cases ha
                  exact ⟨_, rfl, rfl⟩) SMap.empty er d
            rw [this, SMap.get?_empty, Option.or_none]
            rfl

theorem cosine_values {s : Ix D ℝ} {wids : List Int} {L : List (SMap D ℝ × ℝ)} (h : cosineSearchWids realArith s wids = .ok L) :
    List.Forall₂ (fun wid p => ∃ e, s.wordinfo.get? wid = some e ∧ p.2 = invFreq s.docweight.len e.map.len ∧
      ∀ d, p.1.get? d = e.map.get? d) wids L := by
  unfold cosineSearchWids at h
  cases wids with
  | nil => cases h; exact .nil
  | cons w0 ws =>
    simp only [List.isEmpty_cons, Bool.false_eq_true, if_false] at h
    refine (mapM_ok _ _ h).imp ?_
    intro wid p hp
    unfold cosineWord at hp
    cases hw : s.wordinfo.get? wid with
    | none => rw [hw] at hp; cases hp
    | some d2f =>
      rw [hw] at hp
      simp only at hp
      cases ei : idf realArith d2f.map.len (realArith.ofNat s.docweight.len) with
      | error x => rw [ei] at hp; cases hp
      | ok z =>
        rw [ei, bind_ok] at hp
        obtain rfl := idf_real ei
        cases hp
        refine ⟨d2f, rfl, rfl, ?_⟩
        intro d
        simp only
        split
        · rfl
        · rw [SMap.get?_mapVals]
          cases d2f.map.get? d <;> rfl

theorem foldlM_sum (f : ℝ → Int → Except PyErr ℝ) (x : Int → ℝ) (l : List Int)
    (h : ∀ w ∈ l, ∀ sum q, f sum w = .ok q → q = sum + x w) {acc q : ℝ} (hq : l.foldlM f acc = .ok q) :
    q = acc + (l.map x).sum := by
  induction l generalizing acc with
  | nil => cases hq; simp
  | cons w l ih =>
    rw [List.foldlM_cons] at hq
    cases e : f acc w with
    | error x => rw [e] at hq; cases hq
    | ok a =>
      rw [e, bind_ok] at hq
      rw [ih (fun v hv => h v (by simp [hv])) hq, h w (by simp) acc a e]
      simp [add_assoc]

/-- the inverse document frequency of a word id of the index -/
noncomputable def widIdf (s : Ix D ℝ) (wid : Int) : ℝ :=
  match s.wordinfo.get? wid with
  | none => 0
  | some e => invFreq s.docweight.len e.map.len

theorem okapi_weight_value {P : Bm25 ℝ} {s : Ix D ℝ} {wids : List Int} {q : ℝ} (h : okapiQueryWeight realArith P s wids = .ok q) :
    q = (wids.map (fun wid => widIdf s wid * (1 + P.k1))).sum := by
  unfold okapiQueryWeight at h
  have := foldlM_sum _ (fun wid => widIdf s wid * (1 + P.k1)) _ (by
    intro w hw sum q hq
    unfold okapiWeightStep at hq
    unfold widIdf
    cases he : s.wordinfo.get? w with
    | none => rw [he] at hq; cases hq
    | some e =>
      rw [he] at hq
      simp only at hq
      cases ei : idf realArith e.map.len (realArith.ofNat s.docweight.len) with
      | error x => rw [ei] at hq; cases hq
      | ok z =>
        rw [ei, bind_ok] at hq
        obtain rfl := idf_real ei
        cases hq
        rfl) h
  rw [this]
  show (0 : ℝ) + _ = _
  rw [zero_add]
  clear this h
  unfold removeOov
  induction wids with
  | nil => rfl
  | cons w wids ih =>
    rw [List.filter_cons]
    by_cases hc : s.wordinfo.contains w = true
    · rw [if_pos hc, List.map_cons, List.map_cons, List.sum_cons, List.sum_cons, ih]
    · rw [if_neg hc, ih, List.map_cons, List.sum_cons]
      have : widIdf s w = 0 := by
        unfold widIdf
        cases he : s.wordinfo.get? w with
        | none => rfl
        | some e => exact absurd ((SMap.contains_iff _ _).2 ⟨e, he⟩) hc
      simp [this]

theorem cosine_weight_value {s : Ix D ℝ} {wids : List Int} {q : ℝ} (h : cosineQueryWeight realArith s wids = .ok q) :
    q = Real.sqrt ((wids.map (fun wid => widIdf s wid ^ 2)).sum) := by
  unfold cosineQueryWeight at h
  cases e : (removeOov s wids).foldlM (cosineWeightStep realArith s (realArith.ofNat s.docweight.len)) realArith.zero with
  | error x => rw [e] at h; cases h
  | ok sum =>
    rw [e, bind_ok] at h
    have := foldlM_sum _ (fun wid => widIdf s wid ^ 2) _ (by
      intro w hw sum q hq
      unfold cosineWeightStep at hq
      unfold widIdf
      cases he : s.wordinfo.get? w with
      | none => rw [he] at hq; cases hq
      | some e =>
        rw [he] at hq
        simp only at hq
        cases ei : idf realArith e.map.len (realArith.ofNat s.docweight.len) with
        | error x => rw [ei] at hq; cases hq
        | ok z =>
          rw [ei, bind_ok] at hq
          obtain rfl := idf_real ei
          cases hq
          simp only
          rw [pow_two]; rfl) e
    rw [(pySqrt_real h).2, this]
    congr 1
    show (0 : ℝ) + _ = _
    rw [zero_add]
    clear this h e
    unfold removeOov
    induction wids with
    | nil => rfl
    | cons w wids ih =>
      rw [List.filter_cons]
      by_cases hc : s.wordinfo.contains w = true
      · rw [if_pos hc, List.map_cons, List.map_cons, List.sum_cons, List.sum_cons, ih]
      · rw [if_neg hc, ih, List.map_cons, List.sum_cons]
        have : widIdf s w = 0 := by
          unfold widIdf
          cases he : s.wordinfo.get? w with
          | none => rfl
          | some e => exact absurd ((SMap.contains_iff _ _).2 ⟨e, he⟩) hc
        simp [this]

end Text
end Verif
