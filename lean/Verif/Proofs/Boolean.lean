import Verif.Spec.Boolean
import Verif.Proofs.ParseTree
import Verif.Proofs.TextSearch

/-! # Execution of parse trees computes their meaning -/

set_option autoImplicit false

namespace Verif

open Spec SetOps Text

variable {D R : Type} [LinearOrder D]

/-- the result has exactly the matching documents, and its scores satisfy `Pos` -/
def Answers (Pos : R → Prop) : Option (SMap D R) → Option (D → Prop) → Prop
  | none, none => True
  | some m, some P => (∀ d, d ∈ m.keys ↔ P d) ∧ PosMap Pos m
  | _, _ => False

theorem answers_cases {Pos : R → Prop} {r : Option (SMap D R)} {o : Option (D → Prop)} (h : Answers Pos r o) :
    (r = none ∧ o = none) ∨ ∃ m P, r = some m ∧ o = some P ∧ (∀ d, d ∈ m.keys ↔ P d) ∧ PosMap Pos m := by
  cases r with
  | none => cases o with
    | none => exact Or.inl ⟨rfl, rfl⟩
    | some _ => cases h
  | some m => cases o with
    | none => cases h
    | some P => exact Or.inr ⟨m, P, rfl, rfl, h.1, h.2⟩

/-- the results have exactly the matching documents -/
def Answers2 (Pos : R → Prop) : List (SMap D R) → List (D → Prop) → Prop :=
  List.Forall₂ (fun m P => (∀ d, d ∈ m.keys ↔ P d) ∧ PosMap Pos m)

theorem answers2_append {Pos : R → Prop} {r : Option (SMap D R)} {o : Option (D → Prop)} (h : Answers Pos r o)
    {l : List (SMap D R)} {Q : List (D → Prop)} (hl : Answers2 Pos l Q) : Answers2 Pos (r.toList ++ l) (o.toList ++ Q) := by
  rcases answers_cases h with ⟨rfl, rfl⟩ | ⟨m, P, rfl, rfl, h1⟩
  · exact hl
  · exact .cons h1 hl

theorem positive_pos (L : Leaves D) (n : Node) (rest : List Node) (hn : ∀ m, n ≠ .not m) :
    L.positive (n :: rest) = (L.matches? n).toList ++ L.positive rest := by
  cases n with
  | not m => exact absurd rfl (hn m)
  | _ => rw [Leaves.positive]; intro m; simp

theorem negative_pos (L : Leaves D) (n : Node) (rest : List Node) (hn : ∀ m, n ≠ .not m) :
    L.negative (n :: rest) = L.negative rest := by
  cases n with
  | not m => exact absurd rfl (hn m)
  | _ => rw [Leaves.negative]; intro m; simp

variable {A : WArith R} {Pos : R → Prop}

theorem executeAnd_answers {ix : Searcher D R} {L : Leaves D} (pos neg : List Node) (hc : ∀ n ∈ pos, Clean n)
    (hp : ∀ n ∈ pos ++ neg, ∃ r, n.execute A ix = .ok r ∧ Answers Pos r (L.matches? n)) :
    ∃ r, Node.executeAnd A ix (pos ++ neg.map .not) = .ok r ∧
      Answers2 Pos r.1 (L.positive (pos ++ neg.map .not)) ∧ Answers2 Pos r.2 (L.negative (pos ++ neg.map .not)) := by
  induction pos with
  | nil =>
    rw [List.nil_append] at hp ⊢
    induction neg with
    | nil =>
      refine ⟨([], []), by rw [List.map_nil, Node.executeAnd], ?_, ?_⟩
      · rw [List.map_nil, Leaves.positive]; exact .nil
      · rw [List.map_nil, Leaves.negative]; exact .nil
    | cons n neg ih =>
      obtain ⟨r, e, h1, h2⟩ := ih (fun m hm => hp m (by simp [hm]))
      obtain ⟨r', e', h'⟩ := hp n (by simp)
      refine ⟨(r.1, r'.toList ++ r.2), ?_, ?_, ?_⟩
      · rw [List.map_cons, Node.executeAnd, e', bind_ok, e, bind_ok]; rfl
      · rw [List.map_cons, Leaves.positive]; exact h1
      · rw [List.map_cons, Leaves.negative]; exact answers2_append h' h2
  | cons n pos ih =>
    obtain ⟨r, e, h1, h2⟩ := ih (fun m hm => hc m (by simp [hm])) (fun m hm => hp m (by
      rw [List.cons_append]; exact List.mem_cons_of_mem _ hm))
    obtain ⟨r', e', h'⟩ := hp n (by simp)
    have hn := clean_not_not (hc n (by simp))
    refine ⟨(r'.toList ++ r.1, r.2), ?_, ?_, ?_⟩
    · rw [List.cons_append, executeAnd_pos _ _ hn, e', bind_ok, e, bind_ok]; rfl
    · rw [List.cons_append, positive_pos _ _ _ hn]; exact answers2_append h' h1
    · rw [List.cons_append, negative_pos _ _ _ hn]; exact h2

theorem executeOr_answers {ix : Searcher D R} {L : Leaves D} (l : List Node)
    (hp : ∀ n ∈ l, ∃ r, n.execute A ix = .ok r ∧ Answers Pos r (L.matches? n)) :
    ∃ r, Node.executeOr A ix l = .ok r ∧ Answers2 Pos r (L.parts l) := by
  induction l with
  | nil => exact ⟨[], by rw [Node.executeOr], by rw [Leaves.parts]; exact .nil⟩
  | cons n l ih =>
    obtain ⟨r, e, h1⟩ := ih (fun m hm => hp m (by simp [hm]))
    obtain ⟨r', e', h'⟩ := hp n (by simp)
    refine ⟨r'.toList ++ r, ?_, ?_⟩
    · rw [Node.executeOr, e', bind_ok, e, bind_ok]; rfl
    · rw [Leaves.parts]; exact answers2_append h' h1

theorem presentMaps_ones (l : List (SMap D R)) (one : R) :
    presentMaps (l.map (fun x => (some x, one))) = l.map (fun x => (x, one)) := by
  unfold presentMaps
  rw [List.filterMap_map]
  exact congrFun List.filterMap_eq_map l

theorem inSome_ones {l : List (SMap D R)} {Q : List (D → Prop)} (h : Answers2 Pos l Q) (one : R) (d : D) :
    InSome d (l.map (fun x => (x, one))) ↔ ∃ P ∈ Q, P d := by
  unfold InSome
  induction h with
  | nil => simp
  | cons h _ ih => simp only [List.map_cons, List.mem_cons, exists_eq_or_imp]; rw [ih, h.1 d]

theorem inEvery_ones {l : List (SMap D R)} {Q : List (D → Prop)} (h : Answers2 Pos l Q) (one : R) (d : D) :
    InEvery d (l.map (fun x => (x, one))) ↔ Q ≠ [] ∧ ∀ P ∈ Q, P d := by
  unfold InEvery
  have h1 : l.map (fun x => (x, one)) = [] ↔ Q = [] := by cases h <;> simp
  have h2 : (∀ p ∈ l.map (fun x => (x, one)), d ∈ p.1.keys) ↔ ∀ P ∈ Q, P d := by
    clear h1
    induction h with
    | nil => simp
    | cons h _ ih => simp only [List.map_cons, List.mem_cons, forall_eq_or_imp]; rw [ih, h.1 d]
  rw [Ne, h1, h2]

theorem answers2_posMap {l : List (SMap D R)} {Q : List (D → Prop)} (h : Answers2 Pos l Q) : ∀ m ∈ l, PosMap Pos m := by
  intro m hm
  induction h with
  | nil => cases hm
  | cons h _ ih =>
    rcases List.mem_cons.1 hm with rfl | hm
    · exact h.2
    · exact ih hm

theorem get?_difference (x y : SMap D R) (d : D) : (difference x y).get? d = if d ∈ y.keys then none else x.get? d := by
  unfold difference
  rw [SMap.get?_filter]
  have hc := SMap.contains_iff_mem y d
  cases hx : x.get? d with
  | none => simp
  | some v =>
    by_cases hy : d ∈ y.keys
    · have := hc.2 hy
      simp [hy, this]
    · have : y.contains d = false := by
        rw [Bool.eq_false_iff]; exact fun h => hy (hc.1 h)
      simp [hy, this]

/-- executing a tree computes which documents match -/
theorem execute_answers (hA : Closed A Pos) {ix : Searcher D R} {L : Leaves D} {t : Node} (hc : Clean t)
    (h : ∀ n, LeafOf n t → ∃ r, n.execute A ix = .ok r ∧ Answers Pos r (L.matches? n)) :
    ∃ r, t.execute A ix = .ok r ∧ Answers Pos r (L.matches? t) := by
  induction hc with
  | atom w => exact h _ (.atom w)
  | phrase ws _ => exact h _ (.phrase ws)
  | glob w => exact h _ (.glob w)
  | and pos neg _ _ hcp _ ih1 ih2 =>
    obtain ⟨r, e, h1, h2⟩ := executeAnd_answers (A := A) (Pos := Pos) (ix := ix) (L := L) pos neg hcp (by
      intro n hn
      rcases List.mem_append.1 hn with hn | hn
      · exact ih1 n hn (fun x hx => h x (.and x n _ (List.mem_append_left _ hn) hx))
      · exact ih2 n hn (fun x hx => h x (.and x (.not n) _ (List.mem_append_right _ (List.mem_map.2 ⟨n, hn, rfl⟩)) (.not x n hx))))
    rw [Node.execute, e, bind_ok]
    obtain ⟨m, hm, hk⟩ := C29_inter_keys A (r.1.map (fun x => (some x, A.one)))
    have hmp : PosMap Pos m := by
      refine massIntersection_pos hA ?_ hm
      rw [presentMaps_ones]
      intro p hp
      obtain ⟨x, hx, rfl⟩ := List.mem_map.1 hp
      exact ⟨answers2_posMap h1 x hx, hA.one⟩
    rw [hm, bind_ok]
    have hk' : ∀ d, d ∈ m.keys ↔ L.positive (pos ++ neg.map .not) ≠ [] ∧ ∀ P ∈ L.positive (pos ++ neg.map .not), P d := by
      intro d; rw [hk d, presentMaps_ones, inEvery_ones h1]
    by_cases hr : r.2.isEmpty = true
    · rw [if_pos hr]
      refine ⟨_, rfl, ?_⟩
      rw [Leaves.matches?]
      refine ⟨?_, hmp⟩
      intro d
      have hneg : L.negative (pos ++ neg.map .not) = [] := by
        rw [List.isEmpty_iff] at hr
        rw [hr] at h2
        exact List.forall₂_nil_left_iff.1 h2
      rw [hk' d, hneg]
      simp
    · rw [if_neg hr]
      obtain ⟨m', hm', hn⟩ := C28_union_keys A (r.2.map (fun x => (x, A.one)))
      rw [hm', bind_ok]
      refine ⟨_, rfl, ?_⟩
      rw [Leaves.matches?]
      refine ⟨?_, ?_⟩
      · intro d
        have hn' : d ∈ m'.keys ↔ ∃ P ∈ L.negative (pos ++ neg.map .not), P d := by rw [hn d, inSome_ones h2]
        beta_reduce
        rw [SMap.mem_keys_iff, get?_difference, ← and_assoc, ← hk' d, SMap.mem_keys_iff m d]
        by_cases hd : d ∈ m'.keys
        · rw [if_pos hd]
          simp only [reduceCtorEq, exists_false, false_iff, not_and]
          intro _ hall
          obtain ⟨P, hP, hPd⟩ := hn'.1 hd
          exact hall P hP hPd
        · rw [if_neg hd]
          constructor
          · intro hx
            exact ⟨hx, fun P hP hPd => hd (hn'.2 ⟨P, hP, hPd⟩)⟩
          · exact fun hx => hx.1
      · intro d v hv
        rw [get?_difference] at hv
        split at hv
        · cases hv
        · exact hmp d v hv
  | or l _ _ ih =>
    obtain ⟨r, e, h1⟩ := executeOr_answers (A := A) (Pos := Pos) (ix := ix) (L := L) l
      (fun n hn => ih n hn (fun x hx => h x (.or x n _ hn hx)))
    rw [Node.execute, e, bind_ok]
    obtain ⟨m, hm, hk⟩ := C28_union_keys A (r.map (fun x => (x, A.one)))
    rw [hm, bind_ok]
    refine ⟨_, rfl, ?_⟩
    rw [Leaves.matches?]
    refine ⟨?_, ?_⟩
    · intro d; rw [hk d, inSome_ones h1]
    · refine massUnion_pos hA ?_ hm
      intro p hp
      obtain ⟨x, hx, rfl⟩ := List.mem_map.1 hp
      exact ⟨answers2_posMap h1 x hx, hA.one⟩

end Verif
