import Verif.Spec.Rearrange
import Verif.Props.ComposeScores

/-! # Rearranged queries match the same documents with the same scores -/

set_option autoImplicit false

namespace Verif

open Spec

variable {D : Type}

namespace Rearr

variable (L : Leaves D) (rate : Node → D → ℝ)

theorem positive_cons (n : Node) (l : List Node) : L.positive (n :: l) = L.positive [n] ++ L.positive l := by
  cases n <;> simp [Leaves.positive]

theorem negative_cons (n : Node) (l : List Node) : L.negative (n :: l) = L.negative [n] ++ L.negative l := by
  cases n <;> simp [Leaves.negative]

theorem positive_append (l r : List Node) : L.positive (l ++ r) = L.positive l ++ L.positive r := by
  induction l with
  | nil => simp [Leaves.positive]
  | cons n l ih => rw [List.cons_append, positive_cons, ih, positive_cons L n l, List.append_assoc]

theorem negative_append (l r : List Node) : L.negative (l ++ r) = L.negative l ++ L.negative r := by
  induction l with
  | nil => simp [Leaves.negative]
  | cons n l ih => rw [List.cons_append, negative_cons, ih, negative_cons L n l, List.append_assoc]

theorem parts_append (l r : List Node) : L.parts (l ++ r) = L.parts l ++ L.parts r := by
  induction l with
  | nil => simp [Leaves.parts]
  | cons n l ih => rw [List.cons_append, Leaves.parts, Leaves.parts, ih, List.append_assoc]

theorem scoreSum_append (l r : List Node) (d : D) : scoreSum L rate (l ++ r) d = scoreSum L rate l d + scoreSum L rate r d := by
  induction l with
  | nil => simp [scoreSum]
  | cons n l ih => rw [List.cons_append, scoreSum, scoreSum, ih, add_assoc]

theorem termsAll_append (l r : List Node) : Node.termsAll (l ++ r) = Node.termsAll l ++ Node.termsAll r := by
  induction l with
  | nil => simp [Node.termsAll]
  | cons n l ih => rw [List.cons_append, Node.termsAll, Node.termsAll, ih, List.append_assoc]

theorem perm_all {l l' : List Node} (h : l.Perm l') : (L.positive l).Perm (L.positive l') ∧ (L.negative l).Perm (L.negative l') ∧
    (L.parts l).Perm (L.parts l') ∧ (∀ d, scoreSum L rate l d = scoreSum L rate l' d) ∧ (Node.termsAll l).Perm (Node.termsAll l') := by
  induction h with
  | nil => exact ⟨.refl _, .refl _, .refl _, fun _ => rfl, .refl _⟩
  | @cons n l₁ l₂ _ ih =>
    obtain ⟨a, b, c, d, e⟩ := ih
    refine ⟨?_, ?_, ?_, fun x => ?_, ?_⟩
    · rw [positive_cons L n l₁, positive_cons L n l₂]; exact a.append_left _
    · rw [negative_cons L n l₁, negative_cons L n l₂]; exact b.append_left _
    · rw [Leaves.parts, Leaves.parts]; exact c.append_left _
    · rw [scoreSum, scoreSum, d]
    · rw [Node.termsAll, Node.termsAll]; exact e.append_left _
  | swap n m l =>
    refine ⟨?_, ?_, ?_, fun x => ?_, ?_⟩
    · rw [positive_cons L m (n :: l), positive_cons L n l, positive_cons L n (m :: l), positive_cons L m l, ← List.append_assoc, ← List.append_assoc]
      exact List.perm_append_comm.append_right _
    · rw [negative_cons L m (n :: l), negative_cons L n l, negative_cons L n (m :: l), negative_cons L m l, ← List.append_assoc, ← List.append_assoc]
      exact List.perm_append_comm.append_right _
    · simp only [Leaves.parts]
      rw [← List.append_assoc, ← List.append_assoc]
      exact List.perm_append_comm.append_right _
    · simp only [scoreSum]; ring
    · simp only [Node.termsAll]
      rw [← List.append_assoc, ← List.append_assoc]
      exact List.perm_append_comm.append_right _
  | trans _ _ ih1 ih2 =>
    exact ⟨ih1.1.trans ih2.1, ih1.2.1.trans ih2.2.1, ih1.2.2.1.trans ih2.2.2.1, fun d => (ih1.2.2.2.1 d).trans (ih2.2.2.2.1 d),
      ih1.2.2.2.2.trans ih2.2.2.2.2⟩

/-- the AND of lists whose parts are the same up to order -/
theorem and_eq {l l' : List Node} (hp : (L.positive l).Perm (L.positive l')) (hn : (L.negative l).Perm (L.negative l')) :
    L.matches? (.and l) = L.matches? (.and l') := by
  rw [Leaves.matches?, Leaves.matches?]
  congr 1
  funext d
  have e : L.positive l = [] ↔ L.positive l' = [] := by rw [← List.length_eq_zero_iff, hp.length_eq, List.length_eq_zero_iff]
  simp only [ne_eq, e, hp.mem_iff, hn.mem_iff]

theorem or_eq {l l' : List Node} (hp : (L.parts l).Perm (L.parts l')) : L.matches? (.or l) = L.matches? (.or l') := by
  rw [Leaves.matches?, Leaves.matches?]
  congr 1
  funext d
  simp only [hp.mem_iff]

theorem score_and {l l' : List Node} (hm : L.matches? (.and l) = L.matches? (.and l')) (d : D)
    (hs : L.Matches (.and l) d → scoreSum L rate l d = scoreSum L rate l' d) : score L rate (.and l) d = score L rate (.and l') d := by
  have e : L.Matches (.and l) d ↔ L.Matches (.and l') d := by unfold Leaves.Matches; rw [hm]
  rw [score, score]
  by_cases h : L.Matches (.and l) d
  · rw [if_pos h, if_pos (e.1 h), hs h]
  · rw [if_neg h, if_neg (fun x => h (e.2 x))]

theorem score_or {l l' : List Node} (hm : L.matches? (.or l) = L.matches? (.or l')) (d : D)
    (hs : scoreSum L rate l d = scoreSum L rate l' d) : score L rate (.or l) d = score L rate (.or l') d := by
  have e : L.Matches (.or l) d ↔ L.Matches (.or l') d := by unfold Leaves.Matches; rw [hm]
  rw [score, score]
  by_cases h : L.Matches (.or l) d
  · rw [if_pos h, if_pos (e.1 h), hs]
  · rw [if_neg h, if_neg (fun x => h (e.2 x))]

/-- a document that no part of the OR matches has no score -/
theorem scoreSum_zero {l : List Node} {d : D} (h : ¬ L.Matches (.or l) d) : scoreSum L rate l d = 0 := by
  induction l with
  | nil => rw [scoreSum]
  | cons n l ih =>
    have key : L.Matches (.or (n :: l)) d ↔ L.Matches n d ∨ L.Matches (.or l) d := by
      unfold Leaves.Matches
      rw [Leaves.matches?, Leaves.matches?, Leaves.parts]
      cases L.matches? n <;> simp
    rw [key] at h
    have h' : ¬ L.Matches n d ∧ ¬ L.Matches (.or l) d := not_or.1 h
    rw [scoreSum, ih h'.2, add_zero]
    cases n <;> rw [score]
    all_goals exact if_neg h'.1

/-- what rearranged trees have in common -/
structure Same (t t' : Node) : Prop where
  pos : L.positive [t] = L.positive [t']
  neg : L.negative [t] = L.negative [t']
  all : L.matches? t = L.matches? t'
  score : ∀ d, score L rate t d = score L rate t' d
  terms : t.terms.Perm t'.terms

theorem same_and {l l' : List Node} (hm : L.matches? (.and l) = L.matches? (.and l'))
    (hs : ∀ d, L.Matches (.and l) d → scoreSum L rate l d = scoreSum L rate l' d) (ht : (Node.termsAll l).Perm (Node.termsAll l')) :
    Same L rate (.and l) (.and l') where
  pos := by simp only [Leaves.positive, hm]
  neg := by simp only [Leaves.negative]
  all := hm
  score d := score_and L rate hm d (hs d)
  terms := by simpa only [Node.terms] using ht

theorem same_or {l l' : List Node} (hm : L.matches? (.or l) = L.matches? (.or l'))
    (hs : ∀ d, scoreSum L rate l d = scoreSum L rate l' d) (ht : (Node.termsAll l).Perm (Node.termsAll l')) :
    Same L rate (.or l) (.or l') where
  pos := by simp only [Leaves.positive, hm]
  neg := by simp only [Leaves.negative]
  all := hm
  score d := score_or L rate hm d (hs d)
  terms := by simpa only [Node.terms] using ht

theorem same {t t' : Node} (h : Rearranged L t t') : Same L rate t t' := by
  induction h with
  | refl t => exact ⟨rfl, rfl, rfl, fun _ => rfl, .refl _⟩
  | symm _ ih => exact ⟨ih.pos.symm, ih.neg.symm, ih.all.symm, fun d => (ih.score d).symm, ih.terms.symm⟩
  | trans _ _ a b =>
    exact ⟨a.pos.trans b.pos, a.neg.trans b.neg, a.all.trans b.all, fun d => (a.score d).trans (b.score d), a.terms.trans b.terms⟩
  | orderAnd hp =>
    obtain ⟨a, b, -, d, e⟩ := perm_all L rate hp
    exact same_and L rate (and_eq L a b) (fun x _ => d x) e
  | orderOr hp =>
    obtain ⟨-, -, c, d, e⟩ := perm_all L rate hp
    exact same_or L rate (or_eq L c) d e
  | groupAnd l r hl =>
    refine same_and L rate ?_ ?_ ?_
    · simp only [Leaves.matches?, positive_append, negative_append]
      congr 1
      funext d
      simp only [Leaves.positive, Leaves.negative, Leaves.matches?, Option.toList_some, List.mem_append,
        List.singleton_append, List.mem_cons, List.append_eq_nil_iff, ne_eq]
      apply propext
      constructor
      · rintro ⟨-, h2, h3⟩
        obtain ⟨-, g2, g3⟩ := h2 _ (.inl rfl)
        exact ⟨fun h => hl h.1, fun P hP => hP.elim (g2 P) (fun h => h2 P (.inr h)), fun P hP => hP.elim (g3 P) (h3 P)⟩
      · rintro ⟨-, h2, h3⟩
        refine ⟨by simp, ?_, fun P hP => h3 P (.inr hP)⟩
        rintro P (rfl | hP)
        · exact ⟨hl, fun Q hQ => h2 Q (.inl hQ), fun Q hQ => h3 Q (.inl hQ)⟩
        · exact h2 P (.inr hP)
    · intro d hd
      obtain ⟨P, e, h⟩ := hd
      rw [Leaves.matches?] at e
      obtain rfl := Option.some.inj e
      obtain ⟨-, h2, -⟩ := h
      have hin : L.Matches (.and l) d := by
        rw [positive_cons] at h2
        simp only [Leaves.positive, List.append_nil, Leaves.matches?, Option.toList_some] at h2
        exact ⟨_, by rw [Leaves.matches?], h2 _ (by simp)⟩
      rw [scoreSum, scoreSum_append, score, if_pos hin]
    · rw [Node.termsAll, termsAll_append, Node.terms]
  | groupOr l r =>
    refine same_or L rate ?_ ?_ ?_
    · simp only [Leaves.matches?, parts_append]
      congr 1
      funext d
      simp only [Leaves.parts, Leaves.matches?, Option.toList_some, List.mem_append, List.singleton_append, List.mem_cons]
      apply propext
      constructor
      · rintro ⟨P, rfl | hP, h⟩
        · obtain ⟨Q, hQ, h⟩ := h
          exact ⟨Q, .inl hQ, h⟩
        · exact ⟨P, .inr hP, h⟩
      · rintro ⟨P, hP | hP, h⟩
        · exact ⟨_, .inl rfl, P, hP, h⟩
        · exact ⟨P, .inr hP, h⟩
    · intro d
      rw [scoreSum, scoreSum_append, score]
      split
      · rfl
      · rename_i h
        rw [scoreSum_zero L rate h]
    · rw [Node.termsAll, termsAll_append, Node.terms]
  | insideNot _ ih =>
    refine ⟨by simp only [Leaves.positive], by simp only [Leaves.negative, ih.all], by simp only [Leaves.matches?], ?_, ?_⟩
    · intro d; rw [score, score]
    · rw [Node.terms, Node.terms]
  | insideAnd l _ ih =>
    refine same_and L rate (and_eq L ?_ ?_) ?_ ?_
    · rw [positive_cons, ih.pos, ← positive_cons]
    · rw [negative_cons, ih.neg, ← negative_cons]
    · intro d _; rw [scoreSum, scoreSum, ih.score]
    · rw [Node.termsAll, Node.termsAll]; exact ih.terms.append_right _
  | insideOr l _ ih =>
    refine same_or L rate (or_eq L ?_) ?_ ?_
    · rw [Leaves.parts, Leaves.parts, ih.all]
    · intro d; rw [scoreSum, scoreSum, ih.score]
    · rw [Node.termsAll, Node.termsAll]; exact ih.terms.append_right _

end Rearr

end Verif
