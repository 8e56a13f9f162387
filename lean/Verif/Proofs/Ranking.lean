import Verif.Spec.Ranking
import Mathlib.Algebra.Order.BigOperators.Group.List
import Mathlib.Algebra.BigOperators.Group.Finset.Basic
import Mathlib.Algebra.Order.BigOperators.Group.Finset
import Mathlib.Tactic.Linarith

set_option autoImplicit false

namespace Verif.Spec

variable {D : Type} (L : Leaves D)

theorem mem_positive {l : List Node} {P : D → Prop} : P ∈ L.positive l ↔ ∃ n ∈ l, n.isNot = false ∧ L.matches? n = some P := by
  induction l with
  | nil => simp [Leaves.positive]
  | cons n l ih =>
    cases n <;> simp [Leaves.positive, ih, Node.isNot]

theorem mem_negative {l : List Node} {P : D → Prop} : P ∈ L.negative l ↔ ∃ n, Node.not n ∈ l ∧ L.matches? n = some P := by
  induction l with
  | nil => simp [Leaves.negative]
  | cons n l ih =>
    cases n <;> simp [Leaves.negative, ih, or_and_right, exists_or]

theorem mem_parts {l : List Node} {P : D → Prop} : P ∈ L.parts l ↔ ∃ n ∈ l, L.matches? n = some P := by
  induction l with
  | nil => simp [Leaves.parts]
  | cons n l ih => simp [Leaves.parts, ih]

theorem matches_and {l : List Node} {d : D} : L.Matches (.and l) d ↔ (∃ n ∈ l, L.Matches n d) ∧
    (∀ n ∈ l, n.isNot = false → L.matches? n ≠ none → L.Matches n d) ∧ ∀ n, Node.not n ∈ l → ¬ L.Matches n d := by
  unfold Leaves.Matches
  simp only [Leaves.matches?, Option.some.injEq]
  constructor
  · rintro ⟨_, rfl, h1, h2, h3⟩
    refine ⟨?_, ?_, ?_⟩
    · obtain ⟨P, hP⟩ := List.exists_mem_of_ne_nil _ h1
      obtain ⟨n, hn, -, hm⟩ := (mem_positive L).1 hP
      exact ⟨n, hn, P, hm, h2 P hP⟩
    · intro n hn hi hne
      obtain ⟨P, hP⟩ := Option.ne_none_iff_exists'.1 hne
      exact ⟨P, hP, h2 P ((mem_positive L).2 ⟨n, hn, hi, hP⟩)⟩
    · rintro n hn ⟨P, hP, hd⟩
      exact h3 P ((mem_negative L).2 ⟨n, hn, hP⟩) hd
  · rintro ⟨⟨n, hn, P, hP, hd⟩, h2, h3⟩
    refine ⟨_, rfl, ?_, ?_, ?_⟩
    · have hi : n.isNot = false := by
        cases n <;> simp [Node.isNot]
        rw [Leaves.matches?] at hP; cases hP
      exact List.ne_nil_of_mem ((mem_positive L).2 ⟨n, hn, hi, hP⟩)
    · intro P hP
      obtain ⟨n, hn, hi, hm⟩ := (mem_positive L).1 hP
      obtain ⟨Q, hQ, hd⟩ := h2 n hn hi (by rw [hm]; simp)
      rw [hm] at hQ; cases hQ; exact hd
    · intro P hP hd
      obtain ⟨n, hn, hm⟩ := (mem_negative L).1 hP
      exact h3 n hn ⟨P, hm, hd⟩

theorem matches_or {l : List Node} {d : D} : L.Matches (.or l) d ↔ ∃ n ∈ l, L.Matches n d := by
  unfold Leaves.Matches
  simp only [Leaves.matches?, Option.some.injEq]
  constructor
  · rintro ⟨_, rfl, P, hP, hd⟩
    obtain ⟨n, hn, hm⟩ := (mem_parts L).1 hP
    exact ⟨n, hn, P, hm, hd⟩
  · rintro ⟨n, hn, P, hm, hd⟩
    exact ⟨_, rfl, P, (mem_parts L).2 ⟨n, hn, hm⟩, hd⟩

theorem matches_not {n : Node} {d : D} : ¬ L.Matches (.not n) d := by
  rintro ⟨P, hP, -⟩
  rw [Leaves.matches?] at hP; cases hP

variable [DecidableEq D] {pipeline : List Element} {ops : List (Text.Op D)}

theorem occurrences_pos {d : D} {w : Word} : 0 < occurrences pipeline ops d w ↔ Holds pipeline ops d w := by
  unfold occurrences Holds
  cases docWords pipeline ops d <;> simp

theorem leafRate_nonneg {rate : Word → D → ℝ} (h0 : ∀ w d, 0 ≤ rate w d) (n : Node) (d : D) : 0 ≤ leafRate pipeline ops rate n d := by
  have : ∀ l : List Word, 0 ≤ (l.map (fun w => rate w d)).sum := by
    intro l
    apply List.sum_nonneg
    intro x hx
    obtain ⟨w, -, rfl⟩ := List.mem_map.1 hx
    exact h0 w d
  cases n <;> rw [leafRate]
  all_goals first | exact this _ | exact le_refl _ | (intros; simp_all)

mutual

theorem score_nonneg {rate : Node → D → ℝ} (h0 : ∀ n d, 0 ≤ rate n d) (d : D) : ∀ t : Node, 0 ≤ score L rate t d
  | .atom w => by rw [score]; split; exacts [h0 _ _, le_refl _]
  | .phrase ws => by rw [score]; split; exacts [h0 _ _, le_refl _]
  | .glob p => by rw [score]; split; exacts [h0 _ _, le_refl _]
  | .not n => by rw [score]
  | .and l => by rw [score]; split; exacts [scoreSum_nonneg h0 d l, le_refl _]
  | .or l => by rw [score]; split; exacts [scoreSum_nonneg h0 d l, le_refl _]

theorem scoreSum_nonneg {rate : Node → D → ℝ} (h0 : ∀ n d, 0 ≤ rate n d) (d : D) : ∀ l : List Node, 0 ≤ scoreSum L rate l d
  | [] => by rw [scoreSum]
  | n :: l => by rw [scoreSum]; exact add_nonneg (score_nonneg h0 d n) (scoreSum_nonneg h0 d l)

end

/-- a document that is at least as good matches, and scores at least as much, more if every word of `e` does -/
theorem asGood_score {d e : D} {rate : Word → D → ℝ} {S : Prop} (h0 : ∀ w d, 0 ≤ rate w d)
    (hle : ∀ w, occurrences pipeline ops e w ≤ occurrences pipeline ops d w → rate w e ≤ rate w d)
    (hlt : S → ∀ w, occurrences pipeline ops e w ≤ occurrences pipeline ops d w → Holds pipeline ops e w → rate w e < rate w d)
    {t : Node} (h : AsGood pipeline ops d e t) :
    ((textLeaves pipeline ops).Matches t e → (textLeaves pipeline ops).Matches t d) ∧
    score (textLeaves pipeline ops) (leafRate pipeline ops rate) t e ≤ score (textLeaves pipeline ops) (leafRate pipeline ops rate) t d ∧
    (S → (textLeaves pipeline ops).Matches t e →
      score (textLeaves pipeline ops) (leafRate pipeline ops rate) t e < score (textLeaves pipeline ops) (leafRate pipeline ops rate) t d) := by
  have holds_mono : ∀ {w}, occurrences pipeline ops e w ≤ occurrences pipeline ops d w → Holds pipeline ops e w → Holds pipeline ops d w :=
    fun h h' => occurrences_pos.1 (lt_of_lt_of_le (occurrences_pos.2 h') h)
  -- sums over the words of a leaf
  have sums : ∀ l : List Word, (∀ w ∈ l, occurrences pipeline ops e w ≤ occurrences pipeline ops d w) →
      (l.map (fun w => rate w e)).sum ≤ (l.map (fun w => rate w d)).sum ∧
      (S → (∃ w ∈ l, Holds pipeline ops e w) → (l.map (fun w => rate w e)).sum < (l.map (fun w => rate w d)).sum) := by
    intro l hl
    refine ⟨List.sum_le_sum (fun w hw => hle w (hl w hw)), fun hS => ?_⟩
    rintro ⟨w, hw, hh⟩
    exact List.sum_lt_sum _ _ (fun w hw => hle w (hl w hw)) ⟨w, hw, hlt hS w (hl w hw) hh⟩
  -- a leaf
  have leaf : ∀ n : Node, ((textLeaves pipeline ops).Matches n e → (textLeaves pipeline ops).Matches n d) →
      (∀ d, score (textLeaves pipeline ops) (leafRate pipeline ops rate) n d =
        @ite ℝ ((textLeaves pipeline ops).Matches n d) (Classical.propDecidable _) (leafRate pipeline ops rate n d) 0) →
      0 ≤ leafRate pipeline ops rate n d →
      ((textLeaves pipeline ops).Matches n e → leafRate pipeline ops rate n e ≤ leafRate pipeline ops rate n d ∧
        (S → leafRate pipeline ops rate n e < leafRate pipeline ops rate n d)) →
      score (textLeaves pipeline ops) (leafRate pipeline ops rate) n e ≤ score (textLeaves pipeline ops) (leafRate pipeline ops rate) n d ∧
      (S → (textLeaves pipeline ops).Matches n e →
        score (textLeaves pipeline ops) (leafRate pipeline ops rate) n e < score (textLeaves pipeline ops) (leafRate pipeline ops rate) n d) := by
    intro n hm hs hn hr
    rw [hs, hs]
    by_cases he : (textLeaves pipeline ops).Matches n e
    · rw [if_pos he, if_pos (hm he)]
      exact ⟨(hr he).1, fun hS _ => (hr he).2 hS⟩
    · rw [if_neg he]
      refine ⟨?_, fun _ h => absurd h he⟩
      split
      · exact hn
      · exact le_refl _
  have nonneg : ∀ l : List Word, 0 ≤ (l.map (fun w => rate w d)).sum := by
    intro l
    apply List.sum_nonneg
    intro x hx
    obtain ⟨w, -, rfl⟩ := List.mem_map.1 hx
    exact h0 w d
  have nonneg_e : ∀ l : List Word, 0 ≤ (l.map (fun w => rate w e)).sum := by
    intro l
    apply List.sum_nonneg
    intro x hx
    obtain ⟨w, -, rfl⟩ := List.mem_map.1 hx
    exact h0 w e
  have word_matches : ∀ w d, (textLeaves pipeline ops).Matches (.atom w) d ↔ ∃ v ∈ wordsOf pipeline (.str w), Holds pipeline ops d v := by
    intro w d
    unfold Leaves.Matches
    rw [Leaves.matches?]
    simp only [textLeaves]
    by_cases hw : wordsOf pipeline (.str w) = []
    · rw [if_pos hw, hw]; simp
    · rw [if_neg hw]; simp
  have glob_matches : ∀ p d, (textLeaves pipeline ops).Matches (.glob p) d ↔ HasGlob pipeline ops d p := by
    intro p d
    unfold Leaves.Matches
    rw [Leaves.matches?]
    simp [textLeaves]
  have children : ∀ l : List Node, (∀ n ∈ l, score (textLeaves pipeline ops) (leafRate pipeline ops rate) n e ≤
        score (textLeaves pipeline ops) (leafRate pipeline ops rate) n d ∧
      (S → (textLeaves pipeline ops).Matches n e →
        score (textLeaves pipeline ops) (leafRate pipeline ops rate) n e < score (textLeaves pipeline ops) (leafRate pipeline ops rate) n d)) →
      scoreSum (textLeaves pipeline ops) (leafRate pipeline ops rate) l e ≤ scoreSum (textLeaves pipeline ops) (leafRate pipeline ops rate) l d ∧
      (S → (∃ n ∈ l, (textLeaves pipeline ops).Matches n e) →
        scoreSum (textLeaves pipeline ops) (leafRate pipeline ops rate) l e < scoreSum (textLeaves pipeline ops) (leafRate pipeline ops rate) l d) := by
    intro l
    induction l with
    | nil => intro _; exact ⟨le_refl _, fun _ ⟨n, hn, _⟩ => absurd hn (by simp)⟩
    | cons n l ih =>
      intro h
      obtain ⟨i1, i2⟩ := ih (fun n hn => h n (by simp [hn]))
      obtain ⟨j1, j2⟩ := h n (by simp)
      simp only [scoreSum]
      refine ⟨add_le_add j1 i1, fun hS => ?_⟩
      rintro ⟨x, hx, hm⟩
      rcases List.mem_cons.1 hx with rfl | hx
      · exact add_lt_add_of_lt_of_le (j2 hS hm) i1
      · exact add_lt_add_of_le_of_lt j1 (i2 hS ⟨x, hx, hm⟩)
  induction h with
  | atom w h =>
    have hm : (textLeaves pipeline ops).Matches (.atom w) e → (textLeaves pipeline ops).Matches (.atom w) d := by
      rw [word_matches, word_matches]
      rintro ⟨v, hv, hh⟩
      exact ⟨v, hv, holds_mono (h v hv) hh⟩
    refine ⟨hm, leaf _ hm (fun d => by rw [score]) (by rw [leafRate]; exact nonneg _) ?_⟩
    intro he
    rw [word_matches] at he
    rw [leafRate, leafRate]
    obtain ⟨s1, s2⟩ := sums _ h
    exact ⟨s1, fun hS => s2 hS he⟩
  | phrase ws h hm =>
    refine ⟨hm, leaf _ hm (fun d => by rw [score]) (by rw [leafRate]; exact nonneg _) ?_⟩
    intro he
    rw [leafRate, leafRate]
    obtain ⟨s1, s2⟩ := sums _ h
    refine ⟨s1, fun hS => s2 hS ?_⟩
    obtain ⟨P, hP, hd⟩ := he
    rw [Leaves.matches?] at hP
    cases hP
    obtain ⟨doc, init, last, v, hdoc, e, hall, -⟩ := hd
    exact ⟨last, by rw [e]; simp, doc, hdoc, hall last (by rw [e]; simp)⟩
  | glob p h =>
    have hm : (textLeaves pipeline ops).Matches (.glob p) e → (textLeaves pipeline ops).Matches (.glob p) d := by
      rw [glob_matches, glob_matches]
      rintro ⟨v, hh, hv⟩
      exact ⟨v, holds_mono (h v hv) hh, hv⟩
    refine ⟨hm, leaf _ hm (fun d => by rw [score]) (by rw [leafRate]; exact nonneg _) ?_⟩
    intro he
    rw [glob_matches] at he
    rw [leafRate, leafRate]
    obtain ⟨s1, s2⟩ := sums (((docWords pipeline ops e).getD []).dedup.filter (fun v => @decide (GlobMatch p v) (Classical.propDecidable _)))
      (fun w hw => h w (by simpa using (List.mem_filter.1 hw).2))
    have sub : ((((docWords pipeline ops e).getD []).dedup.filter
          (fun v => @decide (GlobMatch p v) (Classical.propDecidable _))).map (fun w => rate w d)).sum ≤
        ((((docWords pipeline ops d).getD []).dedup.filter
          (fun v => @decide (GlobMatch p v) (Classical.propDecidable _))).map (fun w => rate w d)).sum := by
      rw [← List.sum_toFinset _ ((List.nodup_dedup _).filter _), ← List.sum_toFinset _ ((List.nodup_dedup _).filter _)]
      apply Finset.sum_le_sum_of_subset_of_nonneg
      · intro w hw
        simp only [List.mem_toFinset, List.mem_filter, List.mem_dedup] at hw ⊢
        refine ⟨?_, hw.2⟩
        have hg : GlobMatch p w := by simpa using hw.2
        have : 0 < occurrences pipeline ops e w := List.count_pos_iff.2 hw.1
        exact List.count_pos_iff.1 (lt_of_lt_of_le this (h w hg))
      · intro w _ _; exact h0 w d
    refine ⟨le_trans s1 sub, fun hS => lt_of_lt_of_le (s2 hS ?_) sub⟩
    obtain ⟨v, ⟨doc, hdoc, hv⟩, hg⟩ := he
    refine ⟨v, ?_, doc, hdoc, hv⟩
    rw [hdoc]
    simp [hv, hg]
  | not n h => exact ⟨fun h => absurd h (matches_not _), by rw [score, score], fun _ h => absurd h (matches_not _)⟩
  | and l h ih =>
    have hm : (textLeaves pipeline ops).Matches (.and l) e → (textLeaves pipeline ops).Matches (.and l) d := by
      rw [matches_and, matches_and]
      rintro ⟨⟨n, hn, hne⟩, h2, h3⟩
      refine ⟨⟨n, hn, (ih n hn).1 hne⟩, fun n hn hi hne => (ih n hn).1 (h2 n hn hi hne), fun n hn hd => ?_⟩
      have := h _ hn
      cases this with
      | not _ hx => exact h3 n hn (hx hd)
    obtain ⟨c1, c2⟩ := children l (fun n hn => (ih n hn).2)
    refine ⟨hm, ?_⟩
    rw [score, score]
    by_cases he : (textLeaves pipeline ops).Matches (.and l) e
    · rw [if_pos he, if_pos (hm he)]
      exact ⟨c1, fun hS _ => c2 hS (((matches_and _).1 he).1)⟩
    · rw [if_neg he]
      refine ⟨?_, fun _ h => absurd h he⟩
      split
      · exact scoreSum_nonneg _ (leafRate_nonneg h0) d l
      · exact le_refl _
  | or l h ih =>
    have hm : (textLeaves pipeline ops).Matches (.or l) e → (textLeaves pipeline ops).Matches (.or l) d := by
      rw [matches_or, matches_or]
      rintro ⟨n, hn, hne⟩
      exact ⟨n, hn, (ih n hn).1 hne⟩
    obtain ⟨c1, c2⟩ := children l (fun n hn => (ih n hn).2)
    refine ⟨hm, ?_⟩
    rw [score, score]
    by_cases he : (textLeaves pipeline ops).Matches (.or l) e
    · rw [if_pos he, if_pos (hm he)]
      exact ⟨c1, fun hS _ => c2 hS ((matches_or _).1 he)⟩
    · rw [if_neg he]
      refine ⟨?_, fun _ h => absurd h he⟩
      split
      · exact scoreSum_nonneg _ (leafRate_nonneg h0) d l
      · exact le_refl _

end Verif.Spec
