import Verif.Model.HtmlSplitter
import Verif.Spec.Html
import Verif.Proofs.Lexicon

set_option autoImplicit false

namespace Verif.Html

open Spec (AsciiLetter Markup Strip Runs document Plain)

theorem isLetter_iff (c : Char) : isLetter c = true ↔ AsciiLetter c := by
  unfold isLetter AsciiLetter
  simp only [Bool.or_eq_true, decide_eq_true_eq]

theorem tagRest_some {s r : Word} (h : tagRest s = some r) : ∃ body, s = body ++ '>' :: r ∧ '<' ∉ body ∧ '>' ∉ body := by
  unfold tagRest at h
  have e := List.takeWhile_append_dropWhile (p := fun c => decide (c ≠ '<') && decide (c ≠ '>')) (l := s)
  split at h
  · rename_i r' h'
    cases h
    refine ⟨s.takeWhile (fun c => decide (c ≠ '<') && decide (c ≠ '>')), ?_, ?_, ?_⟩
    · rw [← h']; exact e.symm
    · intro hm
      have := List.all_eq_true.1 (List.all_takeWhile) _ hm
      simp at this
    · intro hm
      have := List.all_eq_true.1 (List.all_takeWhile) _ hm
      simp at this
  · cases h

theorem tagRest_of {body r : Word} (h1 : '<' ∉ body) (h2 : '>' ∉ body) : tagRest (body ++ '>' :: r) = some r := by
  unfold tagRest
  rw [List.dropWhile_append_of_pos]
  · rfl
  · intro x hx
    simp only [Bool.and_eq_true, decide_eq_true_eq]
    exact ⟨fun e => h1 (e ▸ hx), fun e => h2 (e ▸ hx)⟩

theorem entityRest_some {s r : Word} (h : entityRest s = some r) :
    ∃ name, s = name ++ ';' :: r ∧ name ≠ [] ∧ ∀ c ∈ name, AsciiLetter c := by
  unfold entityRest at h
  have e := List.takeWhile_append_dropWhile (p := isLetter) (l := s)
  split at h
  · cases h
  · rename_i hne
    split at h
    · rename_i r' h'
      cases h
      refine ⟨s.takeWhile isLetter, ?_, ?_, ?_⟩
      · rw [← h']; exact e.symm
      · simpa using hne
      · intro c hc
        exact (isLetter_iff c).1 (List.all_eq_true.1 (List.all_takeWhile) _ hc)
    · cases h

theorem entityRest_of {name r : Word} (h1 : name ≠ []) (h2 : ∀ c ∈ name, AsciiLetter c) :
    entityRest (name ++ ';' :: r) = some r := by
  have ht : (name ++ ';' :: r).takeWhile isLetter = name := by
    rw [List.takeWhile_append_of_pos (fun c hc => (isLetter_iff c).2 (h2 c hc))]
    rw [List.takeWhile_cons]
    simp [show isLetter ';' = false from by decide]
  unfold entityRest
  rw [ht, if_neg (by simpa using h1), List.dropWhile_append_of_pos (fun c hc => (isLetter_iff c).2 (h2 c hc))]
  rfl

theorem markupRest_some {c : Char} {t r : Word} (h : markupRest c t = some r) : ∃ m, Markup m ∧ c :: t = m ++ r := by
  unfold markupRest at h
  split at h
  · rename_i hc
    subst hc
    obtain ⟨body, rfl, h1, h2⟩ := tagRest_some h
    exact ⟨_, .tag body h1 h2, by simp⟩
  · split at h
    · rename_i hc
      subst hc
      obtain ⟨body, rfl, h1, h2⟩ := entityRest_some h
      exact ⟨_, .entity body h1 h2, by simp⟩
    · cases h

theorem markupRest_of {c : Char} {t m r : Word} (hm : Markup m) (e : c :: t = m ++ r) : markupRest c t = some r := by
  cases hm with
  | tag body h1 h2 =>
    simp only [List.cons_append, List.append_assoc, List.nil_append, List.cons.injEq] at e
    obtain ⟨rfl, rfl⟩ := e
    unfold markupRest
    rw [if_pos rfl]
    exact tagRest_of h1 h2
  | entity name h1 h2 =>
    simp only [List.cons_append, List.append_assoc, List.nil_append, List.cons.injEq] at e
    obtain ⟨rfl, rfl⟩ := e
    unfold markupRest
    rw [if_neg (by decide), if_pos rfl]
    exact entityRest_of h1 h2

theorem subF_strip (fuel : Nat) (s : Word) (hf : s.length ≤ fuel) : Strip s (subF fuel s) := by
  induction fuel generalizing s with
  | zero =>
    have : s = [] := List.length_eq_zero_iff.1 (by omega)
    subst this; exact .nil
  | succ n ih =>
    rcases s with _ | ⟨c, t⟩
    · exact .nil
    · unfold subF
      split
      · rename_i r hr
        obtain ⟨m, hm, e⟩ := markupRest_some hr
        rw [e]
        refine .markup m r _ hm (ih r ?_)
        have hl := congrArg List.length e
        have : m ≠ [] := by cases hm <;> simp
        have := List.length_pos_iff.2 this
        simp at hl hf
        omega
      · rename_i hr
        refine .char c t _ ?_ (ih t (by simpa using hf))
        intro m r hm e
        rw [markupRest_of hm e] at hr
        cases hr

theorem sub_strip (s : Word) : Strip s (sub s) := subF_strip _ s (Nat.le_refl _)

theorem markup_ne_nil {m : Word} (h : Markup m) : m ≠ [] := by cases h <;> simp

/-- what remains is determined by the text -/
theorem strip_unique {s t t' : Word} (h : Strip s t) (h' : Strip s t') : t = t' := by
  induction h generalizing t' with
  | nil =>
    generalize hs : ([] : Word) = s at h'
    cases h' with
    | nil => rfl
    | markup m s t hm =>
      exact absurd (List.append_eq_nil_iff.1 hs.symm).1 (markup_ne_nil hm)
    | char => cases hs
  | markup m s t hm _ ih =>
    generalize hs : m ++ s = u at h'
    cases h' with
    | nil => exact absurd (List.append_eq_nil_iff.1 hs).1 (markup_ne_nil hm)
    | markup m' s' t' hm' h' =>
      rcases m with _ | ⟨c, m⟩
      · exact absurd rfl (markup_ne_nil hm)
      · have e1 := markupRest_of (c := c) (t := m ++ s) hm rfl
        have e2 := markupRest_of (c := c) (t := m ++ s) hm' hs
        rw [e1] at e2
        cases e2
        rw [ih h']
    | char c s' t' hn h' =>
      exact absurd hs.symm (hn m s hm)
  | char c s t hn _ ih =>
    generalize hs : c :: s = u at h'
    cases h' with
    | nil => cases hs
    | markup m' s' t' hm' h' => exact absurd hs (hn m' s' hm')
    | char c' s' t' hn' h' =>
      injection hs with e1 e2
      subst e1; subst e2
      rw [ih h']

/-- stripping adds only blanks -/
theorem strip_mem {s t : Word} (h : Strip s t) {c : Char} (hc : c ≠ ' ') (hm : c ∈ t) : c ∈ s := by
  induction h with
  | nil => cases hm
  | markup m s t _ _ ih =>
    rcases List.mem_cons.1 hm with rfl | hm
    · exact absurd rfl hc
    · exact List.mem_append_right _ (ih hm)
  | char x s t _ _ ih =>
    rcases List.mem_cons.1 hm with rfl | hm
    · exact List.mem_cons_self
    · exact List.mem_cons_of_mem _ (ih hm)

/-- words on both sides of a character that belongs to no word -/
theorem runs_append {isA isB : Char → Bool} {s s' : Word} {x : Char} {ws ws' : List Word} (hA : isA x = false)
    (hB : isB x = false) (h : Runs isA isB s ws) (h' : Runs isA isB s' ws') :
    Runs isA isB (s ++ x :: s') (ws ++ ws') := by
  induction h with
  | done sep hs =>
    cases h' with
    | done sep' hs' =>
      refine .done _ ?_
      intro c hc
      rcases List.mem_append.1 hc with hc | hc
      · exact hs c hc
      · rcases List.mem_cons.1 hc with rfl | hc
        · exact hA
        · exact hs' c hc
    | word sep' c w rest ws hs' h1 h2 h3 h4 =>
      have := Runs.word (sep ++ x :: sep') c w rest ws (by
        intro c hc
        rcases List.mem_append.1 hc with hc | hc
        · exact hs c hc
        · rcases List.mem_cons.1 hc with rfl | hc
          · exact hA
          · exact hs' c hc) h1 h2 h3 h4
      simpa using this
  | word sep c w rest ws hs h1 h2 h3 h4 ih =>
    have := Runs.word sep c w (rest ++ x :: s') (ws ++ ws') hs h1 h2 (by
      intro y hy
      rcases rest with _ | ⟨z, r⟩
      · simp at hy; subst hy; exact hB
      · simp at hy; subst hy; exact h3 z rfl) ih
    simpa using this

/-- leading text before a blank or the end -/
theorem strip_text_append {s u t : Word} (h1 : '<' ∉ s) (h2 : '&' ∉ s) (h : Strip u t) : Strip (s ++ u) (s ++ t) := by
  induction s with
  | nil => exact h
  | cons c s ih =>
    simp only [List.mem_cons, not_or] at h1 h2
    refine .char c _ _ ?_ (ih h1.2 h2.2)
    intro m r hm e
    cases hm with
    | tag => simp only [List.cons_append, List.cons.injEq] at e; exact h1.1 e.1.symm
    | entity => simp only [List.cons_append, List.cons.injEq] at e; exact h2.1 e.1.symm

theorem strip_plain {s : Word} (h : Plain s) : Strip s s := by
  have := strip_text_append h.1 h.2 Strip.nil
  simpa using this

theorem strip_document {first : Word} {rest : List (Word × Word)} (h1 : Plain first)
    (h2 : ∀ p ∈ rest, Spec.Markup p.1 ∧ Plain p.2) :
    Strip (document first rest) (first ++ rest.flatMap (fun p => ' ' :: p.2)) := by
  induction rest generalizing first with
  | nil => simpa [document] using strip_plain h1
  | cons p rest ih =>
    have hp := h2 p List.mem_cons_self
    have := ih hp.2 (fun q hq => h2 q (List.mem_cons_of_mem _ hq))
    have h := strip_text_append h1.1 h1.2 (Strip.markup p.1 _ _ hp.1 this)
    simpa [document] using h

theorem runs_document {isA isB : Char → Bool} (hA : isA ' ' = false) (hB : isB ' ' = false) {first : Word}
    {rest : List (Word × Word)} {ws : List Word} {wss : List (List Word)} (h1 : Runs isA isB first ws)
    (h2 : List.Forall₂ (fun p ws => Runs isA isB p.2 ws) rest wss) :
    Runs isA isB (first ++ rest.flatMap (fun p => ' ' :: p.2)) (ws ++ wss.flatten) := by
  induction h2 generalizing first ws with
  | nil => simpa using h1
  | cons h _ ih =>
    have := runs_append hA hB h1 (ih h)
    simpa using this

end Verif.Html
