import Verif.Spec.Catalog
import Verif.Proofs.Serial

/-! Two kinds of objects in one database. -/

set_option autoImplicit false

namespace Verif.Txn

open Spec.Txn

section both
variable {S₁ S₂ O O₁ O₂ D X₁ X₂ : Type}

/-- the effect of a call on two assignments, as one assignment to the documents of both -/
def bothUpd (u₁ : (D → X₁) → O₁ → D → X₁) (u₂ : (D → X₂) → O₂ → D → X₂) (f₁ : O → O₁) (f₂ : O → O₂)
    (m : D ⊕ D → X₁ × X₂) (op : O) : D ⊕ D → X₁ × X₂
  | .inl d => (u₁ (fun d => (m (.inl d)).1) (f₁ op) d, (m (.inl d)).2)
  | .inr d => ((m (.inr d)).1, u₂ (fun d => (m (.inr d)).2) (f₂ op) d)

variable {u₁ : (D → X₁) → O₁ → D → X₁} {u₂ : (D → X₂) → O₂ → D → X₂} {f₁ : O → O₁} {f₂ : O → O₂}

theorem bothUpd_left (ops : List O) (m : D ⊕ D → X₁ × X₂) (d : D) :
    ops.foldl (bothUpd u₁ u₂ f₁ f₂) m (.inl d) = ((ops.map f₁).foldl u₁ (fun d => (m (.inl d)).1) d, (m (.inl d)).2) := by
  induction ops generalizing m with
  | nil => rfl
  | cons op ops ih => rw [List.foldl_cons, ih]; rfl

theorem bothUpd_right (ops : List O) (m : D ⊕ D → X₁ × X₂) (d : D) :
    ops.foldl (bothUpd u₁ u₂ f₁ f₂) m (.inr d) = ((m (.inr d)).1, (ops.map f₂).foldl u₂ (fun d => (m (.inr d)).2) d) := by
  induction ops generalizing m with
  | nil => rfl
  | cons op ops ih => rw [List.foldl_cons, ih]; rfl

/-- two assignments as one -/
def pairOf (x₁ : X₁) (x₂ : X₂) (m₁ : D → X₁) (m₂ : D → X₂) : D ⊕ D → X₁ × X₂
  | .inl d => (m₁ d, x₂)
  | .inr d => (x₁, m₂ d)

/-- two sound engines in one database are sound -/
def Sound.both {E₁ : Engine S₁ O₁} {E₂ : Engine S₂ O₂} {ok₁ : O₁ → Prop} {ok₂ : O₂ → Prop} (h₁ : Sound E₁ u₁ ok₁) (h₂ : Sound E₂ u₂ ok₂)
    (f₁ : O → O₁) (f₂ : O → O₂) (x₁ : X₁) (x₂ : X₂) :
    Sound (Engine.both E₁ E₂ f₁ f₂) (bothUpd u₁ u₂ f₁ f₂) (fun op => ok₁ (f₁ op) ∧ ok₂ (f₂ op)) where
  abs s := pairOf x₁ x₂ (h₁.abs s.1) (h₂.abs s.2)
  Wf n s := h₁.Wf n s.1 ∧ h₂.Wf n s.2
  Evo s t := h₁.Evo s.1 t.1 ∧ h₂.Evo s.2 t.2
  NewFrom n s t := h₁.NewFrom n s.1 t.1 ∧ h₂.NewFrom n s.2 t.2
  mono n m s hnm h := ⟨h₁.mono n m _ hnm h.1, h₂.mono n m _ hnm h.2⟩
  refl s := ⟨h₁.refl _, h₂.refl _⟩
  trans n a b c ha hb hab hbc := ⟨h₁.trans n _ _ _ ha.1 hb.1 hab.1 hbc.1, h₂.trans n _ _ _ ha.2 hb.2 hab.2 hbc.2⟩
  exec n s ops hw hok := by
    obtain ⟨a1, a2⟩ := h₁.exec n s.1 (ops.map f₁) hw.1 (by
      intro op hop
      obtain ⟨o, ho, rfl⟩ := List.mem_map.1 hop
      exact (hok o ho).1)
    obtain ⟨b1, b2⟩ := h₂.exec n s.2 (ops.map f₂) hw.2 (by
      intro op hop
      obtain ⟨o, ho, rfl⟩ := List.mem_map.1 hop
      exact (hok o ho).2)
    refine ⟨le_trans a1 (le_max_left _ _), fun hf => ?_⟩
    have hf : (E₁.fails n s.1 (ops.map f₁) || E₂.fails n s.2 (ops.map f₂)) = false := hf
    rw [Bool.or_eq_false_iff] at hf
    obtain ⟨a2, a3, a4, a5⟩ := a2 hf.1
    obtain ⟨b2, b3, b4, b5⟩ := b2 hf.2
    refine ⟨⟨h₁.mono _ _ _ (le_max_left _ _) a2, h₂.mono _ _ _ (le_max_right _ _) b2⟩, ⟨a3, b3⟩, ⟨a4, b4⟩, ?_⟩
    rintro (d | d)
    · rw [bothUpd_left]
      exact Prod.ext (a5 d) rfl
    · rw [bothUpd_right]
      exact Prod.ext rfl (b5 d)
  merge n m o c x r ho hc hoc hnm hx hox hnf hm := by
    have hm : (match E₁.merge o.1 c.1 x.1, E₂.merge o.2 c.2 x.2 with
      | some r₁, some r₂ => some (r₁, r₂)
      | _, _ => none) = some r := hm
    cases h1 : E₁.merge o.1 c.1 x.1 with
    | none => rw [h1] at hm; cases hm
    | some r₁ =>
      cases h2 : E₂.merge o.2 c.2 x.2 with
      | none => rw [h1, h2] at hm; cases hm
      | some r₂ =>
        rw [h1, h2] at hm
        cases hm
        obtain ⟨a1, a2, a3⟩ := h₁.merge n m _ _ _ _ ho.1 hc.1 hoc.1 hnm hx.1 hox.1 hnf.1 h1
        obtain ⟨b1, b2, b3⟩ := h₂.merge n m _ _ _ _ ho.2 hc.2 hoc.2 hnm hx.2 hox.2 hnf.2 h2
        refine ⟨⟨a1, b1⟩, ⟨a2, b2⟩, ?_⟩
        rintro (d | d)
        · exact (a3 d).imp (fun h => ⟨Prod.ext h.1 rfl, Prod.ext h.2 rfl⟩) (fun h => ⟨Prod.ext h.1 rfl, Prod.ext h.2 rfl⟩)
        · exact (b3 d).imp (fun h => ⟨Prod.ext rfl h.1, Prod.ext rfl h.2⟩) (fun h => ⟨Prod.ext rfl h.1, Prod.ext rfl h.2⟩)

/-- a history of both is a history of the first -/
theorem History.left {m₀ : D ⊕ D → X₁ × X₂} {ts : List (Txn O)} {ms : List (D ⊕ D → X₁ × X₂)}
    (h : History (bothUpd u₁ u₂ f₁ f₂) m₀ ts ms) :
    History u₁ (fun d => (m₀ (.inl d)).1) (ts.map (part f₁)) (ms.map (fun m d => (m (.inl d)).1)) := by
  induction h with
  | start => exact History.start
  | aborted _ ih => rw [List.map_append]; exact History.aborted ih
  | @committed ts ms t base latest m _ hb hd ih =>
    rw [List.map_append]
    refine History.committed (base := fun d => (base (.inl d)).1) ih ?_ ?_
    · show ((latest :: ms).map (fun m d => (m (.inl d)).1))[t.back]? = _
      rw [List.getElem?_map, hb]; rfl
    · intro d
      obtain ⟨h1, h2⟩ := hd (.inl d)
      rw [bothUpd_left] at h1 h2
      show ((t.ops.map f₁).foldl u₁ _ d ≠ _ → _) ∧ _
      constructor
      · intro hne
        obtain ⟨e1, e2⟩ := h1 (fun he => hne (congrArg Prod.fst he))
        exact ⟨congrArg Prod.fst e1, congrArg Prod.fst e2⟩
      · intro he
        exact congrArg Prod.fst (h2 (Prod.ext he rfl))

/-- a history of both is a history of the second -/
theorem History.right {m₀ : D ⊕ D → X₁ × X₂} {ts : List (Txn O)} {ms : List (D ⊕ D → X₁ × X₂)}
    (h : History (bothUpd u₁ u₂ f₁ f₂) m₀ ts ms) :
    History u₂ (fun d => (m₀ (.inr d)).2) (ts.map (part f₂)) (ms.map (fun m d => (m (.inr d)).2)) := by
  induction h with
  | start => exact History.start
  | aborted _ ih => rw [List.map_append]; exact History.aborted ih
  | @committed ts ms t base latest m _ hb hd ih =>
    rw [List.map_append]
    refine History.committed (base := fun d => (base (.inr d)).2) ih ?_ ?_
    · show ((latest :: ms).map (fun m d => (m (.inr d)).2))[t.back]? = _
      rw [List.getElem?_map, hb]; rfl
    · intro d
      obtain ⟨h1, h2⟩ := hd (.inr d)
      rw [bothUpd_right] at h1 h2
      show ((t.ops.map f₂).foldl u₂ _ d ≠ _ → _) ∧ _
      constructor
      · intro hne
        obtain ⟨e1, e2⟩ := h1 (fun he => hne (congrArg Prod.snd he))
        exact ⟨congrArg Prod.snd e1, congrArg Prod.snd e2⟩
      · intro he
        exact congrArg Prod.snd (h2 (Prod.ext rfl he))

/-- a relation between the two values of a document that every call keeps, and that can be told from properties of the two values, holds
in every committed state -/
theorem History.agree {p₁ : X₁ → Bool} {p₂ : X₂ → Bool}
    (hstep : ∀ (m₁ : D → X₁) (m₂ : D → X₂) op, (∀ d, p₁ (m₁ d) = p₂ (m₂ d)) → ∀ d, p₁ (u₁ m₁ (f₁ op) d) = p₂ (u₂ m₂ (f₂ op) d))
    {m₀ : D ⊕ D → X₁ × X₂} {ts : List (Txn O)} {ms : List (D ⊕ D → X₁ × X₂)}
    (h : History (bothUpd u₁ u₂ f₁ f₂) m₀ ts ms) (h₀ : ∀ d, p₁ (m₀ (.inl d)).1 = p₂ (m₀ (.inr d)).2) :
    ∀ m ∈ ms, ∀ d, p₁ (m (.inl d)).1 = p₂ (m (.inr d)).2 := by
  have hfold : ∀ (ops : List O) (m₁ : D → X₁) (m₂ : D → X₂), (∀ d, p₁ (m₁ d) = p₂ (m₂ d)) →
      ∀ d, p₁ ((ops.map f₁).foldl u₁ m₁ d) = p₂ ((ops.map f₂).foldl u₂ m₂ d) := by
    intro ops
    induction ops with
    | nil => intro m₁ m₂ h; exact h
    | cons op ops ih => intro m₁ m₂ h; exact ih _ _ (hstep _ _ _ h)
  induction h with
  | start => intro m hm; rw [List.mem_singleton] at hm; subst hm; exact h₀
  | aborted _ ih => exact ih
  | @committed ts ms t base latest m _ hb hd ih =>
    intro m' hm
    rcases List.mem_cons.1 hm with rfl | hm
    · intro d
      have hbase := ih base (List.mem_of_getElem? hb)
      have hlat := ih latest (by simp)
      have hf := hfold t.ops _ _ hbase d
      obtain ⟨a1, a2⟩ := hd (.inl d)
      obtain ⟨b1, b2⟩ := hd (.inr d)
      rw [bothUpd_left] at a1 a2
      rw [bothUpd_right] at b1 b2
      by_cases ha : (t.ops.map f₁).foldl u₁ (fun d => (base (.inl d)).1) d = (base (.inl d)).1
      · have ha' := a2 (Prod.ext ha rfl)
        by_cases hb' : (t.ops.map f₂).foldl u₂ (fun d => (base (.inr d)).2) d = (base (.inr d)).2
        · rw [ha', b2 (Prod.ext rfl hb')]; exact hlat d
        · obtain ⟨e1, e2⟩ := b1 (fun he => hb' (congrArg Prod.snd he))
          rw [ha', e2, hlat d, e1, ← hbase d, ← hf, ha]
      · obtain ⟨e1, e2⟩ := a1 (fun he => ha (congrArg Prod.fst he))
        by_cases hb' : (t.ops.map f₂).foldl u₂ (fun d => (base (.inr d)).2) d = (base (.inr d)).2
        · rw [e2, b2 (Prod.ext rfl hb'), ← hlat d, e1, hbase d]
          exact hf.trans (by rw [hb'])
        · obtain ⟨e3, e4⟩ := b1 (fun he => hb' (congrArg Prod.snd he))
          rw [e2, e4]; exact hf
    · exact ih m' hm

/-- the effect of a call on a document depends only on that document -/
theorem Local.both {n₁ : O₁ → D → Prop} {n₂ : O₂ → D → Prop} (h₁ : Local u₁ n₁) (h₂ : Local u₂ n₂) :
    Local (bothUpd u₁ u₂ f₁ f₂) (fun op (x : D ⊕ D) => match x with | .inl d => n₁ (f₁ op) d | .inr d => n₂ (f₂ op) d) where
  other m op x h := by
    cases x with
    | inl d => exact Prod.ext (h₁.other _ _ _ h) rfl
    | inr d => exact Prod.ext rfl (h₂.other _ _ _ h)
  self m m' op x h := by
    cases x with
    | inl d =>
      have hs : (m (.inl d)).2 = (m' (.inl d)).2 := congrArg Prod.snd h
      exact Prod.ext (h₁.self _ _ _ _ (congrArg Prod.fst h)) hs
    | inr d =>
      have hs : (m (.inr d)).1 = (m' (.inr d)).1 := congrArg Prod.fst h
      exact Prod.ext hs (h₂.self _ _ _ _ (congrArg Prod.snd h))

end both

end Verif.Txn
