import Verif.Proofs.Field
import Verif.Proofs.NBest
import Mathlib.Data.Prod.Lex

/-! Lemmas about the sorting part of `Verif.Model.Field`. -/

set_option autoImplicit false

namespace Verif.Field

variable {D V : Type} [LinearOrder D] [PyValue V]

/-! ### tuples -/

theorem tle_iff (a b : V × D) : tle a b = true ↔ toLex a ≤ toLex b := by
  unfold tle; rw [Prod.Lex.toLex_le_toLex]; simp

theorem tlt_iff (a b : V × D) : tlt a b = true ↔ toLex a < toLex b := by
  unfold tlt; rw [Prod.Lex.toLex_lt_toLex]; simp

theorem orderable_iff (a b : V) : PyValue.orderable a b = true ↔
    ∃ k, PyValue.kind a = some k ∧ PyValue.kind b = some k := by
  unfold PyValue.orderable
  cases h : PyValue.kind a <;> simp [eq_comm]

theorem tupleOk_iff (a b : V × D) : tupleOk a b = true ↔
    a.1 = b.1 ∨ ∃ k, PyValue.kind a.1 = some k ∧ PyValue.kind b.1 = some k := by
  unfold tupleOk; rw [Bool.or_eq_true, orderable_iff]; simp

theorem tupleOk_symm {a b : V × D} (h : tupleOk a b = true) : tupleOk b a = true := by
  rw [tupleOk_iff] at h ⊢
  rcases h with h | ⟨k, h1, h2⟩
  · exact Or.inl h.symm
  · exact Or.inr ⟨k, h2, h1⟩

theorem tupleOk_refl (a : V × D) : tupleOk a a = true := by rw [tupleOk_iff]; exact Or.inl rfl

theorem tupleOk_trans {a b c : V × D} (h : tupleOk a b = true) (h' : tupleOk b c = true) : tupleOk a c = true := by
  rw [tupleOk_iff] at h h' ⊢
  rcases h with h | ⟨k, h1, h2⟩
  · rcases h' with h' | ⟨k, h1, h2⟩
    · exact Or.inl (h.trans h')
    · exact Or.inr ⟨k, by rw [h]; exact h1, h2⟩
  · rcases h' with h' | ⟨k', h1', h2'⟩
    · exact Or.inr ⟨k, h1, by rw [← h']; exact h2⟩
    · rw [h2] at h1'; cases h1'
      exact Or.inr ⟨k, h1, h2'⟩

theorem allOk_iff {α : Type} (ok : α → α → Bool) (l : List α) :
    allOk ok l = true ↔ ∀ a ∈ l, ∀ b ∈ l, ok a b = true := by
  unfold allOk; simp [List.all_eq_true]

/-- strictly sorted by `(value, docid)` -/
def SS (l : List (V × D)) : Prop := l.Pairwise (fun a b => toLex a < toLex b)

theorem SS.eq {l m : List (V × D)} (hl : SS l) (hm : SS m) (h : ∀ x, x ∈ l ↔ x ∈ m) : l = m := by
  have hl' : (l.map toLex).Pairwise (· < ·) := List.pairwise_map.2 hl
  have hm' : (m.map toLex).Pairwise (· < ·) := List.pairwise_map.2 hm
  have := List.Pairwise.eq_of_mem_iff hl' hm' (fun {a} => by
    rw [List.mem_map, List.mem_map]
    constructor <;> rintro ⟨x, hx, rfl⟩
    · exact ⟨x, (h x).1 hx, rfl⟩
    · exact ⟨x, (h x).2 hx, rfl⟩)
  exact List.map_injective_iff.2 toLex.injective this

theorem SS.nodup {l : List (V × D)} (hl : SS l) : l.Nodup :=
  hl.imp (fun h e => by subst e; exact lt_irrefl _ h)

/-- the sorted tuples -/
def isort (l : List (V × D)) : List (V × D) := l.insertionSort (fun a b => tle a b)

theorem mem_isort (l : List (V × D)) (x : V × D) : x ∈ isort l ↔ x ∈ l := List.mem_insertionSort _

theorem isort_SS {l : List (V × D)} (h : l.Nodup) : SS (isort l) := by
  have ht : IsTrans (V × D) (fun a b => tle a b = true) := ⟨fun a b c h1 h2 => by
    rw [tle_iff] at *; exact le_trans h1 h2⟩
  have htot : Std.Total (fun (a b : V × D) => tle a b = true) := ⟨fun a b => by
    rw [tle_iff, tle_iff]; exact le_total _ _⟩
  have h1 := List.pairwise_insertionSort (fun (a b : V × D) => tle a b = true) l
  have h2 : (isort l).Nodup := (List.perm_insertionSort _ l).nodup_iff.2 h
  refine List.Pairwise.imp₂ ?_ h1 h2
  intro a b hab hne
  rw [tle_iff] at hab
  exact lt_of_le_of_ne hab (fun e => hne (toLex.injective e))

/-! ### n-best, ascending -/

theorem bisectRightLoop_spec (a : List (V × D)) (x : V × D) (hs : SS a) (hok : ∀ y ∈ a, tupleOk x y = true) :
    ∀ (fuel lo hi : Nat), lo ≤ hi → hi ≤ a.length → hi - lo ≤ fuel →
      (∀ i (h : i < a.length), i < lo → toLex a[i] ≤ toLex x) →
      (∀ i (h : i < a.length), hi ≤ i → toLex x < toLex a[i]) →
      ∃ r, bisectRightLoop a x fuel lo hi = .ok r ∧
      r ≤ a.length ∧ (∀ i (h : i < a.length), i < r → toLex a[i] ≤ toLex x) ∧
        (∀ i (h : i < a.length), r ≤ i → toLex x < toLex a[i]) := by
  intro fuel
  induction fuel with
  | zero =>
    intro lo hi h1 h2 h3 hlo hhi
    have : lo = hi := by omega
    subst this
    exact ⟨lo, rfl, h2, hlo, hhi⟩
  | succ fuel ih =>
    intro lo hi h1 h2 h3 hlo hhi
    unfold bisectRightLoop
    by_cases hlt : lo < hi
    · rw [if_pos hlt]
      have hmid : (lo + hi) / 2 < a.length := by omega
      simp only [List.getElem?_eq_getElem hmid]
      have hx : pyLt x a[(lo + hi) / 2] = .ok (tlt x a[(lo + hi) / 2]) := by
        unfold pyLt; rw [if_pos (hok _ (List.getElem_mem _))]
      rw [hx]
      show ∃ r, (if tlt x a[(lo + hi) / 2] = true then _ else _) = _ ∧ _
      by_cases hy : tlt x a[(lo + hi) / 2] = true
      · rw [if_pos hy]
        rw [tlt_iff] at hy
        apply ih
        · omega
        · omega
        · omega
        · exact hlo
        · intro i h hi'
          by_cases he : i = (lo + hi) / 2
          · subst he; exact hy
          · have hi2 : (lo + hi) / 2 < i := by omega
            have := List.pairwise_iff_getElem.1 hs ((lo + hi) / 2) i hmid h hi2
            exact lt_trans hy this
      · rw [if_neg hy]
        rw [tlt_iff, not_lt] at hy
        apply ih
        · omega
        · exact h2
        · omega
        · intro i h hi'
          by_cases he : i = (lo + hi) / 2
          · subst he; exact hy
          · have hi2 : i < (lo + hi) / 2 := by omega
            have := List.pairwise_iff_getElem.1 hs i ((lo + hi) / 2) h hmid hi2
            exact le_trans (le_of_lt this) hy
        · exact hhi
    · rw [if_neg hlt]
      have : lo = hi := by omega
      subst this
      exact ⟨lo, rfl, h2, hlo, hhi⟩

theorem pyInsort_ok {R : List (V × D)} {e : V × D} (hs : SS R) (hok : ∀ y ∈ R, tupleOk e y = true) (he : e ∉ R) :
    ∃ R', pyInsort R e = .ok R' ∧ SS R' ∧ R'.length = R.length + 1 ∧ (∀ x, x ∈ R' ↔ x ∈ R ∨ x = e) := by
  obtain ⟨r, hr, hlen, h1, h2⟩ := bisectRightLoop_spec R e hs hok R.length 0 R.length (by omega) (by omega)
    (by omega) (by intro i h h'; omega) (by intro i h h'; omega)
  refine ⟨R.insertIdx r e, ?_, ?_, ?_, ?_⟩
  · unfold pyInsort; rw [hr]; rfl
  · rw [insertIdx_eq _ _ _ hlen]
    unfold SS
    rw [List.pairwise_append]
    have hT : ∀ x ∈ R.take r, toLex x < toLex e := by
      intro x hx
      obtain ⟨i, hi, rfl⟩ := List.getElem_of_mem hx
      simp only [List.getElem_take]
      simp at hi
      refine lt_of_le_of_ne (h1 i (by omega) (by omega)) (fun c => ?_)
      have := toLex.injective c
      exact he (this ▸ List.getElem_mem _)
    have hDr : ∀ x ∈ R.drop r, toLex e < toLex x := by
      intro x hx
      obtain ⟨i, hi, rfl⟩ := List.getElem_of_mem hx
      simp only [List.getElem_drop]
      simp at hi
      exact h2 _ (by omega) (by omega)
    refine ⟨List.Pairwise.sublist (List.take_sublist _ _) hs, ?_, ?_⟩
    · rw [List.pairwise_cons]
      exact ⟨hDr, List.Pairwise.sublist (List.drop_sublist _ _) hs⟩
    · intro x hx y hy
      rcases List.mem_cons.1 hy with rfl | hy
      · exact hT x hx
      · exact lt_trans (hT x hx) (hDr y hy)
  · rw [List.length_insertIdx_of_le_length hlen]
  · intro x
    rw [List.mem_insertIdx hlen]
    tauto

theorem nsmallStep_ok {R : List (V × D)} {e : V × D} (hs : SS R) (hne : R ≠ [])
    (hok : ∀ y ∈ R, tupleOk y e = true) (he : e ∉ R) :
    ∃ R', nsmallStep R e = .ok R' ∧ SS R' ∧ R'.length = R.length ∧ (∀ x ∈ R', x ∈ R ∨ x = e) ∧
      (∀ x, x ∈ R ∨ x = e → x ∉ R' → ∀ y ∈ R', toLex y < toLex x) := by
  unfold nsmallStep
  rw [List.getLast?_eq_getLast_of_ne_nil hne]
  dsimp only
  have hlast := List.getLast_mem hne
  have hle : pyLe (R.getLast hne) e = .ok (tle (R.getLast hne) e) := by
    unfold pyLe; rw [if_pos (hok _ hlast)]
  rw [hle]
  have hmax : ∀ y ∈ R, toLex y ≤ toLex (R.getLast hne) := by
    intro y hy
    obtain ⟨A, hA⟩ : ∃ A, R = A ++ [R.getLast hne] := ⟨R.dropLast, (List.dropLast_concat_getLast hne).symm⟩
    by_cases hyl : y = R.getLast hne
    · rw [← hyl]
    · have hs' := hs
      unfold SS at hs'
      rw [hA, List.pairwise_append] at hs'
      have hyA : y ∈ A := by
        rw [hA] at hy
        rcases List.mem_append.1 hy with h | h
        · exact h
        · exact absurd (List.mem_singleton.1 h) hyl
      exact le_of_lt (hs'.2.2 y hyA _ (List.mem_singleton.2 rfl))
  show ∃ R', (if tle (R.getLast hne) e = true then _ else _) = _ ∧ _
  by_cases h : tle (R.getLast hne) e = true
  · rw [if_pos h]
    rw [tle_iff] at h
    refine ⟨R, rfl, hs, rfl, fun x hx => Or.inl hx, ?_⟩
    intro x hx hxn y hy
    rcases hx with hx | rfl
    · exact absurd hx hxn
    · refine lt_of_le_of_ne (le_trans (hmax y hy) h) (fun c => ?_)
      rw [toLex.injective c] at hy
      exact he hy
  · rw [if_neg h]
    rw [tle_iff, not_le] at h
    obtain ⟨R1, hR1, hss, hlen, hmem⟩ := pyInsort_ok hs (fun y hy => tupleOk_symm (hok y hy)) he
    rw [hR1]
    refine ⟨R1.dropLast, rfl, ?_, ?_, ?_, ?_⟩
    · exact List.Pairwise.sublist (List.dropLast_sublist _) hss
    · simp [hlen]
    · intro x hx
      exact (hmem x).1 (List.dropLast_subset _ hx)
    · intro x hx hxn y hy
      have hx1 : x ∈ R1 := (hmem x).2 hx
      have hne1 : R1 ≠ [] := List.ne_nil_of_mem hx1
      have hA := List.dropLast_concat_getLast hne1
      have hxl : x = R1.getLast hne1 := by
        rw [← hA] at hx1
        rcases List.mem_append.1 hx1 with h' | h'
        · exact absurd h' hxn
        · exact List.mem_singleton.1 h'
      have hss' := hss
      unfold SS at hss'
      rw [← hA, List.pairwise_append] at hss'
      rw [hxl]
      exact hss'.2.2 y hy _ (List.mem_singleton.2 rfl)

theorem nsmallLoop_ok : ∀ (rest P R : List (V × D)), SS R → R ≠ [] → (P ++ rest).Nodup →
    (∀ x ∈ R, x ∈ P) → (∀ x ∈ P, x ∉ R → ∀ y ∈ R, toLex y < toLex x) →
    (∀ x ∈ P ++ rest, ∀ y ∈ P ++ rest, tupleOk x y = true) →
    ∃ R', rest.foldlM nsmallStep R = .ok R' ∧ SS R' ∧ R'.length = R.length ∧ (∀ x ∈ R', x ∈ P ++ rest) ∧
      (∀ x ∈ P ++ rest, x ∉ R' → ∀ y ∈ R', toLex y < toLex x) := by
  intro rest
  induction rest with
  | nil =>
    intro P R hs hne hnd hsub hbig hok
    exact ⟨R, rfl, hs, rfl, by simpa using hsub, by simpa using hbig⟩
  | cons e t ih =>
    intro P R hs hne hnd hsub hbig hok
    have heP : e ∉ P := by
      intro hc
      rw [List.nodup_append] at hnd
      exact hnd.2.2 e hc e (List.mem_cons_self) rfl
    obtain ⟨R1, hR1, hs1, hl1, hsub1, hbig1⟩ := nsmallStep_ok (e := e) hs hne
      (fun y hy => hok y (by simp [hsub y hy]) e (by simp)) (fun hc => heP (hsub e hc))
    rw [List.foldlM_cons, hR1]
    have hne1 : R1 ≠ [] := by
      intro hc; rw [hc] at hl1; simp at hl1; exact hne (List.length_eq_zero_iff.1 hl1.symm)
    have e1 : P ++ e :: t = (P ++ [e]) ++ t := by simp
    rw [e1] at hnd hok ⊢
    obtain ⟨R2, hR2, hs2, hl2, hsub2, hbig2⟩ := ih (P ++ [e]) R1 hs1 hne1 hnd
      (by
        intro x hx
        rcases hsub1 x hx with h | rfl
        · simp [hsub x h]
        · simp)
      (by
        intro x hx hxn y hy
        by_cases hxR : x ∈ R ∨ x = e
        · exact hbig1 x hxR hxn y hy
        · push Not at hxR
          have hxP : x ∈ P := by
            rcases List.mem_append.1 hx with h | h
            · exact h
            · exact absurd (List.mem_singleton.1 h) hxR.2
          rcases hsub1 y hy with h | rfl
          · exact hbig x hxP hxR.1 y h
          · -- `e` was inserted, so something of `R` fell out; it is below `x`
            obtain ⟨z, hz⟩ : ∃ z, z ∈ R ∧ z ∉ R1 := by
              by_contra hc
              push Not at hc
              have hle := (List.subperm_of_subset (l₁ := y :: R) (l₂ := R1)
                (List.nodup_cons.2 ⟨fun h => heP (hsub y h), hs.nodup⟩) (by
                  intro w hw
                  rcases List.mem_cons.1 hw with rfl | hw
                  · exact hy
                  · exact hc w hw)).length_le
              simp at hle; omega
            exact lt_trans (hbig1 z (Or.inl hz.1) hz.2 y hy) (hbig x hxP hxR.1 z hz.1))
      hok
    exact ⟨R2, hR2, hs2, hl2.trans hl1, hsub2, hbig2⟩

theorem isort_take_of {P R : List (V × D)} (hP : P.Nodup) (hs : SS R) (hsub : ∀ x ∈ R, x ∈ P)
    (hbig : ∀ x ∈ P, x ∉ R → ∀ y ∈ R, toLex y < toLex x) : (isort P).take R.length = R := by
  have h : isort P = R ++ isort (P.filter (fun x => decide (x ∉ R))) := by
    apply SS.eq (isort_SS hP)
    · unfold SS
      rw [List.pairwise_append]
      refine ⟨hs, isort_SS (hP.filter _), ?_⟩
      intro y hy x hx
      rw [mem_isort, List.mem_filter] at hx
      exact hbig x hx.1 (by simpa using hx.2) y hy
    · intro x
      rw [mem_isort, List.mem_append, mem_isort, List.mem_filter]
      constructor
      · intro hx
        by_cases hxR : x ∈ R
        · exact Or.inl hxR
        · exact Or.inr ⟨hx, by simpa using hxR⟩
      · rintro (hx | hx)
        · exact hsub x hx
        · exact hx.1
  rw [h, List.take_left]

theorem nsmallest_none_ok {it : List (V × D)} (hok : allOk tupleOk it = true) :
    nsmallest none it = .ok (isort it) := by
  unfold nsmallest pySortedTuples
  dsimp only
  rw [if_pos hok]
  show (if (isort it).isEmpty = true then _ else _) = _
  split
  · rename_i h; rw [List.isEmpty_iff.1 h]; rfl
  · rfl

theorem nsmallest_some_ok {it : List (V × D)} (hnd : it.Nodup) (hok : allOk tupleOk it = true) (n : Nat) (hn : 1 ≤ n) :
    nsmallest (some n) it = .ok ((isort it).take n) := by
  unfold nsmallest pySortedTuples
  dsimp only
  rw [allOk_iff] at hok
  have hok1 : allOk tupleOk (it.take n) = true := by
    rw [allOk_iff]
    exact fun a ha b hb => hok a (List.mem_of_mem_take ha) b (List.mem_of_mem_take hb)
  rw [if_pos hok1]
  show (if (isort (it.take n)).isEmpty = true then _ else _) = _
  split
  · rename_i h
    have h1 := List.isEmpty_iff.1 h
    have h2 : it.take n = [] := by
      apply List.eq_nil_iff_forall_not_mem.2
      intro x hx
      rw [← mem_isort, h1] at hx
      simp at hx
    have h3 : it = [] := by
      rcases List.take_eq_nil_iff.1 h2 with h | h
      · omega
      · exact h
    subst h3
    simp [isort]; rfl
  · rename_i h
    have hnd1 : (it.take n).Nodup := hnd.sublist (List.take_sublist _ _)
    have hne : isort (it.take n) ≠ [] := by
      intro hc; rw [hc] at h; simp at h
    obtain ⟨R', hR, hs, hl, hsub, hbig⟩ := nsmallLoop_ok (it.drop n) (it.take n) (isort (it.take n))
      (isort_SS hnd1) hne (by rw [List.take_append_drop]; exact hnd) (fun x hx => (mem_isort _ _).1 hx)
      (fun x hx hxn => absurd ((mem_isort _ _).2 hx) hxn) (by rw [List.take_append_drop]; exact hok)
    rw [List.take_append_drop] at hsub hbig
    show List.foldlM nsmallStep (isort (List.take n it)) (List.drop n it) = _
    rw [hR]
    have hlen : (isort it).length = it.length := List.length_insertionSort _ _
    have hR' := isort_take_of hnd hs hsub hbig
    have hl' : R'.length = min n it.length := by
      rw [hl]; unfold isort; rw [List.length_insertionSort, List.length_take]
    rw [hl'] at hR'
    rw [← hR', ← hlen, ← List.take_take]
    simp

theorem nsmallLoop_err : ∀ (rest R : List (V × D)), SS R → R ≠ [] → rest.Nodup →
    (∀ x ∈ R, x ∉ rest) → (∀ x ∈ R, ∀ y ∈ R, tupleOk x y = true) →
    (∃ e ∈ rest, ∃ x ∈ R, tupleOk x e = false) → rest.foldlM nsmallStep R = .error .TypeError := by
  intro rest
  induction rest with
  | nil => rintro R _ _ _ _ _ ⟨e, he, _⟩; simp at he
  | cons e t ih =>
    rintro R hs hne hnd hdis hok ⟨f, hf, x, hx, hfx⟩
    rw [List.foldlM_cons]
    rw [List.nodup_cons] at hnd
    by_cases hee : ∀ y ∈ R, tupleOk y e = true
    · obtain ⟨R1, hR1, hs1, hl1, hsub1, -⟩ := nsmallStep_ok (e := e) hs hne hee
        (fun hc => hdis e hc (List.mem_cons_self))
      rw [hR1]
      have hne1 : R1 ≠ [] := by
        intro hc; rw [hc] at hl1; simp at hl1; exact hne (List.length_eq_zero_iff.1 hl1.symm)
      have hRe : ∀ y, y ∈ R1 → tupleOk y x = true := by
        intro y hy
        rcases hsub1 y hy with h | rfl
        · exact hok y h x hx
        · exact tupleOk_symm (hee x hx)
      apply ih R1 hs1 hne1 hnd.2
      · intro y hy hyt
        rcases hsub1 y hy with h | rfl
        · exact hdis y h (List.mem_cons_of_mem _ hyt)
        · exact hnd.1 hyt
      · exact fun y hy z hz => tupleOk_trans (hRe y hy) (tupleOk_symm (hRe z hz))
      · have hft : f ∈ t := by
          rcases List.mem_cons.1 hf with rfl | h
          · rw [hee x hx] at hfx; cases hfx
          · exact h
        obtain ⟨y, hy⟩ := List.exists_mem_of_ne_nil R1 hne1
        refine ⟨f, hft, y, hy, ?_⟩
        by_contra hc
        rw [Bool.not_eq_false] at hc
        rw [tupleOk_trans (tupleOk_symm (hRe y hy)) hc] at hfx
        cases hfx
    · push Not at hee
      obtain ⟨y, hy, hye⟩ := hee
      have hstep : nsmallStep R e = .error .TypeError := by
        unfold nsmallStep
        rw [List.getLast?_eq_getLast_of_ne_nil hne]
        dsimp only
        have : tupleOk (R.getLast hne) e = false := by
          by_contra hc
          rw [Bool.not_eq_false] at hc
          exact hye (tupleOk_trans (hok y hy _ (List.getLast_mem hne)) hc)
        unfold pyLe; rw [this]; rfl
      rw [hstep]; rfl

theorem nsmallest_err {it : List (V × D)} (hnd : it.Nodup) (hok : allOk tupleOk it = false) (limit : Option Nat)
    (hn : ∀ n, limit = some n → 1 ≤ n) : nsmallest limit it = .error .TypeError := by
  cases limit with
  | none =>
    unfold nsmallest pySortedTuples
    dsimp only
    rw [if_neg (by simp [hok])]; rfl
  | some n =>
    have hn1 := hn n rfl
    unfold nsmallest pySortedTuples
    dsimp only
    by_cases hok1 : allOk tupleOk (it.take n) = true
    · rw [if_pos hok1]
      show (if (isort (it.take n)).isEmpty = true then _ else _) = _
      have hne : isort (it.take n) ≠ [] := by
        intro hc
        have h2 : it.take n = [] := by
          apply List.eq_nil_iff_forall_not_mem.2
          intro x hx
          rw [← mem_isort, hc] at hx
          simp at hx
        have h3 : it = [] := by
          rcases List.take_eq_nil_iff.1 h2 with h | h
          · omega
          · exact h
        subst h3
        simp [allOk] at hok
      rw [if_neg (by simpa using hne)]
      have hnd' := hnd
      rw [← List.take_append_drop n it, List.nodup_append] at hnd'
      rw [allOk_iff] at hok1
      apply nsmallLoop_err (it.drop n) _ (isort_SS hnd'.1) hne hnd'.2.1
      · intro x hx hxd
        exact hnd'.2.2 x ((mem_isort _ _).1 hx) x hxd rfl
      · intro x hx y hy
        exact hok1 x ((mem_isort _ _).1 hx) y ((mem_isort _ _).1 hy)
      · have h4 : ¬ ∀ a ∈ it, ∀ b ∈ it, tupleOk a b = true := by
          rw [← allOk_iff]; simp [hok]
        obtain ⟨z, hz⟩ := List.exists_mem_of_ne_nil _ hne
        by_contra hc
        push Not at hc
        have hall : ∀ a ∈ it, tupleOk z a = true := by
          intro a ha
          rw [← List.take_append_drop n it] at ha
          rcases List.mem_append.1 ha with h | h
          · exact hok1 z ((mem_isort _ _).1 hz) a h
          · have := hc a h z hz
            simpa using this
        exact h4 (fun a ha b hb => tupleOk_trans (tupleOk_symm (hall a ha)) (hall b hb))
    · rw [if_neg hok1]; rfl

/-! ### the other loops -/

/-- limit as the generator uses it -/
def cutN {α : Type} (limit : Option Nat) (L : List α) : List α :=
  match limit with | none => L | some n => L.take n

theorem emit_eq (limit : Option Nat) (h : ∀ n, limit = some n → 1 ≤ n) (l : List D) :
    emit limit 0 l = cutN limit l := by
  cases limit with
  | none =>
    have : ∀ k, emit (none : Option Nat) k l = l := by
      induction l with
      | nil => intro k; rfl
      | cons d t ih => intro k; simp [emit, ih]
    exact this 0
  | some n =>
    have : ∀ k, k < n → emit (some n) k l = l.take (n - k) := by
      induction l with
      | nil => intro k _; simp [emit]
      | cons d t ih =>
        intro k hk
        unfold emit
        dsimp only
        obtain ⟨j, hj⟩ : ∃ j, n - k = j + 1 := ⟨n - k - 1, by omega⟩
        rw [hj, List.take_succ_cons]
        by_cases hc : k + 1 ≥ n
        · rw [if_pos hc]
          have : j = 0 := by omega
          subst this; simp
        · rw [if_neg hc, ih _ (by omega)]
          congr 2
          omega
    have := this 0 (h n rfl)
    simpa [cutN] using this

/-- a stable sort of an increasing list breaks ties by position -/
theorem insertionSort_stable (r : D → D → Bool) (htot : ∀ a b, r a b = true ∨ r b a = true)
    (htr : ∀ a b c, r a b = true → r b c = true → r a c = true) {l : List D} (hl : l.Pairwise (· < ·)) :
    (l.insertionSort (fun a b => r a b)).Pairwise (fun a b => r a b = true ∧ (r b a = true → a < b)) := by
  induction l with
  | nil => simp
  | cons a t ih =>
    rw [List.pairwise_cons] at hl
    rw [List.insertionSort_cons]
    have hmem : ∀ x ∈ t.insertionSort (fun a b => r a b), a < x := by
      intro x hx
      rw [List.mem_insertionSort] at hx
      exact hl.1 x hx
    have := ih hl.2
    generalize t.insertionSort (fun a b => r a b) = m at this hmem
    induction m with
    | nil => simp
    | cons b u ihu =>
      rw [List.orderedInsert_cons]
      rw [List.pairwise_cons] at this
      split
      · rename_i hab
        rw [List.pairwise_cons]
        refine ⟨?_, List.pairwise_cons.2 this⟩
        intro x hx
        refine ⟨?_, fun _ => hmem x hx⟩
        rcases List.mem_cons.1 hx with rfl | hx
        · exact hab
        · exact htr a b x hab (this.1 x hx).1
      · rename_i hab
        rw [List.pairwise_cons]
        have hmem' : ∀ x ∈ u, a < x := fun x hx => hmem x (List.mem_cons_of_mem _ hx)
        refine ⟨?_, ihu this.2 hmem'⟩
        intro x hx
        rw [List.mem_orderedInsert] at hx
        rcases hx with rfl | hx
        · refine ⟨?_, fun h => absurd h hab⟩
          rcases htot x b with h | h
          · exact absurd h hab
          · exact h
        · exact this.1 x hx

/-- the tuples of the n-best strategy -/
def pairsOf (s : Field D V) (ids : SSet D) : List (V × D) :=
  ids.keys.filterMap (fun d => (s.rev.get? d).map (fun v => (v, d)))

theorem mem_pairsOf (s : Field D V) (ids : SSet D) (v : V) (d : D) :
    (v, d) ∈ pairsOf s ids ↔ d ∈ ids.keys ∧ s.rev.get? d = some v := by
  unfold pairsOf
  rw [List.mem_filterMap]
  constructor
  · rintro ⟨x, hx, he⟩
    cases hg : s.rev.get? x with
    | none => rw [hg] at he; simp at he
    | some w =>
      rw [hg] at he
      simp only [Option.map_some, Option.some.injEq, Prod.mk.injEq] at he
      obtain ⟨rfl, rfl⟩ := he
      exact ⟨hx, hg⟩
  · rintro ⟨hd, hg⟩
    exact ⟨d, hd, by rw [hg]; rfl⟩

theorem pairsOf_nodup (s : Field D V) (ids : SSet D) : (pairsOf s ids).Nodup := by
  unfold pairsOf
  apply List.Nodup.filterMap _ (SMap.keys_nodup ids)
  intro a a' b hb hb'
  cases h : s.rev.get? a with
  | none => rw [h] at hb; simp at hb
  | some v =>
    cases h' : s.rev.get? a' with
    | none => rw [h'] at hb'; simp at hb'
    | some v' =>
      rw [h] at hb; rw [h'] at hb'
      simp only [Option.map_some, Option.mem_def, Option.some.injEq] at hb hb'
      rw [← hb'] at hb
      exact (Prod.mk.inj hb).2

/-- the listing: all wanted docids in ascending order of `(value, docid)` -/
def listing (s : Field D V) (ids : SSet D) : List D := (isort (pairsOf s ids)).map (·.2)

theorem lazy_eq {s : Field D V} (hi : Inv s) (ids : SSet D) :
    s.fwd.values.flatMap (fun stored => (SSet.inter ids stored).keys) = listing s ids := by
  have h : s.fwd.items.flatMap (fun p => (SSet.inter ids p.2).keys.map (fun d => (p.1, d))) =
      isort (pairsOf s ids) := by
    apply SS.eq
    · unfold SS
      rw [List.pairwise_flatMap]
      constructor
      · intro p _
        rw [List.pairwise_map]
        refine (SMap.keys_sorted _).imp ?_
        intro a b hab
        rw [Prod.Lex.toLex_lt_toLex]
        exact Or.inr ⟨rfl, hab⟩
      · refine s.fwd.sorted.imp ?_
        intro p q hpq x hx y hy
        obtain ⟨d, _, rfl⟩ := List.mem_map.1 hx
        obtain ⟨d', _, rfl⟩ := List.mem_map.1 hy
        rw [Prod.Lex.toLex_lt_toLex]
        exact Or.inl hpq
    · exact isort_SS (pairsOf_nodup s ids)
    · rintro ⟨v, d⟩
      rw [mem_isort, mem_pairsOf, List.mem_flatMap]
      rw [← hi.agree]
      constructor
      · rintro ⟨p, hp, hx⟩
        obtain ⟨d', hd', he⟩ := List.mem_map.1 hx
        cases he
        rw [SSet.mem_keys_inter] at hd'
        exact ⟨hd'.1, p.2, (SMap.get?_eq_some_iff _ _ _).2 hp, hd'.2⟩
      · rintro ⟨hd, set, hset, hm⟩
        exact ⟨(v, set), (SMap.get?_eq_some_iff _ _ _).1 hset,
          List.mem_map.2 ⟨d, (SSet.mem_keys_inter _ _ _).2 ⟨hd, hm⟩, rfl⟩⟩
  unfold listing
  rw [← h, List.map_flatMap]
  unfold SMap.values
  rw [List.flatMap_map]
  congr 1
  funext p
  simp

/-- the full sort before skipping -/
theorem full_eq (s : Field D V) (ids : SSet D) :
    (ids.keys.insertionSort (fun a b => keyLe (fun d => (s.rev.get? d).getD PyValue.negOne) false a b)).filter
      (fun d => s.rev.contains d) = listing s ids := by
  set g := fun d => (s.rev.get? d).getD (PyValue.negOne : V) with hg
  have hst := insertionSort_stable (keyLe g false)
    (by intro a b; simp only [keyLe, Bool.false_eq_true, if_false, decide_eq_true_eq]; exact le_total _ _)
    (by intro a b c; simp only [keyLe, Bool.false_eq_true, if_false, decide_eq_true_eq]; exact le_trans)
    (SMap.keys_sorted ids)
  have h : ((ids.keys.insertionSort (fun a b => keyLe g false a b)).filter (fun d => s.rev.contains d)).map
      (fun d => (g d, d)) = isort (pairsOf s ids) := by
    apply SS.eq
    · unfold SS
      rw [List.pairwise_map]
      refine (hst.filter _).imp ?_
      intro a b hab
      simp only [keyLe, Bool.false_eq_true, if_false, decide_eq_true_eq] at hab
      rw [Prod.Lex.toLex_lt_toLex]
      rcases lt_or_eq_of_le hab.1 with h | h
      · exact Or.inl h
      · exact Or.inr ⟨h, hab.2 (le_of_eq h.symm)⟩
    · exact isort_SS (pairsOf_nodup s ids)
    · rintro ⟨v, d⟩
      rw [mem_isort, mem_pairsOf, List.mem_map]
      constructor
      · rintro ⟨x, hx, he⟩
        obtain ⟨h1, h2⟩ := List.mem_filter.1 hx
        rw [List.mem_insertionSort] at h1
        obtain ⟨w, hw⟩ := (SMap.contains_iff _ _).1 h2
        simp only [Prod.mk.injEq, hg, hw, Option.getD_some] at he
        obtain ⟨rfl, rfl⟩ := he
        exact ⟨h1, hw⟩
      · rintro ⟨hd, hr⟩
        refine ⟨d, List.mem_filter.2 ⟨(List.mem_insertionSort _).2 hd, SMap.contains_of_get? hr⟩, ?_⟩
        simp [hg, hr]
  unfold listing
  rw [← h, List.map_map]
  simp [Function.comp_def]

theorem mem_listing (s : Field D V) (ids : SSet D) (d : D) :
    d ∈ listing s ids ↔ d ∈ ids.keys ∧ ∃ v, s.rev.get? d = some v := by
  unfold listing
  rw [List.mem_map]
  constructor
  · rintro ⟨⟨v, x⟩, hx, rfl⟩
    rw [mem_isort, mem_pairsOf] at hx
    exact ⟨hx.1, v, hx.2⟩
  · rintro ⟨hd, v, hv⟩
    exact ⟨(v, d), by rw [mem_isort, mem_pairsOf]; exact ⟨hd, hv⟩, rfl⟩

theorem listing_sorted (s : Field D V) (ids : SSet D) :
    (listing s ids).Pairwise (fun a b => ∀ va vb, s.rev.get? a = some va → s.rev.get? b = some vb →
      va < vb ∨ (va = vb ∧ a < b)) := by
  unfold listing
  rw [List.pairwise_map]
  refine List.Pairwise.imp_of_mem ?_ (isort_SS (pairsOf_nodup s ids))
  rintro ⟨v, a⟩ ⟨w, b⟩ ha hb hlt va vb hva hvb
  rw [mem_isort, mem_pairsOf] at ha hb
  rw [ha.2] at hva; rw [hb.2] at hvb
  cases hva; cases hvb
  rw [Prod.Lex.toLex_lt_toLex] at hlt
  exact hlt

theorem listing_nodup (s : Field D V) (ids : SSet D) : (listing s ids).Nodup := by
  unfold listing
  refine List.Nodup.map_on ?_ (isort_SS (pairsOf_nodup s ids)).nodup
  rintro ⟨v, a⟩ ha ⟨w, b⟩ hb h
  rw [mem_isort, mem_pairsOf] at ha hb
  simp only at h
  subst h
  rw [ha.2] at hb
  simp_all

end Verif.Field

namespace Verif.Field

open Spec.Field

variable {D V : Type} [LinearOrder D] [PyValue V]

/-! ### the strategies -/

theorem map_cutN {α β : Type} (f : α → β) (limit : Option Nat) (L : List α) :
    (cutN limit L).map f = cutN limit (L.map f) := by
  cases limit <;> simp [cutN]

theorem nbest_asc_ok (s : Field D V) (ids : SSet D) (lz : Bool) (limit : Option Nat)
    (hl : ∀ n, limit = some n → 1 ≤ n) (hok : allOk tupleOk (pairsOf s ids) = true) :
    sortWith s lz true ids false limit = .ok (cutN limit (listing s ids)) := by
  unfold sortWith
  rw [if_pos rfl]
  show (nsmallest limit (pairsOf s ids) >>= fun r => pure (r.map (·.2))) = _
  cases limit with
  | none => rw [nsmallest_none_ok hok]; rfl
  | some n =>
    rw [nsmallest_some_ok (pairsOf_nodup s ids) hok n (hl n rfl)]
    simp only [listing, cutN, ← List.map_take]
    rfl

theorem nbest_asc_err (s : Field D V) (ids : SSet D) (lz : Bool) (limit : Option Nat)
    (hl : ∀ n, limit = some n → 1 ≤ n) (hok : allOk tupleOk (pairsOf s ids) = false) :
    sortWith s lz true ids false limit = .error .TypeError := by
  unfold sortWith
  rw [if_pos rfl]
  show (nsmallest limit (pairsOf s ids) >>= fun r => pure (r.map (·.2))) = _
  rw [nsmallest_err (pairsOf_nodup s ids) hok limit hl]; rfl

theorem isort_desc {l : List (V × D)} (h : l.Nodup) :
    l.insertionSort (fun a b => tle b a) = (isort l).reverse := by
  have h1 : SS (l.insertionSort (fun a b => tle b a)).reverse := by
    have ht : IsTrans (V × D) (fun a b => tle b a = true) := ⟨fun a b c h1 h2 => by
      rw [tle_iff] at *; exact le_trans h2 h1⟩
    have htot : Std.Total (fun (a b : V × D) => tle b a = true) := ⟨fun a b => by
      rw [tle_iff, tle_iff]; exact le_total _ _⟩
    have h1 := List.pairwise_insertionSort (fun (a b : V × D) => tle b a = true) l
    have h2 : (l.insertionSort (fun a b => tle b a)).Nodup := (List.perm_insertionSort _ l).nodup_iff.2 h
    unfold SS
    rw [List.pairwise_reverse]
    refine List.Pairwise.imp₂ ?_ h1 h2
    intro a b hab hne
    rw [tle_iff] at hab
    exact lt_of_le_of_ne hab (fun e => hne (toLex.injective e).symm)
  have := SS.eq h1 (isort_SS h) (by intro x; rw [List.mem_reverse, List.mem_insertionSort, mem_isort])
  rw [← this, List.reverse_reverse]

theorem nbest_desc_ok (s : Field D V) (ids : SSet D) (lz : Bool) (n : Nat)
    (hok : allOk tupleOk (pairsOf s ids) = true) :
    sortWith s lz true ids true (some n) = .ok ((listing s ids).reverse.take n) := by
  unfold sortWith
  rw [if_pos rfl]
  show (pyNLargest n (pairsOf s ids) >>= fun r => pure (r.map (·.2))) = _
  unfold pyNLargest
  rw [if_pos hok, isort_desc (pairsOf_nodup s ids)]
  simp only [listing, ← List.map_take, ← List.map_reverse]
  rfl

theorem nbest_desc_err (s : Field D V) (ids : SSet D) (lz : Bool) (limit : Option Nat)
    (hok : allOk tupleOk (pairsOf s ids) = false) :
    sortWith s lz true ids true limit = .error .TypeError := by
  unfold sortWith
  rw [if_pos rfl]
  cases limit with
  | none => rfl
  | some n =>
    show (pyNLargest n (pairsOf s ids) >>= fun r => pure (r.map (·.2))) = _
    unfold pyNLargest
    rw [if_neg (by simp [hok])]; rfl

theorem lazy_ok {s : Field D V} (hi : Inv s) (ids : SSet D) (limit : Option Nat)
    (hl : ∀ n, limit = some n → 1 ≤ n) :
    sortWith s true false ids false limit = .ok (cutN limit (listing s ids)) := by
  unfold sortWith
  rw [if_neg (by decide), if_pos (by decide), lazy_eq hi, emit_eq limit hl]

/-- keys of the full sort -/
def fullKeys (s : Field D V) (ids : SSet D) : List V :=
  ids.keys.map (fun d => (s.rev.get? d).getD PyValue.negOne)

theorem full_asc_ok (s : Field D V) (ids : SSet D) (limit : Option Nat)
    (hl : ∀ n, limit = some n → 1 ≤ n) (hok : keysOk (fullKeys s ids) = true) :
    sortWith s false false ids false limit = .ok (cutN limit (listing s ids)) := by
  unfold sortWith
  rw [if_neg (by decide), if_neg (by decide)]
  dsimp only
  unfold fullKeys at hok
  rw [if_pos hok, full_eq, emit_eq limit hl]

/-- the full sort, descending: by value, then increasing docid -/
def listingDesc (s : Field D V) (ids : SSet D) : List D :=
  (ids.keys.insertionSort (fun a b => keyLe (fun d => (s.rev.get? d).getD PyValue.negOne) true a b)).filter
    (fun d => s.rev.contains d)

theorem full_desc_ok (s : Field D V) (ids : SSet D) (lz : Bool) (limit : Option Nat)
    (hl : ∀ n, limit = some n → 1 ≤ n) (hok : keysOk (fullKeys s ids) = true) :
    sortWith s lz false ids true limit = .ok (cutN limit (listingDesc s ids)) := by
  unfold sortWith
  rw [if_neg (by decide), if_neg (by simp)]
  dsimp only
  unfold fullKeys at hok
  rw [if_pos hok, emit_eq limit hl]
  rfl

theorem full_err (s : Field D V) (ids : SSet D) (lz rv : Bool) (limit : Option Nat)
    (h : (lz && !rv) = false) (hok : keysOk (fullKeys s ids) = false) :
    sortWith s lz false ids rv limit = .error .TypeError := by
  unfold sortWith
  rw [if_neg (by decide), if_neg (by simp [h])]
  dsimp only
  unfold fullKeys at hok
  rw [if_neg (by simp [hok])]

theorem mem_listingDesc (s : Field D V) (ids : SSet D) (d : D) :
    d ∈ listingDesc s ids ↔ d ∈ ids.keys ∧ ∃ v, s.rev.get? d = some v := by
  unfold listingDesc
  rw [List.mem_filter, List.mem_insertionSort, SMap.contains_iff]

theorem listingDesc_sorted (s : Field D V) (ids : SSet D) :
    (listingDesc s ids).Pairwise (fun a b => ∀ va vb, s.rev.get? a = some va → s.rev.get? b = some vb →
      vb < va ∨ (va = vb ∧ a < b)) := by
  unfold listingDesc
  set g := fun d => (s.rev.get? d).getD (PyValue.negOne : V) with hg
  have hst := insertionSort_stable (keyLe g true)
    (by intro a b; simp only [keyLe, if_true, decide_eq_true_eq]; exact le_total _ _)
    (by intro a b c; simp only [keyLe, if_true, decide_eq_true_eq]; exact fun h1 h2 => le_trans h2 h1)
    (SMap.keys_sorted ids)
  refine (hst.filter _).imp ?_
  intro a b hab va vb ha hb
  simp only [keyLe, if_true, decide_eq_true_eq] at hab
  have ea : g a = va := by simp [hg, ha]
  have eb : g b = vb := by simp [hg, hb]
  rw [ea, eb] at hab
  rcases lt_or_eq_of_le hab.1 with h | h
  · exact Or.inl h
  · exact Or.inr ⟨h.symm, hab.2 (le_of_eq h.symm)⟩

theorem listingDesc_nodup (s : Field D V) (ids : SSet D) : (listingDesc s ids).Nodup := by
  unfold listingDesc
  exact List.Nodup.filter _ ((List.perm_insertionSort _ _).nodup_iff.2 (SMap.keys_nodup ids))

theorem keysOk_iff (l : List V) : keysOk l = true ↔ l.length ≤ 1 ∨ ∃ k, ∀ v ∈ l, PyValue.kind v = some k := by
  unfold keysOk
  match l with
  | [] => simp
  | [a] => simp
  | a :: b :: t =>
    simp only [Bool.and_eq_true, List.all_eq_true, decide_eq_true_eq, List.length_cons]
    constructor
    · rintro ⟨h1, h2⟩
      obtain ⟨k, hk⟩ := Option.isSome_iff_exists.1 h1
      refine Or.inr ⟨k, ?_⟩
      intro v hv
      rcases List.mem_cons.1 hv with rfl | hv
      · exact hk
      · rw [h2 v hv, hk]
    · rintro (h | ⟨k, hk⟩)
      · omega
      · refine ⟨by rw [hk a (by simp)]; rfl, ?_⟩
        intro v hv
        rw [hk v (List.mem_cons_of_mem _ hv), hk a (by simp)]

theorem allOk_of_orderable {s : Field D V} {ids : SSet D} {k : Nat}
    (h : ∀ d ∈ ids.keys, ∀ v, s.rev.get? d = some v → PyValue.kind v = some k) :
    allOk tupleOk (pairsOf s ids) = true := by
  rw [allOk_iff]
  rintro ⟨v, d⟩ h1 ⟨w, e⟩ h2
  rw [mem_pairsOf] at h1 h2
  rw [tupleOk_iff]
  exact Or.inr ⟨k, h d h1.1 v h1.2, h e h2.1 w h2.2⟩

/-- what `sort` does once the limit is accepted -/
theorem sort_eq (s : Field D V) (lz nb : Bool) (docids : List D) (rv : Bool) (limit : Option Int)
    (hl : ∀ n, limit = some n → 1 ≤ n) :
    s.sort lz nb docids rv limit = sort.body s lz nb docids rv (limit.map Int.toNat) := by
  unfold sort
  cases limit with
  | none => rfl
  | some n =>
    have := hl n rfl
    simp only
    rw [if_neg (by omega)]; rfl

theorem limit_pos {limit : Option Int} (hl : ∀ n, limit = some n → 1 ≤ n) :
    ∀ n, limit.map Int.toNat = some n → 1 ≤ n := by
  intro n hn
  cases limit with
  | none => simp at hn
  | some m =>
    have := hl m rfl
    simp at hn
    omega

theorem cutN_cut {α : Type} (limit : Option Int) (L : List α) : cutN (limit.map Int.toNat) L = cut limit L := by
  cases limit <;> rfl

theorem cut_nil {α : Type} (limit : Option Int) : cut limit ([] : List α) = [] := by
  cases limit <;> simp [cut]

theorem listing_nil_of {s : Field D V} (hi : Inv s) {docids : List D}
    (h : s.numDocs = 0 ∨ (SSet.ofList docids).isEmpty = true) : listing s (SSet.ofList docids) = [] := by
  apply List.eq_nil_iff_forall_not_mem.2
  intro d hd
  rw [mem_listing] at hd
  rcases h with h | h
  · obtain ⟨v, hv⟩ := hd.2
    rw [hi.count] at h
    have h0 : s.rev.len = 0 := by omega
    rw [← SMap.isEmpty_iff_len, SMap.isEmpty_iff] at h0
    rw [h0 d] at hv; cases hv
  · exact (SSet.isEmpty_iff_keys _).1 h d hd.1

theorem listingDesc_nil_of {s : Field D V} (hi : Inv s) {docids : List D}
    (h : s.numDocs = 0 ∨ (SSet.ofList docids).isEmpty = true) : listingDesc s (SSet.ofList docids) = [] := by
  apply List.eq_nil_iff_forall_not_mem.2
  intro d hd
  rw [mem_listingDesc, ← mem_listing, listing_nil_of hi h] at hd
  simp at hd

theorem mem_ofList (l : List D) (d : D) : d ∈ (SSet.ofList l).keys ↔ d ∈ l := SSet.mem_keys_ofList _ _

theorem sortable_facts {s : Field D V} {docids : List D} {m : D → Option V}
    (hm : ∀ d, s.rev.get? d = m d) (h : Sortable m docids) :
    keysOk (fullKeys s (SSet.ofList docids)) = true ∧ allOk tupleOk (pairsOf s (SSet.ofList docids)) = true := by
  obtain ⟨k, hk⟩ := h
  constructor
  · rw [keysOk_iff]
    refine Or.inr ⟨k, ?_⟩
    intro v hv
    unfold fullKeys at hv
    obtain ⟨d, hd, rfl⟩ := List.mem_map.1 hv
    rw [mem_ofList] at hd
    rw [hm]; exact hk d hd
  · apply allOk_of_orderable (k := k)
    intro d hd v hv
    rw [mem_ofList] at hd
    have := hk d hd
    rw [← hm, hv] at this
    exact this

/-- ascending, whatever the strategy -/
theorem sort_asc {s : Field D V} (hi : Inv s) (lz nb : Bool) (docids : List D) (limit : Option Int)
    (hl : ∀ n, limit = some n → 1 ≤ n) (hk : keysOk (fullKeys s (SSet.ofList docids)) = true)
    (ho : allOk tupleOk (pairsOf s (SSet.ofList docids)) = true) :
    s.sort lz nb docids false limit = .ok (cut limit (listing s (SSet.ofList docids))) := by
  rw [sort_eq s lz nb docids false limit hl]
  unfold sort.body
  dsimp only
  by_cases h : s.numDocs = 0
  · rw [if_pos h]; rw [listing_nil_of hi (Or.inl h), cut_nil]
  · rw [if_neg h]
    by_cases h : SMap.isEmpty (SSet.ofList docids) = true
    · rw [if_pos h]; rw [listing_nil_of hi (Or.inr h), cut_nil]
    · rw [if_neg h, ← cutN_cut]
      cases hnb : (chooseNbest (limit.map Int.toNat) (SSet.ofList docids).len || nb) with
      | true => exact nbest_asc_ok s _ _ _ (limit_pos hl) ho
      | false =>
        cases hlz : (chooseLazy (SSet.ofList docids).len s.numDocs || lz) with
        | true => exact lazy_ok hi _ _ (limit_pos hl)
        | false => exact full_asc_ok s _ _ (limit_pos hl) hk

/-- descending, whatever the strategy -/
theorem sort_desc {s : Field D V} (hi : Inv s) (lz nb : Bool) (docids : List D) (limit : Option Int)
    (hl : ∀ n, limit = some n → 1 ≤ n) (hnb : nb = true → limit ≠ none)
    (hk : keysOk (fullKeys s (SSet.ofList docids)) = true)
    (ho : allOk tupleOk (pairsOf s (SSet.ofList docids)) = true) :
    s.sort lz nb docids true limit = .ok (cut limit (if (chooseNbest (limit.map Int.toNat) (SSet.ofList docids).len || nb)
      then (listing s (SSet.ofList docids)).reverse else listingDesc s (SSet.ofList docids))) := by
  rw [sort_eq s lz nb docids true limit hl]
  unfold sort.body
  dsimp only
  by_cases h : s.numDocs = 0
  · rw [if_pos h]; rw [listing_nil_of hi (Or.inl h), listingDesc_nil_of hi (Or.inl h)]; simp [cut_nil]
  · rw [if_neg h]
    by_cases h : SMap.isEmpty (SSet.ofList docids) = true
    · rw [if_pos h]; rw [listing_nil_of hi (Or.inr h), listingDesc_nil_of hi (Or.inr h)]; simp [cut_nil]
    · rw [if_neg h, ← cutN_cut]
      cases hnb' : (chooseNbest (limit.map Int.toNat) (SSet.ofList docids).len || nb) with
      | true =>
        cases limit with
        | none => simp [chooseNbest] at hnb'; exact absurd rfl (hnb hnb')
        | some n => exact nbest_desc_ok s _ _ _ ho
      | false => exact full_desc_ok s _ _ _ (limit_pos hl) hk

end Verif.Field
