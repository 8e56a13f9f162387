import Verif.Model.Base

/-! Lemmas about the containers of `Verif.Model.Base`. -/

namespace Verif
namespace SMap

variable {K V W : Type} [LinearOrder K]

theorem items_inj {a b : SMap K V} (h : a.items = b.items) : a = b := by
  cases a; cases b; cases h; rfl

instance [DecidableEq V] : DecidableEq (SMap K V) := fun a b =>
  if h : a.items = b.items then isTrue (items_inj h) else isFalse (fun e => h (e ▸ rfl))

theorem keys_sorted (m : SMap K V) : m.keys.Pairwise (· < ·) := by
  unfold keys; rw [List.pairwise_map]; exact m.sorted

theorem keys_nodup (m : SMap K V) : m.keys.Nodup :=
  m.keys_sorted.imp (fun h => ne_of_lt h)

theorem len_keys (m : SMap K V) : m.keys.length = m.len := by simp [keys, len]

/-- lookup on the raw list -/
def getL (l : List (K × V)) (k : K) : Option V := (l.find? (fun p => decide (p.1 = k))).map (·.2)

theorem get?_eq_getL (m : SMap K V) (k : K) : m.get? k = getL m.items k := rfl

@[simp] theorem getL_nil (k : K) : getL ([] : List (K × V)) k = none := rfl

theorem getL_cons (p : K × V) (l : List (K × V)) (k : K) :
    getL (p :: l) k = if p.1 = k then some p.2 else getL l k := by
  unfold getL
  by_cases h : p.1 = k <;> simp [List.find?_cons, h]

theorem getL_eq_none {l : List (K × V)} {k : K} (h : ∀ p ∈ l, p.1 ≠ k) : getL l k = none := by
  induction l with
  | nil => rfl
  | cons p t ih =>
    rw [getL_cons, if_neg (h p (by simp))]
    exact ih (fun q hq => h q (by simp [hq]))

theorem getL_eq_some_iff {l : List (K × V)} (hs : l.Pairwise (fun a b => a.1 < b.1)) (k : K) (v : V) :
    getL l k = some v ↔ (k, v) ∈ l := by
  induction l with
  | nil => simp
  | cons p t ih =>
    rw [List.pairwise_cons] at hs
    rw [getL_cons]
    by_cases h : p.1 = k
    · rw [if_pos h]
      constructor
      · intro e
        have : p = (k, v) := by
          cases p; simp_all
        simp [this]
      · intro e
        rcases List.mem_cons.1 e with e | e
        · rw [← e]
        · have := hs.1 _ e
          simp [h] at this
    · rw [if_neg h, ih hs.2, List.mem_cons]
      constructor
      · exact Or.inr
      · rintro (e | e)
        · exact absurd (by rw [← e]) h
        · exact e

theorem get?_eq_some_iff (m : SMap K V) (k : K) (v : V) : m.get? k = some v ↔ (k, v) ∈ m.items :=
  getL_eq_some_iff m.sorted k v

theorem get?_eq_none_iff (m : SMap K V) (k : K) : m.get? k = none ↔ k ∉ m.keys := by
  constructor
  · intro h hk
    obtain ⟨p, hp, rfl⟩ := List.mem_map.1 hk
    have := (m.get?_eq_some_iff p.1 p.2).2 hp
    simp [h] at this
  · intro h
    apply getL_eq_none
    intro p hp e
    exact h (List.mem_map.2 ⟨p, hp, e⟩)

theorem mem_keys_iff (m : SMap K V) (k : K) : k ∈ m.keys ↔ ∃ v, m.get? k = some v := by
  constructor
  · intro h
    cases hg : m.get? k with
    | none => exact absurd h ((m.get?_eq_none_iff k).1 hg)
    | some v => exact ⟨v, rfl⟩
  · rintro ⟨v, hv⟩
    by_contra h
    rw [(m.get?_eq_none_iff k).2 h] at hv
    cases hv

theorem contains_iff (m : SMap K V) (k : K) : m.contains k = true ↔ ∃ v, m.get? k = some v := by
  simp [contains, Option.isSome_iff_exists]

theorem contains_iff_mem (m : SMap K V) (k : K) : m.contains k = true ↔ k ∈ m.keys := by
  rw [contains_iff, mem_keys_iff]

theorem contains_eq_false (m : SMap K V) (k : K) : m.contains k = false ↔ m.get? k = none := by
  simp [contains]

theorem contains_of_get? {m : SMap K V} {k : K} {v : V} (h : m.get? k = some v) :
    m.contains k = true := (m.contains_iff k).2 ⟨v, h⟩

theorem list_ext_of_getL {a b : List (K × V)} (ha : a.Pairwise (fun a b => a.1 < b.1))
    (hb : b.Pairwise (fun a b => a.1 < b.1)) (h : ∀ k, getL a k = getL b k) : a = b := by
  induction a generalizing b with
  | nil =>
    cases b with
    | nil => rfl
    | cons q t =>
      have := h q.1
      rw [getL_cons] at this
      simp at this
  | cons p s ih =>
    cases b with
    | nil =>
      have := h p.1
      rw [getL_cons] at this
      simp at this
    | cons q t =>
      rw [List.pairwise_cons] at ha hb
      have hpq : p.1 = q.1 := by
        rcases lt_trichotomy p.1 q.1 with hlt | heq | hlt
        · have h1 := h p.1
          rw [getL_cons, if_pos rfl, getL_cons, if_neg (ne_of_gt hlt),
            getL_eq_none (fun x hx => ne_of_gt (lt_trans hlt (hb.1 x hx)))] at h1
          cases h1
        · exact heq
        · have h1 := h q.1
          rw [getL_cons, if_neg (ne_of_gt hlt), getL_cons, if_pos rfl,
            getL_eq_none (fun x hx => ne_of_gt (lt_trans hlt (ha.1 x hx)))] at h1
          cases h1
      have hv : p.2 = q.2 := by
        have h1 := h p.1
        rw [getL_cons, if_pos rfl, getL_cons, if_pos hpq.symm] at h1
        exact Option.some.inj h1
      have hpq' : p = q := Prod.ext hpq hv
      subst hpq'
      congr 1
      apply ih ha.2 hb.2
      intro k
      by_cases hk : p.1 = k
      · subst hk
        rw [getL_eq_none (fun x hx => ne_of_gt (ha.1 x hx)),
          getL_eq_none (fun x hx => ne_of_gt (hb.1 x hx))]
      · have h1 := h k
        rwa [getL_cons, if_neg hk, getL_cons, if_neg hk] at h1

@[ext] theorem ext {a b : SMap K V} (h : ∀ k, a.get? k = b.get? k) : a = b :=
  items_inj (list_ext_of_getL a.sorted b.sorted h)

@[simp] theorem get?_empty (k : K) : (empty : SMap K V).get? k = none := rfl
@[simp] theorem contains_empty (k : K) : (empty : SMap K V).contains k = false := rfl
@[simp] theorem len_empty : (empty : SMap K V).len = 0 := rfl
@[simp] theorem keys_empty : (empty : SMap K V).keys = [] := rfl

theorem getL_setL {l : List (K × V)} (hs : l.Pairwise (fun a b => a.1 < b.1)) (k k' : K) (v : V) :
    getL (setL k v l) k' = if k' = k then some v else getL l k' := by
  induction l with
  | nil =>
    rw [setL, getL_cons]
    by_cases h : k' = k
    · subst h; simp
    · simp [h, Ne.symm h]
  | cons p t ih =>
    rw [List.pairwise_cons] at hs
    unfold setL
    split
    · rw [getL_cons]
      by_cases h : k' = k
      · subst h; simp
      · simp [h, Ne.symm h]
    · split
      · rename_i heq
        rw [getL_cons, getL_cons]
        by_cases h : k' = k
        · subst h; simp
        · have : p.1 ≠ k' := by rw [← heq]; exact Ne.symm h
          simp [h, Ne.symm h, this]
      · rename_i hnlt hne
        rw [getL_cons, getL_cons, ih hs.2]
        by_cases h : k' = k
        · subst h; simp [Ne.symm hne]
        · simp [h]

theorem get?_set (m : SMap K V) (k k' : K) (v : V) :
    (m.set k v).get? k' = if k' = k then some v else m.get? k' := getL_setL m.sorted k k' v

@[simp] theorem get?_set_self (m : SMap K V) (k : K) (v : V) : (m.set k v).get? k = some v := by
  simp [get?_set]

theorem get?_set_ne (m : SMap K V) {k k' : K} (h : k' ≠ k) (v : V) :
    (m.set k v).get? k' = m.get? k' := by simp [get?_set, h]

theorem contains_set (m : SMap K V) (k k' : K) (v : V) :
    (m.set k v).contains k' = (decide (k' = k) || m.contains k') := by
  unfold contains; rw [get?_set]; by_cases h : k' = k <;> simp [h]

theorem get?_filter (m : SMap K V) (f : K × V → Bool) (k : K) :
    (m.filter f).get? k = (m.get? k).filter (fun v => f (k, v)) := by
  cases hg : m.get? k with
  | none =>
    rw [get?_eq_none_iff] at hg
    show (m.filter f).get? k = none
    rw [get?_eq_none_iff]
    intro hk
    obtain ⟨p, hp, rfl⟩ := List.mem_map.1 hk
    exact hg (List.mem_map.2 ⟨p, (List.mem_filter.1 hp).1, rfl⟩)
  | some v =>
    have hm := (m.get?_eq_some_iff k v).1 hg
    by_cases hf : f (k, v)
    · rw [(get?_eq_some_iff _ k v).2]
      · simp [Option.filter, hf]
      · exact List.mem_filter.2 ⟨hm, hf⟩
    · have : (m.filter f).get? k = none := by
        rw [get?_eq_none_iff]
        intro hk
        obtain ⟨p, hp, rfl⟩ := List.mem_map.1 hk
        have h1 := List.mem_filter.1 hp
        have h2 := (m.get?_eq_some_iff p.1 p.2).2 h1.1
        rw [hg] at h2
        cases h2
        exact hf h1.2
      rw [this]
      simp [Option.filter, hf]

theorem get?_del (m : SMap K V) (k k' : K) :
    (m.del k).get? k' = if k' = k then none else m.get? k' := by
  have : m.del k = m.filter (fun p => decide (p.1 ≠ k)) := rfl
  rw [this, get?_filter]
  by_cases h : k' = k
  · subst h; cases m.get? k' <;> simp [Option.filter]
  · cases m.get? k' <;> simp [Option.filter, h]

@[simp] theorem get?_del_self (m : SMap K V) (k : K) : (m.del k).get? k = none := by
  simp [get?_del]

theorem get?_del_ne (m : SMap K V) {k k' : K} (h : k' ≠ k) :
    (m.del k).get? k' = m.get? k' := by simp [get?_del, h]

theorem contains_del (m : SMap K V) (k k' : K) :
    (m.del k).contains k' = (!decide (k' = k) && m.contains k') := by
  unfold contains; rw [get?_del]; by_cases h : k' = k <;> simp [h]

theorem del_of_not_contains {m : SMap K V} {k : K} (h : m.get? k = none) : m.del k = m := by
  ext k' : 1
  rw [get?_del]
  split
  · rename_i e; rw [e, h]
  · rfl

theorem get?_mapVals (m : SMap K V) (f : K → V → W) (k : K) :
    (m.mapVals f).get? k = (m.get? k).map (f k) := by
  show getL (m.items.map _) k = (getL m.items k).map (f k)
  induction m.items with
  | nil => rfl
  | cons p t ih =>
    rw [List.map_cons, getL_cons, getL_cons]
    by_cases h : p.1 = k
    · simp [h]
    · simp [h, ih]

@[simp] theorem keys_mapVals (m : SMap K V) (f : K → V → W) : (m.mapVals f).keys = m.keys := by
  simp [keys, mapVals, Function.comp_def]

@[simp] theorem len_mapVals (m : SMap K V) (f : K → V → W) : (m.mapVals f).len = m.len := by
  simp [len, mapVals]

/-! ### size -/

theorem isEmpty_iff (m : SMap K V) : m.isEmpty = true ↔ ∀ k, m.get? k = none := by
  constructor
  · intro h k
    have : m.items = [] := by simpa [isEmpty] using h
    show getL m.items k = none
    rw [this]; rfl
  · intro h
    have : m = empty := by ext k : 1; simp [h]
    subst this; rfl

theorem isEmpty_eq_false_iff (m : SMap K V) : m.isEmpty = false ↔ ∃ k v, m.get? k = some v := by
  constructor
  · intro h
    by_contra hc
    have : m.isEmpty = true := by
      rw [isEmpty_iff]
      intro k
      cases hg : m.get? k with
      | none => rfl
      | some v => exact absurd ⟨k, v, hg⟩ hc
    simp [this] at h
  · rintro ⟨k, v, h⟩
    cases he : m.isEmpty with
    | false => rfl
    | true => rw [(m.isEmpty_iff).1 he k] at h; cases h

theorem isEmpty_iff_eq (m : SMap K V) : m.isEmpty = true ↔ m = empty := by
  rw [isEmpty_iff]
  constructor
  · intro h; ext k : 1; simp [h]
  · rintro rfl k; rfl

theorem isEmpty_iff_len (m : SMap K V) : m.isEmpty = true ↔ m.len = 0 := by
  simp [isEmpty, len]

theorem length_setL (k : K) (v : V) {l : List (K × V)} (hs : l.Pairwise (fun a b => a.1 < b.1)) :
    (setL k v l).length = if (getL l k).isSome then l.length else l.length + 1 := by
  induction l with
  | nil => simp [setL]
  | cons p t ih =>
    rw [List.pairwise_cons] at hs
    unfold setL
    rw [getL_cons]
    split
    · rename_i hlt
      have hn : getL t k = none := getL_eq_none (fun x hx => ne_of_gt (lt_trans hlt (hs.1 x hx)))
      simp [ne_of_gt hlt, hn]
    · split
      · rename_i heq; simp [heq]
      · rename_i hnlt hne
        rw [List.length_cons, ih hs.2, if_neg (Ne.symm hne)]
        split <;> simp

theorem len_set (m : SMap K V) (k : K) (v : V) :
    (m.set k v).len = if m.contains k then m.len else m.len + 1 := length_setL k v m.sorted

theorem keys_del (m : SMap K V) (k : K) : (m.del k).keys = m.keys.filter (fun x => decide (x ≠ k)) := by
  simp [keys, del, List.filter_map, Function.comp_def]

theorem len_del (m : SMap K V) (k : K) :
    (m.del k).len = if m.contains k then m.len - 1 else m.len := by
  by_cases h : m.contains k
  · rw [if_pos h]
    obtain ⟨v, hv⟩ := (m.contains_iff k).1 h
    have h2 : ((m.del k).set k v).len = m.len := by
      congr 1
      ext k' : 1
      rw [get?_set]
      split
      · rename_i e; rw [e, hv]
      · rename_i e; rw [get?_del_ne _ e]
    rw [len_set] at h2
    simp [contains_del] at h2
    omega
  · rw [if_neg h]
    rw [del_of_not_contains]
    simpa [contains] using h

theorem len_eq_of_keys_iff {A B : Type} {a : SMap K A} {b : SMap K B}
    (h : ∀ k, k ∈ a.keys ↔ k ∈ b.keys) : a.len = b.len := by
  rw [← len_keys, ← len_keys]
  exact ((List.perm_ext_iff_of_nodup a.keys_nodup b.keys_nodup).2 h).length_eq

theorem keys_eq_of_iff {A B : Type} {a : SMap K A} {b : SMap K B}
    (h : ∀ k, k ∈ a.keys ↔ k ∈ b.keys) : a.keys = b.keys := by
  have e : a.mapVals (fun _ _ => ()) = b.mapVals (fun _ _ => ()) := by
    ext k : 1
    rw [get?_mapVals, get?_mapVals]
    have := h k
    rw [mem_keys_iff, mem_keys_iff] at this
    cases ha : a.get? k <;> cases hb : b.get? k <;> simp_all
  calc a.keys = (a.mapVals (fun _ _ => ())).keys := by simp
    _ = (b.mapVals (fun _ _ => ())).keys := by rw [e]
    _ = b.keys := by simp

/-! ### build, ofList -/

theorem get?_foldl_build (ks : List K) (f : K → Option V) (m : SMap K V) (k : K) :
    (ks.foldl (buildStep f) m).get? k
      = if k ∈ ks ∧ (f k).isSome then f k else m.get? k := by
  induction ks generalizing m with
  | nil => simp
  | cons a t ih =>
    rw [List.foldl_cons, ih]
    by_cases hk : k ∈ t ∧ (f k).isSome
    · rw [if_pos hk, if_pos ⟨by simp [hk.1], hk.2⟩]
    · rw [if_neg hk]
      by_cases ha : k = a
      · subst ha
        cases hf : f k with
        | none => simp [buildStep, hf]
        | some v => simp [buildStep, hf]
      · have : ¬ (k ∈ a :: t ∧ (f k).isSome) := by
          rintro ⟨h1, h2⟩
          rcases List.mem_cons.1 h1 with h1 | h1
          · exact ha h1
          · exact hk ⟨h1, h2⟩
        rw [if_neg this]
        cases hf : f a with
        | none => simp [buildStep, hf]
        | some v => simp [buildStep, hf, get?_set_ne _ ha]

theorem get?_build (ks : List K) (f : K → Option V) (k : K) :
    (build ks f).get? k = if k ∈ ks then f k else none := by
  unfold build
  rw [get?_foldl_build]
  by_cases h : k ∈ ks
  · cases hf : f k <;> simp [h]
  · simp [h]

/-! ### sets -/

end SMap

namespace SSet
open SMap
variable {K : Type} [LinearOrder K]

theorem get?_unit (s : SSet K) (k : K) : s.get? k = some () ↔ k ∈ s.keys := by
  rw [SMap.mem_keys_iff]
  constructor
  · intro h; exact ⟨(), h⟩
  · rintro ⟨⟨⟩, h⟩; exact h

theorem ext_mem {a b : SSet K} (h : ∀ k, k ∈ a.keys ↔ k ∈ b.keys) : a = b := by
  apply SMap.ext
  intro k
  have := h k
  rw [← get?_unit, ← get?_unit] at this
  cases ha : SMap.get? a k <;> cases hb : SMap.get? b k <;> simp_all

@[simp] theorem mem_keys_insert (s : SSet K) (a k : K) : k ∈ (insert s a).keys ↔ k = a ∨ k ∈ s.keys := by
  rw [← get?_unit, ← get?_unit, insert, SMap.get?_set]
  by_cases h : k = a <;> simp [h]

theorem mem_keys_foldl_insert (l : List K) (s : SSet K) (k : K) :
    k ∈ (l.foldl insert s).keys ↔ k ∈ l ∨ k ∈ s.keys := by
  induction l generalizing s with
  | nil => simp
  | cons a t ih =>
    rw [List.foldl_cons, ih, mem_keys_insert, List.mem_cons]
    constructor
    · rintro (h | h | h)
      · exact Or.inl (Or.inr h)
      · exact Or.inl (Or.inl h)
      · exact Or.inr h
    · rintro ((h | h) | h)
      · exact Or.inr (Or.inl h)
      · exact Or.inl h
      · exact Or.inr (Or.inr h)

@[simp] theorem mem_keys_ofList (l : List K) (k : K) : k ∈ (ofList l).keys ↔ k ∈ l := by
  rw [ofList, mem_keys_foldl_insert]; simp

theorem mem_keys_filter (s : SSet K) (f : K × Unit → Bool) (k : K) :
    k ∈ (SMap.filter s f).keys ↔ k ∈ s.keys ∧ f (k, ()) = true := by
  rw [← get?_unit, ← get?_unit, SMap.get?_filter]
  cases SMap.get? s k with
  | none => simp
  | some v => cases v; simp [Option.filter]

@[simp] theorem mem_keys_inter (a b : SSet K) (k : K) :
    k ∈ (inter a b).keys ↔ k ∈ a.keys ∧ k ∈ b.keys := by
  rw [inter, mem_keys_filter, SMap.contains_iff_mem]

@[simp] theorem mem_keys_diff (a b : SSet K) (k : K) :
    k ∈ (diff a b).keys ↔ k ∈ a.keys ∧ k ∉ b.keys := by
  rw [diff, mem_keys_filter]
  simp only [Bool.not_eq_true', ← SMap.contains_iff_mem, Bool.not_eq_true]

theorem mem_keys_del (s : SSet K) (a k : K) : k ∈ (SMap.del s a).keys ↔ k ∈ s.keys ∧ k ≠ a := by
  rw [SMap.keys_del]; simp

theorem mem_keys_multiunion (l : List (SSet K)) (k : K) :
    k ∈ (multiunion l).keys ↔ ∃ s ∈ l, k ∈ s.keys := by
  have : ∀ (acc : SSet K), k ∈ (l.foldl (fun acc s => s.keys.foldl insert acc) acc).keys ↔
      (∃ s ∈ l, k ∈ s.keys) ∨ k ∈ acc.keys := by
    induction l with
    | nil => simp
    | cons a t ih =>
      intro acc
      rw [List.foldl_cons, ih, mem_keys_foldl_insert]
      simp only [List.mem_cons, exists_eq_or_imp]
      constructor
      · rintro (h | h | h)
        · exact Or.inl (Or.inr h)
        · exact Or.inl (Or.inl h)
        · exact Or.inr h
      · rintro ((h | h) | h)
        · exact Or.inr (Or.inl h)
        · exact Or.inl h
        · exact Or.inr (Or.inr h)
  rw [multiunion, this]; simp

theorem contains_insert (s : SSet K) (a k : K) :
    SMap.contains (insert s a) k = (decide (k = a) || s.contains k) := SMap.contains_set _ _ _ _

theorem isEmpty_iff_keys {V : Type} (s : SMap K V) : s.isEmpty = true ↔ ∀ k, k ∉ s.keys := by
  rw [SMap.isEmpty_iff]
  constructor
  · intro h k; rw [← SMap.get?_eq_none_iff]; exact h k
  · intro h k; rw [SMap.get?_eq_none_iff]; exact h k

end SSet
end Verif
