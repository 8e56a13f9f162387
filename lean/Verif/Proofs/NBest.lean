import Verif.Model.NBest
import Mathlib.Data.List.Basic
import Mathlib.Data.List.InsertIdx
import Mathlib.Order.Lattice

/-! Lemmas about `Verif.Model.NBest`. -/

set_option autoImplicit false

namespace Verif

variable {ι S : Type} [LinearOrder S]

/-! ### bisect_left -/

theorem bisectLoop_spec (a : List S) (x : S) (hs : a.Pairwise (· ≤ ·)) :
    ∀ (fuel lo hi : Nat), lo ≤ hi → hi ≤ a.length → hi - lo ≤ fuel →
      (∀ i (h : i < a.length), i < lo → a[i] < x) →
      (∀ i (h : i < a.length), hi ≤ i → ¬ a[i] < x) →
      let r := (bisectLoop a x fuel lo hi).1
      r ≤ a.length ∧ (∀ i (h : i < a.length), i < r → a[i] < x) ∧
        (∀ i (h : i < a.length), r ≤ i → ¬ a[i] < x) := by
  intro fuel
  induction fuel with
  | zero =>
    intro lo hi h1 h2 h3 hlo hhi
    have : lo = hi := by omega
    subst this
    exact ⟨h2, hlo, hhi⟩
  | succ fuel ih =>
    intro lo hi h1 h2 h3 hlo hhi
    unfold bisectLoop
    by_cases hlt : lo < hi
    · rw [if_pos hlt]
      have hmid : (lo + hi) / 2 < a.length := by omega
      simp only [List.getElem?_eq_getElem hmid]
      by_cases hy : a[(lo + hi) / 2] < x
      · rw [if_pos hy]
        apply ih
        · omega
        · exact h2
        · omega
        · intro i h hi'
          by_cases he : i = (lo + hi) / 2
          · subst he; exact hy
          · have hi2 : i < (lo + hi) / 2 := by omega
            have := List.pairwise_iff_getElem.1 hs i ((lo + hi) / 2) h hmid hi2
            exact lt_of_le_of_lt this hy
        · exact hhi
      · rw [if_neg hy]
        apply ih
        · omega
        · omega
        · omega
        · exact hlo
        · intro i h hi' hc
          apply hy
          by_cases he : i = (lo + hi) / 2
          · subst he; exact hc
          · have hi2 : (lo + hi) / 2 < i := by omega
            have := List.pairwise_iff_getElem.1 hs ((lo + hi) / 2) i hmid h hi2
            exact lt_of_le_of_lt this hc
    · rw [if_neg hlt]
      have : lo = hi := by omega
      subst this
      exact ⟨h2, hlo, hhi⟩

theorem bisectLeft_spec (a : List S) (x : S) (hs : a.Pairwise (· ≤ ·)) :
    (bisectLeft a x).1 ≤ a.length ∧ (∀ i (h : i < a.length), i < (bisectLeft a x).1 → a[i] < x) ∧
      (∀ i (h : i < a.length), (bisectLeft a x).1 ≤ i → ¬ a[i] < x) := by
  apply bisectLoop_spec a x hs
  · omega
  · omega
  · omega
  · intro i h h'; omega
  · intro i h h'; omega

theorem take_eq_filter {α : Type} (f : α → Bool) (a : List α) (r : Nat) (hr : r ≤ a.length)
    (h1 : ∀ i (h : i < a.length), i < r → f a[i] = true)
    (h2 : ∀ i (h : i < a.length), r ≤ i → f a[i] = false) :
    a.take r = a.filter f ∧ a.drop r = a.filter (fun x => !f x) := by
  have e1 : (a.take r).filter f = a.take r := by
    rw [List.filter_eq_self]
    intro x hx
    obtain ⟨i, hi, rfl⟩ := List.getElem_of_mem hx
    simp only [List.getElem_take]
    apply h1
    simp at hi; omega
  have e2 : (a.drop r).filter f = [] := by
    rw [List.filter_eq_nil_iff]
    intro x hx
    obtain ⟨i, hi, rfl⟩ := List.getElem_of_mem hx
    simp only [List.getElem_drop]
    simp at hi
    rw [h2 _ _ (by omega)]
    simp
  have e3 : (a.take r).filter (fun x => !f x) = [] := by
    rw [List.filter_eq_nil_iff]
    intro x hx
    have := List.filter_eq_self.1 e1 x hx
    simp [this]
  have e4 : (a.drop r).filter (fun x => !f x) = a.drop r := by
    rw [List.filter_eq_self]
    intro x hx
    have := List.filter_eq_nil_iff.1 e2 x hx
    simpa using this
  constructor
  · conv_rhs => rw [← List.take_append_drop r a]
    rw [List.filter_append, e1, e2, List.append_nil]
  · conv_rhs => rw [← List.take_append_drop r a]
    rw [List.filter_append, e3, e4, List.nil_append]

theorem insertIdx_eq {α : Type} (a : List α) (r : Nat) (x : α) (hr : r ≤ a.length) :
    a.insertIdx r x = a.take r ++ x :: a.drop r := by
  induction r generalizing a with
  | zero => simp
  | succ r ih =>
    cases a with
    | nil => simp at hr
    | cons y t =>
      rw [List.insertIdx_succ_cons, ih _ (by simpa using hr)]
      simp

/-- number of comparisons of bisect -/
theorem bisectLoop_cmps (a : List S) (x : S) : ∀ (fuel lo hi : Nat),
    (bisectLoop a x fuel lo hi).2 ≤ if lo < hi then Nat.log2 (hi - lo) + 1 else 0 := by
  intro fuel
  induction fuel with
  | zero => intro lo hi; simp [bisectLoop]
  | succ fuel ih =>
    intro lo hi
    unfold bisectLoop
    by_cases hlt : lo < hi
    · rw [if_pos hlt, if_pos hlt]
      cases hg : a[(lo + hi) / 2]? with
      | none => dsimp only; rw [hg]; simp
      | some y =>
        have hkey : ∀ m, m ≤ (hi - lo) / 2 → 0 < m → Nat.log2 m + 1 ≤ Nat.log2 (hi - lo) := by
          intro m hm hpos
          have h2 : 2 ≤ hi - lo := by omega
          have : Nat.log2 (hi - lo) = Nat.log2 ((hi - lo) / 2) + 1 := by
            rw [Nat.log2_def, if_pos h2]
          rw [this]
          have h3 : Nat.log2 m ≤ Nat.log2 ((hi - lo) / 2) := by
            by_contra hc
            have h4 : Nat.log2 ((hi - lo) / 2) + 1 ≤ Nat.log2 m := by omega
            have h5 : 2 ^ (Nat.log2 ((hi - lo) / 2) + 1) ≤ m := by
              calc 2 ^ (Nat.log2 ((hi - lo) / 2) + 1) ≤ 2 ^ Nat.log2 m :=
                    Nat.pow_le_pow_right (by omega) h4
                _ ≤ m := Nat.log2_self_le (by omega)
            have h6 := @Nat.lt_log2_self ((hi - lo) / 2)
            omega
          omega
        by_cases hy : y < x
        · dsimp only; rw [hg]; simp only [if_pos hy]
          have := ih ((lo + hi) / 2 + 1) hi
          split at this
          · rename_i h'
            have := hkey (hi - ((lo + hi) / 2 + 1)) (by omega) (by omega)
            omega
          · omega
        · dsimp only; rw [hg]; simp only [if_neg hy]
          have := ih lo ((lo + hi) / 2)
          split at this
          · rename_i h'
            have := hkey ((lo + hi) / 2 - lo) (by omega) (by omega)
            omega
          · omega
    · rw [if_neg hlt, if_neg hlt]

theorem bisectLeft_cmps (a : List S) (x : S) :
    (bisectLeft a x).2 ≤ if 0 < a.length then Nat.log2 a.length + 1 else 0 := by
  have := bisectLoop_cmps a x a.length 0 a.length
  simpa [bisectLeft] using this

/-- exactly one score below `x`: the search goes left until one candidate is left -/
theorem bisectLoop_one (a : List S) (x : S) (h0 : ∀ y, a[0]? = some y → y < x)
    (h1 : ∀ i y, 1 ≤ i → a[i]? = some y → x ≤ y) : ∀ (fuel hi : Nat), 1 ≤ hi → hi ≤ a.length → hi ≤ fuel →
      (bisectLoop a x fuel 0 hi).2 = Nat.log2 hi + 1 := by
  intro fuel
  induction fuel with
  | zero => intro hi h _ h'; omega
  | succ fuel ih =>
    intro hi hp hl hf
    unfold bisectLoop
    rw [if_pos (by omega)]
    have hm : (0 + hi) / 2 < a.length := by omega
    simp only [List.getElem?_eq_getElem hm]
    by_cases h : hi = 1
    · subst h
      have := h0 a[(0 + 1) / 2] (by simp)
      rw [if_pos this]
      cases fuel <;> simp [bisectLoop] <;> rfl
    · have := h1 ((0 + hi) / 2) a[(0 + hi) / 2] (by omega) (List.getElem?_eq_getElem hm)
      rw [if_neg (not_lt.2 this), ih _ (by omega) (by omega) (by omega)]
      rw [Nat.log2_def hi, if_pos (by omega), Nat.zero_add]

namespace NBest

/-- the invariant of reachable objects -/
structure Inv (b : NBest ι S) : Prop where
  cap : 1 ≤ b.capacity
  len : b.items.length = b.scores.length
  le : b.scores.length ≤ b.capacity
  sorted : b.scores.Pairwise (· ≤ ·)

/-- the pairs held, smallest score first -/
def pairs (b : NBest ι S) : List (ι × S) := List.zip b.items b.scores

/-- insertion before the entries with score at least `p.2` -/
def insAsc (p : ι × S) (A : List (ι × S)) : List (ι × S) :=
  A.filter (fun q => decide (q.2 < p.2)) ++ p :: A.filter (fun q => !decide (q.2 < p.2))

theorem zip_map_snd (is : List ι) (ss : List S) (h : is.length = ss.length) :
    (List.zip is ss).map (·.2) = ss := by
  have : (List.zip is ss).map Prod.snd = ss := List.map_snd_zip (by omega)
  exact this

theorem zip_map_fst (is : List ι) (ss : List S) (h : is.length = ss.length) :
    (List.zip is ss).map (·.1) = is := by
  have : (List.zip is ss).map Prod.fst = is := List.map_fst_zip (by omega)
  exact this

/-- the pair list determines an object of given capacity -/
theorem eq_of_pairs {b c : NBest ι S} (hb : b.items.length = b.scores.length)
    (hc : c.items.length = c.scores.length) (hcap : b.capacity = c.capacity)
    (h : b.pairs = c.pairs) : b = c := by
  have h1 := zip_map_snd b.items b.scores hb
  have h2 := zip_map_snd c.items c.scores hc
  have h3 := zip_map_fst b.items b.scores hb
  have h4 := zip_map_fst c.items c.scores hc
  unfold pairs at h
  rw [h] at h1 h3
  cases b; cases c
  simp_all

/-- `bisect_left` followed by the two inserts is `insAsc` on the pairs -/
theorem zip_insert (is : List ι) (ss : List S) (h : is.length = ss.length)
    (hs : ss.Pairwise (· ≤ ·)) (p : ι × S) :
    List.zip (is.insertIdx (bisectLeft ss p.2).1 p.1) (ss.insertIdx (bisectLeft ss p.2).1 p.2)
      = insAsc p (List.zip is ss) := by
  obtain ⟨hr, h1, h2⟩ := bisectLeft_spec ss p.2 hs
  rw [insertIdx_eq _ _ _ (by omega), insertIdx_eq _ _ _ hr]
  have hz : (List.zip is ss).length = ss.length := by simp [h]
  have := take_eq_filter (fun q : ι × S => decide (q.2 < p.2)) (List.zip is ss)
    (bisectLeft ss p.2).1 (by omega)
    (by intro i hi hlt; simp only [List.getElem_zip]; simpa using h1 i (by omega) hlt)
    (by intro i hi hlt; simp only [List.getElem_zip]; simpa using h2 i (by omega) hlt)
  unfold insAsc
  rw [← this.1, ← this.2, List.zip_append (by simp [h])]
  simp [List.zip, List.take_zipWith, List.drop_zipWith]

theorem insert_length_scores (ss : List S) (x : S) (hs : ss.Pairwise (· ≤ ·)) :
    (ss.insertIdx (bisectLeft ss x).1 x).length = ss.length + 1 := by
  rw [List.length_insertIdx_of_le_length (bisectLeft_spec ss x hs).1]

theorem sorted_insAsc {p : ι × S} {A : List (ι × S)} (h : A.Pairwise (fun a b => a.2 ≤ b.2)) :
    (insAsc p A).Pairwise (fun a b => a.2 ≤ b.2) := by
  unfold insAsc
  rw [List.pairwise_append]
  refine ⟨h.filter _, List.pairwise_cons.2 ⟨?_, h.filter _⟩, ?_⟩
  · intro a ha
    have := (List.mem_filter.1 ha).2
    simpa using this
  · intro a ha b hb
    have ha := (List.mem_filter.1 ha).2
    simp only [decide_eq_true_eq] at ha
    rcases List.mem_cons.1 hb with rfl | hb
    · exact le_of_lt ha
    · have hb := (List.mem_filter.1 hb).2
      simp only [Bool.not_eq_true', decide_eq_false_iff_not, not_lt] at hb
      exact le_trans (le_of_lt ha) hb

theorem sorted_pairs_iff (is : List ι) (ss : List S) (h : is.length = ss.length) :
    (List.zip is ss).Pairwise (fun a b => a.2 ≤ b.2) ↔ ss.Pairwise (· ≤ ·) := by
  conv_rhs => rw [← zip_map_snd is ss h]
  rw [List.pairwise_map]

/-- loop invariant -/
structure LInv (cap : Nat) (st : LoopSt ι S) : Prop where
  pos : 1 ≤ cap
  len : st.items.length = st.scores.length
  n : st.n = st.scores.length
  le : st.scores.length ≤ cap
  sorted : st.scores.Pairwise (· ≤ ·)

/-- one addition, on the pairs -/
def addPairs (cap : Nat) (A : List (ι × S)) (p : ι × S) : List (ι × S) :=
  if A.length < cap then insAsc p A else (insAsc p A).drop 1

theorem loopStep_ok {cap : Nat} {st : LoopSt ι S} (hi : LInv cap st) (p : ι × S) :
    ∃ st', loopStep cap st p = .ok st' ∧ LInv cap st' ∧
      List.zip st'.items st'.scores = addPairs cap (List.zip st.items st.scores) p ∧
      st'.cmps ≤ st.cmps + (Nat.log2 cap + 2) := by
  obtain ⟨scores, items, n, cmps⟩ := st
  obtain ⟨hcap, hlen, hn, hle, hs⟩ := hi
  simp only at hlen hn hle hs ⊢
  subst hn
  have hz : (List.zip items scores).length = scores.length := by simp [hlen]
  have hzs := (sorted_pairs_iff items scores hlen).2 hs
  have hins := zip_insert items scores hlen hs p
  have hl1 := insert_length_scores scores p.2 hs
  have hl2 : (items.insertIdx (bisectLeft scores p.2).1 p.1).length = items.length + 1 := by
    rw [List.length_insertIdx_of_le_length]
    have := (bisectLeft_spec scores p.2 hs).1
    omega
  have hs' : (scores.insertIdx (bisectLeft scores p.2).1 p.2).Pairwise (· ≤ ·) := by
    rw [← sorted_pairs_iff (items.insertIdx (bisectLeft scores p.2).1 p.1) _ (by omega), hins]
    exact sorted_insAsc hzs
  have hlog : (bisectLeft scores p.2).2 ≤ Nat.log2 cap + 1 := by
    have h1 := bisectLeft_cmps scores p.2
    split at h1
    · rename_i hpos
      have : Nat.log2 scores.length ≤ Nat.log2 cap := by
        rw [Nat.le_log2 (by omega)]
        exact le_trans (Nat.log2_self_le (by omega)) hle
      omega
    · omega
  by_cases hfull : scores.length ≥ cap
  · cases hsc : scores with
    | nil => subst hsc; simp at hfull; omega
    | cons s0 ss =>
      have hzc : ∃ q A, List.zip items scores = q :: A ∧ q.2 = s0 := by
        subst hsc
        cases items with
        | nil => simp at hlen
        | cons i is => exact ⟨(i, s0), List.zip is ss, rfl, rfl⟩
      have hlen' := hlen
      by_cases hskip : p.2 ≤ s0
      · refine ⟨_, by simp [loopStep, ← hsc, hfull]; simp [hsc, hskip]; rfl, ?_, ?_, ?_⟩
        · exact ⟨hcap, by rw [← hsc]; exact hlen, rfl, by rw [← hsc]; exact hle, by rw [← hsc]; exact hs⟩
        · simp only
          rw [← hsc]
          unfold addPairs
          rw [if_neg (by omega)]
          have : (List.zip items scores).filter (fun q => decide (q.2 < p.2)) = [] := by
            rw [List.filter_eq_nil_iff]
            obtain ⟨q, A, hqA, hq⟩ := hzc
            intro x hx
            rw [hqA] at hx hzs
            rw [List.pairwise_cons] at hzs
            simp only [decide_eq_true_eq, not_lt]
            rcases List.mem_cons.1 hx with rfl | hx
            · rw [hq]; exact hskip
            · exact le_trans hskip (hq ▸ hzs.1 x hx)
          have h2 : (List.zip items scores).filter (fun q => !decide (q.2 < p.2)) = List.zip items scores := by
            rw [List.filter_eq_self]
            intro x hx
            have := List.filter_eq_nil_iff.1 this x hx
            simpa using this
          unfold insAsc
          rw [this, h2]
          simp
        · simp only; omega
      · have hc : scores.length = cap := by omega
        refine ⟨{ scores := (scores.insertIdx (bisectLeft scores p.2).1 p.2).drop 1,
                  items := (items.insertIdx (bisectLeft scores p.2).1 p.1).drop 1,
                  n := scores.length,
                  cmps := cmps + 1 + (bisectLeft scores p.2).2 },
          by rw [← hsc]; simp [loopStep, hfull]; simp [hsc, hskip, ← hc]; rfl, ?_, ?_, ?_⟩
        · refine ⟨hcap, ?_, ?_, ?_, ?_⟩
          · simp only [List.length_drop]; omega
          · simp only [List.length_drop]; rw [hl1]; omega
          · simp only [List.length_drop]; omega
          · exact hs'.drop
        · simp only
          rw [← hsc]
          rw [show ∀ (a : List ι) (b : List S), List.zip (a.drop 1) (b.drop 1) = (List.zip a b).drop 1 from
            fun a b => by simp [List.zip, List.drop_zipWith], hins]
          unfold addPairs
          rw [if_neg (by omega)]
        · simp only
          omega
  · refine ⟨_, by simp [loopStep, hfull]; simp [show ¬ scores.length = cap by omega]; rfl, ?_, ?_, ?_⟩
    · refine ⟨hcap, ?_, ?_, ?_, hs'⟩
      · simp only; omega
      · simp only; omega
      · simp only; omega
    · simp only
      rw [hins]
      unfold addPairs
      rw [if_pos (by omega)]
    · simp only; omega

theorem loop_ok {cap : Nat} (seq : List (ι × S)) {st : LoopSt ι S} (hi : LInv cap st) :
    ∃ st', seq.foldlM (loopStep cap) st = .ok st' ∧ LInv cap st' ∧
      List.zip st'.items st'.scores = seq.foldl (addPairs cap) (List.zip st.items st.scores) ∧
      st'.cmps ≤ st.cmps + seq.length * (Nat.log2 cap + 2) := by
  induction seq generalizing st with
  | nil => exact ⟨st, rfl, hi, rfl, by simp⟩
  | cons p t ih =>
    obtain ⟨st1, h1, hi1, hz1, hc1⟩ := loopStep_ok hi p
    obtain ⟨st2, h2, hi2, hz2, hc2⟩ := ih hi1
    refine ⟨st2, ?_, hi2, ?_, ?_⟩
    · rw [List.foldlM_cons, h1]; exact h2
    · rw [hz2, hz1]; rfl
    · rw [List.length_cons, Nat.add_mul]; omega

theorem addmanyC_ok {b : NBest ι S} (hi : Inv b) (seq : List (ι × S)) :
    ∃ b' c, b.addmanyC seq = .ok (b', c) ∧ Inv b' ∧ b'.capacity = b.capacity ∧
      b'.pairs = seq.foldl (addPairs b.capacity) b.pairs ∧
      c ≤ seq.length * (Nat.log2 b.capacity + 2) := by
  have hl : LInv b.capacity ({ scores := b.scores, items := b.items, n := b.scores.length, cmps := 0 } : LoopSt ι S) :=
    ⟨hi.cap, hi.len, rfl, hi.le, hi.sorted⟩
  obtain ⟨st', h1, hi1, hz1, hc1⟩ := loop_ok seq hl
  refine ⟨{ b with scores := st'.scores, items := st'.items }, st'.cmps, ?_, ?_, rfl, hz1, ?_⟩
  · unfold addmanyC
    rw [h1]
    simp [bind, Except.bind, hi1.n]
    rfl
  · exact ⟨hi.cap, hi1.len, hi1.le, hi1.sorted⟩
  · simpa using hc1

theorem addmany_ok {b : NBest ι S} (hi : Inv b) (seq : List (ι × S)) :
    ∃ b', b.addmany seq = .ok b' ∧ Inv b' ∧ b'.capacity = b.capacity ∧
      b'.pairs = seq.foldl (addPairs b.capacity) b.pairs := by
  obtain ⟨b', c, h, hi', hc, hp, _⟩ := addmanyC_ok hi seq
  exact ⟨b', by unfold addmany; rw [h]; rfl, hi', hc, hp⟩

theorem add_ok {b : NBest ι S} (hi : Inv b) (i : ι) (s : S) :
    ∃ b', b.add i s = .ok b' ∧ Inv b' ∧ b'.capacity = b.capacity ∧
      b'.pairs = addPairs b.capacity b.pairs (i, s) := addmany_ok hi [(i, s)]

theorem pop_ok {b : NBest ι S} (hi : Inv b) {p : ι × S} {A : List (ι × S)} (h : b.pairs = p :: A) :
    ∃ b', b.popSmallest = .ok (p, b') ∧ Inv b' ∧ b'.capacity = b.capacity ∧ b'.pairs = A := by
  obtain ⟨cap, scores, items⟩ := b
  obtain ⟨hcap, hlen, hle, hs⟩ := hi
  simp only [pairs] at *
  cases scores with
  | nil => simp at h
  | cons s ss =>
    cases items with
    | nil => simp at h
    | cons i is =>
      simp only [List.zip_cons_cons, List.cons.injEq] at h
      obtain ⟨rfl, rfl⟩ := h
      rw [List.pairwise_cons] at hs
      refine ⟨_, rfl, ⟨hcap, ?_, ?_, hs.2⟩, rfl, rfl⟩
      · simpa using hlen
      · simp at hle; simp; omega

theorem pop_empty {b : NBest ι S} (hi : Inv b) (h : b.pairs = []) :
    b.popSmallest = .error .IndexError := by
  obtain ⟨cap, scores, items⟩ := b
  have hlen := hi.len
  simp only [pairs] at *
  cases scores with
  | nil => rfl
  | cons s ss =>
    cases items with
    | nil => rfl
    | cons i is => simp at h

theorem step_inv {b : NBest ι S} (hi : Inv b) (op : Op ι S) :
    Inv (b.step op) ∧ (b.step op).capacity = b.capacity := by
  cases op with
  | add i s =>
    obtain ⟨b', h, hi', hc, _⟩ := add_ok hi i s
    simp only [step, h]; exact ⟨hi', hc⟩
  | addmany l =>
    obtain ⟨b', h, hi', hc, _⟩ := addmany_ok hi l
    simp only [step, h]; exact ⟨hi', hc⟩
  | pop =>
    cases hp : b.pairs with
    | nil => simp only [step, pop_empty hi hp]; exact ⟨hi, trivial⟩
    | cons p A =>
      obtain ⟨b', h, hi', hc, _⟩ := pop_ok hi hp
      simp only [step, h]; exact ⟨hi', hc⟩

theorem init_inv {N : Nat} (hN : 1 ≤ N) : Inv ({ capacity := N, scores := [], items := [] } : NBest ι S) :=
  ⟨hN, rfl, by simp, List.Pairwise.nil⟩

theorem foldl_step_inv {b : NBest ι S} (hi : Inv b) (ops : List (Op ι S)) :
    Inv (ops.foldl step b) ∧ (ops.foldl step b).capacity = b.capacity := by
  induction ops generalizing b with
  | nil => exact ⟨hi, rfl⟩
  | cons op t ih =>
    have h1 := step_inv hi op
    have h2 := ih h1.1
    exact ⟨h2.1, h2.2.trans h1.2⟩

theorem run_inv {N : Nat} (hN : 1 ≤ N) (ops : List (Op ι S)) :
    Inv (run N ops) ∧ (run N ops).capacity = N := foldl_step_inv (init_inv hN) ops

theorem insAsc_length (p : ι × S) (A : List (ι × S)) : (insAsc p A).length = A.length + 1 := by
  unfold insAsc
  rw [List.length_append, List.length_cons]
  have := List.length_eq_length_filter_add (l := A) (fun q => decide (q.2 < p.2))
  omega

theorem insAsc_perm (p : ι × S) (A : List (ι × S)) : (insAsc p A).Perm (p :: A) := by
  unfold insAsc
  refine List.perm_middle.trans (List.Perm.cons _ ?_)
  exact List.filter_append_perm _ A

theorem pairs_length {b : NBest ι S} (hi : Inv b) : b.pairs.length = b.len := by
  simp [pairs, len, hi.len]

/-! ### the N best -/

/-- the reference: insert, keeping everything -/
def allAsc (seq : List (ι × S)) : List (ι × S) := seq.foldl (fun A p => insAsc p A) []

theorem allAsc_sorted (seq : List (ι × S)) : (allAsc seq).Pairwise (fun a b => a.2 ≤ b.2) := by
  unfold allAsc
  have : ∀ A : List (ι × S), A.Pairwise (fun a b => a.2 ≤ b.2) →
      (seq.foldl (fun A p => insAsc p A) A).Pairwise (fun a b => a.2 ≤ b.2) := by
    induction seq with
    | nil => intro A h; exact h
    | cons p t ih => intro A h; exact ih _ (sorted_insAsc h)
  exact this [] List.Pairwise.nil

theorem drop_insAsc_drop (p : ι × S) (A : List (ι × S)) (k : Nat)
    (h : A.Pairwise (fun a b => a.2 ≤ b.2)) :
    (insAsc p (A.drop k)).drop 1 = (insAsc p A).drop (k + 1) := by
  induction k generalizing A with
  | zero => simp
  | succ k ih =>
    cases A with
    | nil => simp [insAsc]
    | cons q t =>
      rw [List.pairwise_cons] at h
      rw [List.drop_succ_cons, ih t h.2]
      by_cases hq : q.2 < p.2
      · have : insAsc p (q :: t) = q :: insAsc p t := by simp [insAsc, hq]
        rw [this, List.drop_succ_cons]
      · have ht : t.filter (fun q => decide (q.2 < p.2)) = [] := by
          rw [List.filter_eq_nil_iff]
          intro x hx
          have := h.1 x hx
          simp only [decide_eq_true_eq, not_lt] at hq ⊢
          exact le_trans hq this
        have ht2 : t.filter (fun q => !decide (q.2 < p.2)) = t := by
          rw [List.filter_eq_self]
          intro x hx
          have := List.filter_eq_nil_iff.1 ht x hx
          simpa using this
        have e1 : insAsc p (q :: t) = p :: q :: t := by
          simp only [insAsc, List.filter_cons, hq, decide_false, ht, ht2]
          simp
        have e2 : insAsc p t = p :: t := by simp [insAsc, ht, ht2]
        rw [e1, e2]
        simp

theorem foldl_addPairs (cap : Nat) (seq : List (ι × S)) :
    seq.foldl (addPairs cap) [] = (allAsc seq).drop (seq.length - cap) := by
  have : ∀ (A : List (ι × S)), A.Pairwise (fun a b => a.2 ≤ b.2) → ∀ m, A.length = m →
      seq.foldl (addPairs cap) (A.drop (m - cap))
        = (seq.foldl (fun A p => insAsc p A) A).drop (m + seq.length - cap) := by
    induction seq with
    | nil => intro A hA m hm; simp
    | cons p t ih =>
      intro A hA m hm
      rw [List.foldl_cons, List.foldl_cons]
      have key : addPairs cap (A.drop (m - cap)) p = (insAsc p A).drop (m + 1 - cap) := by
        unfold addPairs
        rw [List.length_drop]
        by_cases h : m < cap
        · rw [if_pos (by omega)]
          rw [show m - cap = 0 by omega, show m + 1 - cap = 0 by omega]; simp
        · rw [if_neg (by omega), drop_insAsc_drop p A _ hA]
          congr 1; omega
      rw [key, ih (insAsc p A) (sorted_insAsc hA) (m + 1) (by rw [insAsc_length, hm])]
      congr 1
      simp; omega
  have h := this [] List.Pairwise.nil 0 rfl
  simpa [allAsc] using h

theorem allAsc_perm (seq : List (ι × S)) : (allAsc seq).Perm seq := by
  unfold allAsc
  have : ∀ A : List (ι × S), (seq.foldl (fun A p => insAsc p A) A).Perm (seq ++ A) := by
    induction seq with
    | nil => intro A; exact List.Perm.refl _
    | cons p t ih =>
      intro A
      refine (ih _).trans ?_
      refine (List.Perm.append_left t (insAsc_perm p A)).trans ?_
      exact List.perm_middle
  simpa using this []

theorem allAsc_stable (seq : List (ι × S)) (s : S) :
    (allAsc seq).reverse.filter (fun q => decide (q.2 = s)) = seq.filter (fun q => decide (q.2 = s)) := by
  unfold allAsc
  have key : ∀ (p : ι × S) (A : List (ι × S)),
      (insAsc p A).reverse.filter (fun q => decide (q.2 = s)) =
        A.reverse.filter (fun q => decide (q.2 = s)) ++ [p].filter (fun q => decide (q.2 = s)) := by
    intro p A
    unfold insAsc
    simp only [List.reverse_append, List.reverse_cons, List.filter_append]
    by_cases hp : p.2 = s
    · have e1 : ((A.filter (fun q => decide (q.2 < p.2))).reverse).filter (fun q => decide (q.2 = s)) = [] := by
        rw [List.filter_eq_nil_iff]
        intro x hx
        have := (List.mem_filter.1 (List.mem_reverse.1 hx)).2
        simp only [decide_eq_true_eq] at this ⊢
        rw [← hp]; exact ne_of_lt this
      have e2 : (A.filter (fun q => !decide (q.2 < p.2))).reverse.filter (fun q => decide (q.2 = s))
          = A.reverse.filter (fun q => decide (q.2 = s)) := by
        rw [List.filter_reverse, List.filter_reverse, List.filter_filter]
        congr 1
        apply List.filter_congr
        intro x hx
        by_cases hx2 : x.2 = s
        · simp [hx2, hp]
        · simp [hx2]
      rw [e1, e2]; simp
    · have e2 : A.reverse.filter (fun q => decide (q.2 = s)) =
          (A.filter (fun q => !decide (q.2 < p.2))).reverse.filter (fun q => decide (q.2 = s)) ++
          (A.filter (fun q => decide (q.2 < p.2))).reverse.filter (fun q => decide (q.2 = s)) := by
        simp only [List.filter_reverse, List.filter_filter]
        rcases lt_or_ge s p.2 with hlt | hge
        · have h1 : A.filter (fun a => decide (a.2 = s) && !decide (a.2 < p.2)) = [] := by
            rw [List.filter_eq_nil_iff]
            intro x hx
            by_cases h : x.2 = s <;> simp [h, hlt]
          have h2 : A.filter (fun a => decide (a.2 = s) && decide (a.2 < p.2)) = A.filter (fun a => decide (a.2 = s)) := by
            apply List.filter_congr
            intro x hx
            by_cases h : x.2 = s <;> simp [h, hlt]
          rw [h1, h2]; simp
        · have h1 : A.filter (fun a => decide (a.2 = s) && decide (a.2 < p.2)) = [] := by
            rw [List.filter_eq_nil_iff]
            intro x hx
            by_cases h : x.2 = s <;> simp [h, hge]
          have h2 : A.filter (fun a => decide (a.2 = s) && !decide (a.2 < p.2)) = A.filter (fun a => decide (a.2 = s)) := by
            apply List.filter_congr
            intro x hx
            by_cases h : x.2 = s <;> simp [h, hge]
          rw [h1, h2]; simp
      rw [e2]
      simp [hp]
  have : ∀ A : List (ι × S),
      (seq.foldl (fun A p => insAsc p A) A).reverse.filter (fun q => decide (q.2 = s)) =
        A.reverse.filter (fun q => decide (q.2 = s)) ++ seq.filter (fun q => decide (q.2 = s)) := by
    induction seq with
    | nil => intro A; simp
    | cons p t ih =>
      intro A
      rw [List.foldl_cons, ih, key, List.append_assoc, ← List.filter_append]
      rfl
  simpa using this []

end NBest
end Verif
