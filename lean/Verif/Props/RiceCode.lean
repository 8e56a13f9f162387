import Verif.Proofs.RiceCode

/-! # C34-C38: Rice coding -/

set_option autoImplicit false

namespace Verif

open Rice BitArray RiceCode

/-- **C34.** Round trip: appending integers `>= 1` to a new `RiceCode(m)` never fails, and `tolist()`
and `len()` give them back. -/
theorem C34_round_trip (m : Int) (hm : 1 ≤ m ∧ m ≤ 16) (l : List Int) (hl : ∀ v ∈ l, 1 ≤ v) :
    ∃ c0 c, RiceCode.new m = .ok c0 ∧ c0.appends l = (c, none) ∧ c.tolist = .ok l ∧ c.len = l.length := by
  obtain ⟨c0, e0, h0⟩ := holds_new hm
  obtain ⟨c, e, h⟩ := appends_ok' h0 l hl
  refine ⟨c0, c, e0, e, ?_, ?_⟩
  · rw [tolist_ok h]
    simp only [List.nil_append]
    rw [map_back l hl]
  · rw [h.len]; simp

/-- **C34.** A value below 1 raises `ValueError` and changes nothing, in every state. -/
theorem C34_reject (c : RiceCode) (v : Int) (hv : v < 1) : c.append v = (c, some .ValueError) := by
  unfold RiceCode.append
  rw [if_pos hv]

/-- **C34.** `encode(m, l)` succeeds: its assertion never fails. -/
theorem C34_encode (m : Int) (hm : 1 ≤ m ∧ m ≤ 16) (l : List Int) (hl : ∀ v ∈ l, 1 ≤ v) :
    ∃ c, encode m l = .ok c ∧ c.tolist = .ok l := by
  obtain ⟨c0, c, e0, e, t, _⟩ := C34_round_trip m hm l hl
  refine ⟨c, ?_, t⟩
  unfold encode
  rw [e0]
  simp only [bind, Except.bind]
  rw [e]
  simp only [t, if_true]
  rfl

/-- non-vacuity of C34 -/
example : (encode 2 [1, 7, 30]).map (fun c => (c.bits.bytes, c.bits.nbits, c.len)) =
    .ok ([168, 63, 1], 17, 3) := by decide
example : ∃ c, encode 2 [1, 7, 30] = .ok c ∧ c.tolist = .ok [1, 7, 30] :=
  C34_encode 2 (by decide) _ (by decide)

/-- **C35 is false of the code**: `RiceCode(0)` raises although 0 is documented as valid. -/
theorem C35_fails : RiceCode.new 0 = .error .ValueError := by decide

/-- **C35, exact domain.** The constructor succeeds iff `1 <= m <= 16` and raises `ValueError`
otherwise. -/
theorem C35_domain_partial (m : Int) :
    (∃ c, RiceCode.new m = .ok c) ∧ (1 ≤ m ∧ m ≤ 16) ∨
    RiceCode.new m = .error .ValueError ∧ ¬ (1 ≤ m ∧ m ≤ 16) := by
  by_cases h : 1 ≤ m ∧ m ≤ 16
  · obtain ⟨c, e, _⟩ := holds_new h
    exact Or.inl ⟨⟨c, e⟩, h⟩
  · refine Or.inr ⟨?_, h⟩
    unfold RiceCode.new
    by_cases h2 : m < 0 ∨ m > 16
    · rw [if_pos h2]
    · have : m = 0 := by omega
      subst this
      rfl

/-- **C36 is false of the code.** -/
theorem C36_fails : ∃ l : List Int, l ≠ [] ∧ l.Pairwise (· < ·) ∧
    ∃ s d, encodeDeltas l = .ok (s, d) ∧ decodeDeltas s d = .ok [1, 3, 5] ∧ l ≠ [1, 3, 5] := by
  refine ⟨[1, 2, 4], by decide, by decide, 1, ?_⟩
  exact ⟨.rice _, rfl, by decide, by decide⟩

/-- **C36, exact characterisation.** For strictly increasing non-empty `l` both calls succeed, and
the list is restored iff all its differences are equal. -/
theorem C36_characterisation_partial (l : List Int) (hne : l ≠ []) (hl : l.Pairwise (· < ·)) :
    ∃ s d r, encodeDeltas l = .ok (s, d) ∧ decodeDeltas s d = .ok r ∧
      r.length = l.length ∧ (r = l ↔ ∀ x ∈ diffs l, ∀ y ∈ diffs l, x = y) := by
  match l, hne with
  | [a], _ => exact ⟨a, .emptyList, [a], rfl, rfl, rfl, by simp [diffs]⟩
  | a :: b :: t, _ =>
    have hd := diffs_pos hl
    obtain ⟨c0, c, e0, e, tl, len⟩ := C34_round_trip 6 (by omega) (diffs (a :: b :: t)) hd
    have hdl := diffs_length a (b :: t)
    have hdc : diffs (a :: b :: t) = (b - a) :: diffs (b :: t) := rfl
    -- decoded list
    let ds := diffs (a :: b :: t)
    have hds : ds ≠ [] := by simp [ds, hdc]
    refine ⟨a, .rice c, (a :: sums a (ds.drop 1)) ++ [(a :: sums a (ds.drop 1)).getLast (by simp) + ds.getLast hds],
      ?_, ?_, ?_, ?_⟩
    · simp only [encodeDeltas]
      rw [e0]
      simp only [bind, Except.bind]
      rw [e]
    · unfold decodeDeltas
      simp only
      rw [if_neg (by rw [len, hdl]; simp), tl]
      simp only [bind, Except.bind]
      rw [List.getLast?_eq_getLast_of_ne_nil (by simp), List.getLast?_eq_getLast_of_ne_nil hds]
    · have hsl : ∀ (l : List Int) (x : Int), (sums x l).length = l.length := by
        intro l
        induction l with
        | nil => intro x; rfl
        | cons y u ih => intro x; simp [sums, ih]
      simp only [List.length_append, List.length_cons, hsl, List.length_drop, ds, hdl]
      simp
    · have hr : (a :: sums a (ds.drop 1)) ++ [(a :: sums a (ds.drop 1)).getLast (by simp) + ds.getLast hds]
          = a :: sums a (ds.drop 1 ++ [ds.getLast hds]) := by
        rw [sums_append]; simp
      rw [hr]
      have hback : a :: b :: t = a :: sums a ds := by
        rw [sums_diffs]
      conv_lhs => rw [hback]
      have h1 : (a :: sums a (ds.drop 1 ++ [ds.getLast hds]) = a :: sums a ds) ↔
          ds.drop 1 ++ [ds.getLast hds] = ds := by
        constructor
        · intro h; exact sums_inj (List.cons.inj h).2
        · intro h; rw [h]
      rw [h1]
      have h2 := tail_append_last_eq ds (b - a) (diffs (b :: t)) hdc
      have h3 : ds.drop 1 = diffs (b :: t) := by simp [ds, hdc]
      rw [h3, h2]
      constructor
      · intro h x hx y hy
        rw [h x hx, h y hy]
      · intro h x hx
        exact h x hx _ (by simp [hdc])

/-- non-vacuity of C36: the characterisation covers both outcomes -/
example : (∀ x ∈ diffs [3, 5, 7, 9], ∀ y ∈ diffs [3, 5, 7, 9], x = y) ∧
    ¬ (∀ x ∈ diffs [1, 2, 4], ∀ y ∈ diffs [1, 2, 4], x = y) := by decide

/-- **C37 is false of the code**: an unpickled Rice code reports length 0 and an empty list,
whatever it held. -/
theorem C37_fails (m : Int) (hm : 1 ≤ m ∧ m ≤ 16) (l : List Int) (hl : ∀ v ∈ l, 1 ≤ v) (hne : l ≠ []) :
    ∃ c c', encode m l = .ok c ∧ RiceCode.setstate c.getstate = .ok c' ∧
      c.tolist = .ok l ∧ c.len = l.length ∧ c'.tolist = .ok [] ∧ c'.len = 0 ∧ l ≠ [] := by
  obtain ⟨c0, c, e0, e, t, len⟩ := C34_round_trip m hm l hl
  obtain ⟨c1, e1, t1⟩ := C34_encode m hm l hl
  have hc : c1 = c := by
    unfold encode at e1
    rw [e0] at e1
    simp only [bind, Except.bind] at e1
    rw [e] at e1
    simp only [t, if_true] at e1
    exact (Except.ok.inj e1).symm
  subst hc
  have hm1 : 1 ≤ c1.m := by
    obtain ⟨c0', e0', h0⟩ := holds_new hm
    obtain ⟨c', e', h⟩ := appends_ok' h0 l hl
    rw [e0] at e0'; cases e0'
    rw [e] at e'; cases e'
    rw [h.hm]; exact h.pos
  refine ⟨c1, _, e1, initWith_ok hm1 _, t, len, rfl, rfl, hne⟩

/-- **C37, what does survive.** Pickling preserves `tolist()` and `len()` of empty codes, and the
parameter and the bits of every code. -/
theorem C37_bits_partial (c : RiceCode) (hm : 1 ≤ c.m) :
    ∃ c', RiceCode.setstate c.getstate = .ok c' ∧ c'.m = c.m ∧ c'.bits = c.bits ∧
      (c.len = 0 → c'.tolist = c.tolist ∧ c'.len = c.len) := by
  refine ⟨_, initWith_ok hm _, rfl, ?_, ?_⟩
  · rfl
  · intro h
    refine ⟨?_, h.symm⟩
    unfold tolist
    rw [h]
    rfl

/-- **C38.** After appending any bits to a new `BitArray`, no call raised, `len` is their number and
item `i` reads back the `i`-th bit (as 1 or 0). -/
theorem C38_read (bs : List Bool) : ∃ a, BitArray.new.appends bs = (a, none) ∧ a.len = bs.length ∧
    ∀ i (h : i < bs.length), a.getitem (i : Int) = .ok (if bs[i] then 1 else 0) := by
  obtain ⟨a, e, r⟩ := appends_ok rep_new bs
  rw [List.nil_append] at r
  refine ⟨a, e, r.len, fun i h => ?_⟩
  rw [rep_getitem r h]
  have : bs.getD i false = bs[i] := by simp [List.getD_eq_getElem?_getD, h]
  rw [this]
  cases bs[i] <;> rfl

/-- **C38.** Assigning item `i` changes that item and nothing else. -/
theorem C38_write (bs : List Bool) (i : Nat) (hi : i < bs.length) (v : Bool) :
    ∃ a a', BitArray.new.appends bs = (a, none) ∧ a.setitem (i : Int) v = .ok a' ∧ a'.len = bs.length ∧
      ∀ k (h : k < bs.length), a'.getitem (k : Int) = .ok (if (bs.set i v)[k]'(by simpa using h) then 1 else 0) := by
  obtain ⟨a, e, r⟩ := appends_ok rep_new bs
  rw [List.nil_append] at r
  have hlt : ∀ k, k < bs.length → k / 8 < a.bytes.length := by
    intro k hk; have := r.room; have := r.len; omega
  obtain ⟨a', e', n', l', len', s', b'⟩ := setitem_ok a v (hlt i hi) r.small
  refine ⟨a, a', e, e', ?_, fun k hk => ?_⟩
  · unfold BitArray.len; rw [n', r.len]
  · rw [getitem_ok a' (by rw [len']; exact hlt k hk), b']
    by_cases hki : k = i
    · subst hki
      simp
      cases v <;> rfl
    · rw [if_neg hki, r.bit k hk]
      have h1 : bs.getD k false = bs[k] := by simp [List.getD_eq_getElem?_getD, hk]
      have h2 : (bs.set i v)[k]'(by simpa using hk) = bs[k] := by
        rw [List.getElem_set_ne (fun h => hki h.symm)]
      rw [h1, h2]
      cases bs[k] <;> rfl

/-- **C38.** Indexes outside: an index at or behind the end of the last byte raises `IndexError`; a negative index counts from the end of
the last byte, not from the last bit, and raises `IndexError` before the first byte -/
theorem C38_outside (bs : List Bool) : ∃ a, BitArray.new.appends bs = (a, none) ∧
    (∀ i : Int, (bs.length + 7) / 8 * 8 ≤ i ∨ i < -((bs.length + 7) / 8 * 8) → a.getitem i = .error .IndexError ∧
      ∀ v, a.setitem i v = .error .IndexError) ∧
    (∀ i : Int, i < 0 → -((bs.length + 7) / 8 * 8) ≤ i → a.getitem i = a.getitem (i + (bs.length + 7) / 8 * 8) ∧
      ∀ v, a.setitem i v = a.setitem (i + (bs.length + 7) / 8 * 8) v) := by
  obtain ⟨a, e, r⟩ := appends_ok rep_new bs
  rw [List.nil_append] at r
  have hn : ((bs.length : Int) + 7) / 8 = a.bytes.length := by
    have h1 := r.room
    have h2 := r.left
    have h3 := r.len
    omega
  refine ⟨a, e, ?_, ?_⟩
  · intro i hi
    rw [hn] at hi
    have : pyIndex a.bytes.length (i / 8) = none := by
      unfold pyIndex
      split
      · rw [if_neg (by omega)]
      · rw [if_neg (by omega)]
    unfold BitArray.getitem BitArray.setitem
    rw [this]
    exact ⟨rfl, fun _ => rfl⟩
  · intro i h0 hi
    rw [hn] at hi ⊢
    have h1 : pyIndex a.bytes.length (i / 8) = pyIndex a.bytes.length ((i + a.bytes.length * 8) / 8) := by
      unfold pyIndex
      have : (i + a.bytes.length * 8) / 8 = i / 8 + a.bytes.length := by omega
      rw [this, if_neg (by omega), if_pos (by omega), if_pos (by omega), if_pos (by omega)]
    have h2 : (i + a.bytes.length * 8) % 8 = i % 8 := by omega
    unfold BitArray.getitem BitArray.setitem
    rw [h1, h2]
    exact ⟨rfl, fun _ => rfl⟩

-- so the last item is not at index -1
example : (BitArray.new.appends [true, false, true]).1.getitem (-1) = .ok 0 ∧
    (BitArray.new.appends [true, false, true]).1.getitem (-6) = .ok 1 ∧
    (BitArray.new.appends [true, false, true]).1.getitem (-9) = .error .IndexError ∧
    (BitArray.new.appends [true, false, true]).1.getitem 7 = .ok 0 ∧
    (BitArray.new.appends [true, false, true]).1.getitem 8 = .error .IndexError := by decide

/-- **C38.** Pickling preserves every bit array. -/
theorem C38_pickle (a : BitArray) : BitArray.setstate a.getstate = a := rfl

/-- non-vacuity of C38 -/
example : (BitArray.new.appends [true, false, true, true, false, false, false, true, true]).1.bytes = [141, 1] := by
  decide

end Verif
