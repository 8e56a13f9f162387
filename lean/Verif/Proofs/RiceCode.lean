import Verif.Model.RiceCode
import Mathlib.Data.List.Basic
import Mathlib.Data.Nat.Bitwise
import Mathlib.Tactic.Ring

/-! Lemmas about `Verif.Model.RiceCode`. -/

set_option autoImplicit false

namespace Verif.Rice

namespace BitArray

/-- bit `i` of a byte list -/
def bitAt (bytes : List Nat) (i : Nat) : Bool := (bytes.getD (i / 8) 0).testBit (i % 8)

/-- `a` holds the bits `bs` -/
structure Rep (a : BitArray) (bs : List Bool) : Prop where
  len : a.nbits = bs.length
  room : 8 * a.bytes.length = a.nbits + a.bitsleft
  left : a.bitsleft < 8
  small : ∀ b ∈ a.bytes, b < 256
  bit : ∀ i, i < bs.length → bitAt a.bytes i = bs.getD i false

theorem rep_new : Rep new [] := ⟨rfl, rfl, by simp [new], by simp [new], by simp⟩

theorem pyIndex_nat {n i : Nat} (h : i < n) : pyIndex n (i : Int) = some i := by
  unfold pyIndex
  rw [if_pos (by omega), if_pos (by omega)]; simp

theorem pyIndex_none {n i : Nat} (h : n ≤ i) : pyIndex n (i : Int) = none := by
  unfold pyIndex
  rw [if_pos (by omega), if_neg (by omega)]

theorem div8 (i : Nat) : ((i : Int) / 8) = ((i / 8 : Nat) : Int) := by simp
theorem mod8 (i : Nat) : ((i : Int) % 8).toNat = i % 8 := by omega

theorem and_pow_ne_zero (b k : Nat) : (b &&& 2 ^ k ≠ 0) ↔ b.testBit k = true := by
  rw [Nat.and_two_pow]
  cases b.testBit k <;> simp

theorem getitem_ok (a : BitArray) {i : Nat} (h : i / 8 < a.bytes.length) :
    a.getitem i = .ok (bitAt a.bytes i).toNat := by
  unfold getitem
  rw [div8, pyIndex_nat h]
  simp only [mod8]
  by_cases hb : (a.bytes.getD (i / 8) 0).testBit (i % 8) = true
  · rw [if_pos ((and_pow_ne_zero _ _).2 hb)]
    unfold bitAt; rw [hb]; rfl
  · rw [if_neg (fun h => hb ((and_pow_ne_zero _ _).1 h))]
    simp only [Bool.not_eq_true] at hb
    unfold bitAt; rw [hb]; rfl

theorem getitem_err (a : BitArray) {i : Nat} (h : a.bytes.length ≤ i / 8) :
    a.getitem i = .error .IndexError := by
  unfold getitem
  rw [div8, pyIndex_none h]

theorem testBit_255 (k : Nat) : Nat.testBit 255 k = decide (k < 8) := by
  rw [show 255 = 2 ^ 8 - 1 from rfl, Nat.testBit_two_pow_sub_one]

theorem testBit_set {b k : Nat} (hb : b < 256) (val : Bool) (hk : k < 8) (j : Nat) :
    (if val = true then b ||| 2 ^ k else b &&& (255 ^^^ 2 ^ k)).testBit j
      = if j = k then val else b.testBit j := by
  cases val with
  | true =>
    simp only [if_true, Nat.testBit_or, Nat.testBit_two_pow]
    by_cases h : j = k
    · subst h; simp
    · have : ¬ k = j := fun e => h e.symm
      simp [h, this]
  | false =>
    simp only [Bool.false_eq_true, if_false, Nat.testBit_and, Nat.testBit_xor, Nat.testBit_two_pow, testBit_255]
    by_cases h : j = k
    · subst h; simp [hk]
    · have h' : ¬ k = j := fun e => h e.symm
      simp only [h', h, decide_false, Bool.xor_false, if_false]
      by_cases hj : j < 8
      · simp [hj]
      · have : b.testBit j = false := by
          apply Nat.testBit_lt_two_pow
          exact lt_of_lt_of_le hb (by
            calc 256 = 2 ^ 8 := rfl
              _ ≤ 2 ^ j := Nat.pow_le_pow_right (by omega) (by omega))
        simp [this]

theorem set_small {b k : Nat} (hb : b < 256) (hk : k < 8) (val : Bool) :
    (if val = true then b ||| 2 ^ k else b &&& (255 ^^^ 2 ^ k)) < 256 := by
  cases val with
  | true =>
    simp only [if_true]
    have h2 : 2 ^ k < 2 ^ 8 := Nat.pow_lt_pow_right (by omega) hk
    exact Nat.or_lt_two_pow (n := 8) hb h2
  | false =>
    simp only [Bool.false_eq_true, if_false]
    exact lt_of_le_of_lt Nat.and_le_left hb

theorem getD_small {l : List Nat} (h : ∀ b ∈ l, b < 256) (j : Nat) : l.getD j 0 < 256 := by
  rw [List.getD_eq_getElem?_getD]
  cases hj : l[j]? with
  | none => simp
  | some b => exact h b (List.mem_of_getElem? hj)

theorem setitem_ok (a : BitArray) {i : Nat} (val : Bool) (h : i / 8 < a.bytes.length)
    (hs : ∀ b ∈ a.bytes, b < 256) :
    ∃ a', a.setitem i val = .ok a' ∧ a'.nbits = a.nbits ∧ a'.bitsleft = a.bitsleft ∧
      a'.bytes.length = a.bytes.length ∧ (∀ b ∈ a'.bytes, b < 256) ∧
      ∀ k, bitAt a'.bytes k = if k = i then val else bitAt a.bytes k := by
  unfold setitem
  rw [div8, pyIndex_nat h]
  simp only [mod8]
  have hm : i % 8 < 8 := Nat.mod_lt _ (by omega)
  refine ⟨_, rfl, rfl, rfl, by simp, ?_, ?_⟩
  · intro b hb
    simp only at hb
    rcases List.mem_or_eq_of_mem_set hb with hb | rfl
    · exact hs b hb
    · exact set_small (getD_small hs _) hm val
  · intro k
    unfold bitAt
    simp only
    by_cases hk : k / 8 = i / 8
    · have : (a.bytes.set (i / 8) (if val = true then a.bytes.getD (i / 8) 0 ||| 2 ^ (i % 8)
          else a.bytes.getD (i / 8) 0 &&& (255 ^^^ 2 ^ (i % 8)))).getD (k / 8) 0
          = (if val = true then a.bytes.getD (i / 8) 0 ||| 2 ^ (i % 8)
          else a.bytes.getD (i / 8) 0 &&& (255 ^^^ 2 ^ (i % 8))) := by
        rw [hk, List.getD_eq_getElem?_getD, List.getElem?_set_self h]; rfl
      rw [this, testBit_set (getD_small hs _) val hm]
      have hki : (k % 8 = i % 8) ↔ k = i := by omega
      simp only [hki, hk]
    · have : (a.bytes.set (i / 8) (if val = true then a.bytes.getD (i / 8) 0 ||| 2 ^ (i % 8)
          else a.bytes.getD (i / 8) 0 &&& (255 ^^^ 2 ^ (i % 8)))).getD (k / 8) 0
          = a.bytes.getD (k / 8) 0 := by
        rw [List.getD_eq_getElem?_getD, List.getElem?_set_ne (fun e => hk e.symm), ← List.getD_eq_getElem?_getD]
      rw [this]
      have : k ≠ i := fun e => hk (by rw [e])
      simp [this]

theorem bitAt_append_zero (l : List Nat) (i : Nat) : bitAt (l ++ [0]) i = bitAt l i := by
  unfold bitAt
  congr 1
  rw [List.getD_eq_getElem?_getD, List.getD_eq_getElem?_getD]
  rcases lt_trichotomy (i / 8) l.length with h | h | h
  · rw [List.getElem?_append_left h]
  · rw [h, List.getElem?_append_right (le_refl _)]; simp
  · rw [List.getElem?_append_right (by omega), List.getElem?_eq_none (by simp; omega),
      List.getElem?_eq_none (by omega)]

theorem append_ok {a : BitArray} {bs : List Bool} (hr : Rep a bs) (b : Bool) :
    ∃ a', a.append b = (a', none) ∧ Rep a' (bs ++ [b]) := by
  -- the array after growing
  have hg : ∃ g, a.grow = g ∧ g.nbits = bs.length ∧ 8 * g.bytes.length = g.nbits + g.bitsleft ∧
      1 ≤ g.bitsleft ∧ g.bitsleft ≤ 8 ∧ (∀ b ∈ g.bytes, b < 256) ∧
      (∀ i, i < bs.length → bitAt g.bytes i = bs.getD i false) := by
    refine ⟨_, rfl, ?_⟩
    unfold grow
    by_cases h : a.bitsleft = 0
    · rw [if_pos h]
      refine ⟨hr.len, ?_, by simp, by simp, ?_, ?_⟩
      · have := hr.room; simp; omega
      · intro b hb
        simp only [List.mem_append, List.mem_singleton] at hb
        rcases hb with hb | rfl
        · exact hr.small b hb
        · omega
      · intro i hi
        simp only
        rw [bitAt_append_zero]
        exact hr.bit i hi
    · rw [if_neg h]
      exact ⟨hr.len, hr.room, by omega, by have := hr.left; omega, hr.small, hr.bit⟩
  obtain ⟨g, eg, h1, h2, h3, h4, h5, h6⟩ := hg
  have hlt : g.nbits / 8 < g.bytes.length := by omega
  obtain ⟨a', e, n', l', len', s', b'⟩ := setitem_ok g b hlt h5
  refine ⟨{ a' with nbits := a'.nbits + 1, bitsleft := a'.bitsleft - 1 }, ?_, ?_⟩
  · unfold append
    simp only [eg]
    rw [e]
  · refine ⟨?_, ?_, ?_, s', ?_⟩
    · simp [n', h1]
    · simp only [n', l', len']; omega
    · simp only [l']; omega
    · intro i hi
      simp only [List.length_append, List.length_singleton] at hi
      simp only
      rw [b', h1]
      by_cases hc : i = bs.length
      · subst hc
        simp [List.getD_eq_getElem?_getD]
      · rw [if_neg hc, h6 i (by omega)]
        rw [List.getD_eq_getElem?_getD, List.getD_eq_getElem?_getD, List.getElem?_append_left (by omega)]

theorem appends_ok {a : BitArray} {bs : List Bool} (hr : Rep a bs) (cs : List Bool) :
    ∃ a', a.appends cs = (a', none) ∧ Rep a' (bs ++ cs) := by
  induction cs generalizing a bs with
  | nil => exact ⟨a, rfl, by simpa using hr⟩
  | cons c t ih =>
    obtain ⟨a1, e1, r1⟩ := append_ok hr c
    obtain ⟨a2, e2, r2⟩ := ih r1
    refine ⟨a2, ?_, by simpa using r2⟩
    unfold appends
    rw [e1]
    exact e2

theorem rep_getitem {a : BitArray} {bs : List Bool} (hr : Rep a bs) {i : Nat} (h : i < bs.length) :
    a.getitem i = .ok (bs.getD i false).toNat := by
  have : i / 8 < a.bytes.length := by have := hr.room; have := hr.len; omega
  rw [getitem_ok a this, hr.bit i h]

end BitArray

open BitArray

namespace RiceCode

theorem initWith_ok {m : Nat} (h : 1 ≤ m) (b : BitArray) :
    initWith m b = .ok { m := m, lower := 2 ^ m - 1, mask := 2 ^ (m - 1), bits := b, len := 0 } := by
  cases m with
  | zero => omega
  | succ k => simp [initWith, Nat.shiftLeft_eq]

/-- MSB first bits of `r`, `m` of them -/
def msb (r : Nat) : Nat → List Bool
  | 0 => []
  | k + 1 => r.testBit k :: msb r k

theorem msb_length (r m : Nat) : (msb r m).length = m := by
  induction m with
  | zero => rfl
  | succ k ih => simp [msb, ih]

theorem maskLoop_zero (r fuel : Nat) : maskLoop r fuel 0 = [] := by
  cases fuel <;> simp [maskLoop]

theorem maskLoop_pow (r k fuel : Nat) (h : k + 1 ≤ fuel) : maskLoop r fuel (2 ^ k) = msb r (k + 1) := by
  induction k generalizing fuel with
  | zero =>
    cases fuel with
    | zero => omega
    | succ f =>
      unfold maskLoop
      rw [if_neg (by simp)]
      have : (2 ^ 0) >>> 1 = 0 := by decide
      rw [this, maskLoop_zero]
      have := and_pow_ne_zero r 0
      simp only [msb]
      congr 1
      rw [Bool.eq_iff_iff]; simpa using this
  | succ k ih =>
    cases fuel with
    | zero => omega
    | succ f =>
      unfold maskLoop
      rw [if_neg (by simp)]
      have e : (2 ^ (k + 1)) >>> 1 = 2 ^ k := by
        rw [Nat.shiftRight_eq_div_pow, pow_succ]; simp
      rw [e, ih f (by omega)]
      have := and_pow_ne_zero r (k + 1)
      conv_rhs => unfold msb
      congr 1
      rw [Bool.eq_iff_iff]; simpa using this

/-- the code of `v + 1` with parameter `m` -/
def riceBits (m v : Nat) : List Bool := List.replicate (v / 2 ^ m) true ++ [false] ++ msb (v % 2 ^ m) m

theorem code_eq {c : RiceCode} (hm : 1 ≤ c.m) (hl : c.lower = 2 ^ c.m - 1) (hk : c.mask = 2 ^ (c.m - 1))
    (val : Nat) : c.code val = riceBits c.m (val - 1) := by
  unfold code riceBits
  simp only
  rw [hl, hk, Nat.and_two_pow_sub_one_eq_mod, maskLoop_pow _ _ _ (by have := @Nat.lt_two_pow_self (c.m - 1); omega),
    Nat.shiftRight_eq_div_pow]
  congr 2
  omega

theorem testBit_eq (r k : Nat) : (r.testBit k).toNat = r / 2 ^ k % 2 := Nat.toNat_testBit r k

/-- reading `k` bits, most significant first, accumulates the value -/
theorem readBinary_ok {b : BitArray} {pre post : List Bool} (r k acc : Nat)
    (hr : Rep b (pre ++ msb r k ++ post)) :
    readBinary b k acc pre.length = .ok (acc * 2 ^ k + r % 2 ^ k, pre.length + k) := by
  induction k generalizing pre acc with
  | zero => simp [readBinary, Nat.mod_one]
  | succ k ih =>
    unfold readBinary
    have hlen : pre.length < (pre ++ msb r (k + 1) ++ post).length := by
      simp [msb_length]
    rw [rep_getitem hr hlen]
    have hd : (pre ++ msb r (k + 1) ++ post).getD pre.length false = r.testBit k := by
      simp [msb, List.getD_eq_getElem?_getD]
    rw [hd]
    have hr' : Rep b ((pre ++ [r.testBit k]) ++ msb r k ++ post) := by
      have : pre ++ msb r (k + 1) ++ post = (pre ++ [r.testBit k]) ++ msb r k ++ post := by simp [msb]
      rw [← this]; exact hr
    have := ih (pre := pre ++ [r.testBit k]) ((acc <<< 1) ||| (r.testBit k).toNat) hr'
    simp only [List.length_append, List.length_singleton] at this
    show readBinary b k _ _ = _
    rw [this]
    congr 2
    · have hor : (acc <<< 1) ||| (r.testBit k).toNat = acc * 2 + (r.testBit k).toNat := by
        rw [← Nat.shiftLeft_add_eq_or_of_lt (by cases r.testBit k <;> simp), Nat.shiftLeft_eq]
      rw [hor, Nat.mod_pow_succ, testBit_eq]
      ring
    · omega

theorem readUnary_ok {b : BitArray} {pre post : List Bool} (q acc fuel : Nat)
    (hr : Rep b (pre ++ (List.replicate q true ++ [false]) ++ post)) (hf : q + 1 ≤ fuel) :
    readUnary b fuel acc pre.length = .ok (acc + q, pre.length + q) := by
  induction q generalizing pre acc fuel with
  | zero =>
    cases fuel with
    | zero => omega
    | succ f =>
      unfold readUnary
      rw [rep_getitem hr (by simp)]
      have : (pre ++ (List.replicate 0 true ++ [false]) ++ post).getD pre.length false = false := by
        simp [List.getD_eq_getElem?_getD]
      rw [this]
      rfl
  | succ q ih =>
    cases fuel with
    | zero => omega
    | succ f =>
      unfold readUnary
      rw [rep_getitem hr (by simp)]
      have : (pre ++ (List.replicate (q + 1) true ++ [false]) ++ post).getD pre.length false = true := by
        simp [List.getD_eq_getElem?_getD, List.replicate_succ]
      rw [this]
      show readUnary b f (acc + 1) (pre.length + 1) = _
      have hr' : Rep b ((pre ++ [true]) ++ (List.replicate q true ++ [false]) ++ post) := by
        have : pre ++ (List.replicate (q + 1) true ++ [false]) ++ post
            = (pre ++ [true]) ++ (List.replicate q true ++ [false]) ++ post := by
          simp [List.replicate_succ]
        rw [← this]; exact hr
      have := ih (pre := pre ++ [true]) (acc + 1) f hr' (by omega)
      simp only [List.length_append, List.length_singleton] at this
      rw [this]
      congr 2 <;> omega

/-- the object holds the codes of `vs` (each value is `v + 1`) -/
structure Holds (c : RiceCode) (m : Nat) (vs : List Nat) : Prop where
  pos : 1 ≤ m
  hm : c.m = m
  lower : c.lower = 2 ^ m - 1
  mask : c.mask = 2 ^ (m - 1)
  rep : Rep c.bits ((vs.map (riceBits m)).flatten)
  len : c.len = vs.length

theorem holds_new {m : Int} (h : 1 ≤ m ∧ m ≤ 16) : ∃ c, RiceCode.new m = .ok c ∧ Holds c m.toNat [] := by
  unfold RiceCode.new
  rw [if_neg (by omega), initWith_ok (by omega)]
  exact ⟨_, rfl, ⟨by omega, rfl, rfl, rfl, rep_new, rfl⟩⟩

theorem append_ok {c : RiceCode} {m : Nat} {vs : List Nat} (h : Holds c m vs) {v : Int} (hv : 1 ≤ v) :
    ∃ c', c.append v = (c', none) ∧ Holds c' m (vs ++ [v.toNat - 1]) := by
  obtain ⟨b, e, r⟩ := appends_ok h.rep (c.code v.toNat)
  refine ⟨{ c with bits := b, len := c.len + 1 }, ?_, ⟨h.pos, h.hm, h.lower, h.mask, ?_, ?_⟩⟩
  · unfold append
    rw [if_neg (by omega), e]
  · simp only
    have := code_eq (c := c) (by rw [h.hm]; exact h.pos) (by rw [h.hm]; exact h.lower)
      (by rw [h.hm]; exact h.mask) v.toNat
    rw [this, h.hm] at r
    simpa using r
  · simp [h.len]

theorem appends_ok' {c : RiceCode} {m : Nat} {vs : List Nat} (h : Holds c m vs) (l : List Int)
    (hl : ∀ v ∈ l, 1 ≤ v) :
    ∃ c', c.appends l = (c', none) ∧ Holds c' m (vs ++ l.map (fun v => v.toNat - 1)) := by
  induction l generalizing c vs with
  | nil => exact ⟨c, rfl, by simpa using h⟩
  | cons v t ih =>
    obtain ⟨c1, e1, h1⟩ := append_ok h (hl v (by simp))
    obtain ⟨c2, e2, h2⟩ := ih h1 (fun x hx => hl x (by simp [hx]))
    refine ⟨c2, ?_, by simpa using h2⟩
    unfold appends
    rw [e1]
    exact e2

theorem tolistLoop_ok {c : RiceCode} {m : Nat} {pre : List Bool} (vs : List Nat) (hm : c.m = m)
    (hr : Rep c.bits (pre ++ (vs.map (riceBits m)).flatten)) :
    tolistLoop c vs.length pre.length = .ok (vs.map (fun v => ((v + 1 : Nat) : Int))) := by
  induction vs generalizing pre with
  | nil => rfl
  | cons v t ih =>
    have hroom := hr.room
    have hnb := hr.len
    simp only [List.length_cons]
    unfold tolistLoop
    -- unary part
    have hr1 : Rep c.bits (pre ++ (List.replicate (v / 2 ^ m) true ++ [false]) ++
        (msb (v % 2 ^ m) m ++ (t.map (riceBits m)).flatten)) := by
      have : pre ++ ((v :: t).map (riceBits m)).flatten = pre ++ (List.replicate (v / 2 ^ m) true ++ [false]) ++
        (msb (v % 2 ^ m) m ++ (t.map (riceBits m)).flatten) := by
        simp [riceBits]
      rw [← this]; exact hr
    have hfuel : v / 2 ^ m + 1 ≤ 8 * c.bits.bytes.length + 1 := by
      have := hr1.len
      simp only [List.length_append, List.length_replicate, List.length_singleton] at this
      omega
    rw [readUnary_ok (v / 2 ^ m) 0 _ hr1 hfuel]
    simp only [bind, Except.bind, Nat.zero_add]
    -- the zero bit
    rw [rep_getitem hr1 (by simp)]
    have hz : (pre ++ (List.replicate (v / 2 ^ m) true ++ [false]) ++
        (msb (v % 2 ^ m) m ++ (t.map (riceBits m)).flatten)).getD (pre.length + v / 2 ^ m) false = false := by
      rw [List.getD_eq_getElem?_getD, List.append_assoc, List.getElem?_append_right (Nat.le_add_right _ _)]
      rw [List.append_assoc, List.getElem?_append_right (by simp)]
      simp
    rw [hz]
    simp only [Bool.toNat_false, ne_eq, not_true, if_false]
    -- binary part
    have hr2 : Rep c.bits ((pre ++ (List.replicate (v / 2 ^ m) true ++ [false])) ++ msb (v % 2 ^ m) m ++
        (t.map (riceBits m)).flatten) := by
      have : pre ++ (List.replicate (v / 2 ^ m) true ++ [false]) ++
        (msb (v % 2 ^ m) m ++ (t.map (riceBits m)).flatten)
        = (pre ++ (List.replicate (v / 2 ^ m) true ++ [false])) ++ msb (v % 2 ^ m) m ++
        (t.map (riceBits m)).flatten := by simp
      rw [← this]; exact hr1
    have h2 := readBinary_ok (v % 2 ^ m) m 0 hr2
    have hl2 : (pre ++ (List.replicate (v / 2 ^ m) true ++ [false])).length = pre.length + v / 2 ^ m + 1 := by
      simp only [List.length_append, List.length_replicate, List.length_singleton]; omega
    rw [hl2] at h2
    rw [hm, h2]
    simp only [Nat.zero_mul, Nat.zero_add, Nat.mod_mod]
    -- the rest
    have hr3 : Rep c.bits ((pre ++ riceBits m v) ++ (t.map (riceBits m)).flatten) := by
      have : (pre ++ (List.replicate (v / 2 ^ m) true ++ [false])) ++ msb (v % 2 ^ m) m ++
        (t.map (riceBits m)).flatten = (pre ++ riceBits m v) ++ (t.map (riceBits m)).flatten := by
        simp [riceBits]
      rw [← this]; exact hr2
    have h3 := ih hr3
    have hl3 : (pre ++ riceBits m v).length = pre.length + v / 2 ^ m + 1 + m := by
      simp [riceBits, msb_length]; omega
    rw [hl3] at h3
    rw [h3]
    simp only [pure, Except.pure, List.map_cons]
    congr 2
    rw [Nat.shiftLeft_eq]
    have := Nat.div_add_mod v (2 ^ m)
    have e : v / 2 ^ m * 2 ^ m + (v % 2 ^ m + 1) = v + 1 := by
      rw [Nat.mul_comm (v / 2 ^ m)]; omega
    rw [e]

theorem tolist_ok {c : RiceCode} {m : Nat} {vs : List Nat} (h : Holds c m vs) :
    c.tolist = .ok (vs.map (fun v => ((v + 1 : Nat) : Int))) := by
  unfold tolist
  rw [h.len]
  have := tolistLoop_ok (pre := []) vs h.hm (by simpa using h.rep)
  simpa using this

theorem map_back (l : List Int) (hl : ∀ v ∈ l, 1 ≤ v) :
    (l.map (fun v => v.toNat - 1)).map (fun v => ((v + 1 : Nat) : Int)) = l := by
  rw [List.map_map]
  conv_rhs => rw [← List.map_id l]
  apply List.map_congr_left
  intro v hv
  have := hl v hv
  simp only [Function.comp_apply, id]
  omega

end RiceCode

/-! ### deltas -/

theorem diffs_pos {l : List Int} (h : l.Pairwise (· < ·)) : ∀ v ∈ diffs l, 1 ≤ v := by
  induction l with
  | nil => simp [diffs]
  | cons a t ih =>
    cases t with
    | nil => simp [diffs]
    | cons b u =>
      rw [List.pairwise_cons] at h
      intro v hv
      simp only [diffs, List.mem_cons] at hv
      rcases hv with rfl | hv
      · have := h.1 b (by simp); omega
      · exact ih h.2 v hv

theorem diffs_length (a : Int) (t : List Int) : (diffs (a :: t)).length = t.length := by
  induction t generalizing a with
  | nil => rfl
  | cons b u ih => simp only [diffs, List.length_cons, ih]

theorem sums_diffs (a : Int) (t : List Int) : sums a (diffs (a :: t)) = t := by
  induction t generalizing a with
  | nil => rfl
  | cons b u ih =>
    simp only [diffs, sums]
    have : a + (b - a) = b := by omega
    rw [this, ih]

theorem sums_append (x : Int) (l : List Int) (d : Int) :
    sums x (l ++ [d]) = sums x l ++ [((x :: sums x l).getLast (by simp)) + d] := by
  induction l generalizing x with
  | nil => simp [sums]
  | cons y t ih =>
    simp only [List.cons_append, sums, ih]
    simp

theorem sums_inj {x : Int} {l l' : List Int} (h : sums x l = sums x l') : l = l' := by
  induction l generalizing x l' with
  | nil => cases l' with
    | nil => rfl
    | cons => simp [sums] at h
  | cons a t ih =>
    cases l' with
    | nil => simp [sums] at h
    | cons b u =>
      simp only [sums, List.cons.injEq] at h
      have hab : a = b := by omega
      subst hab
      rw [ih h.2]

theorem tail_append_last_eq (l : List Int) (d : Int) (t : List Int) (e : l = d :: t) :
    t ++ [l.getLast (by rw [e]; simp)] = l ↔ ∀ x ∈ l, x = d := by
  subst e
  induction t generalizing d with
  | nil => simp
  | cons x u ih =>
    have := ih x
    simp only [List.getLast_cons_cons, List.cons_append, List.cons.injEq] at this ⊢
    rw [this]
    constructor
    · rintro ⟨rfl, h⟩ y hy
      rcases List.mem_cons.1 hy with rfl | hy
      · rfl
      · exact h y hy
    · intro h
      have hx : x = d := h x (by simp)
      refine ⟨hx, fun y hy => ?_⟩
      rw [h y (List.mem_cons_of_mem _ hy), hx]

end Verif.Rice
