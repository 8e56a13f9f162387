import Verif.Model.WidCode
import Mathlib.Data.List.Basic
import Mathlib.Data.Nat.Bitwise

/-! Lemmas about `Verif.Model.WidCode`. -/

set_option autoImplicit false

namespace Verif.WidCode

/-- the valid word ids -/
def Valid (w : Int) : Prop := 0 ≤ w ∧ w < 0x10000000

/-- the code of a valid word id, by its number of base 128 digits -/
def enc (n : Nat) : List Nat :=
  if n < 0x80 then [n + 0x80]
  else if n < 0x4000 then [n / 0x80 + 0x80, n % 0x80]
  else if n < 0x200000 then [n / 0x4000 + 0x80, n / 0x80 % 0x80, n % 0x80]
  else [n / 0x200000 + 0x80, n / 0x4000 % 0x80, n / 0x80 % 0x80, n % 0x80]

theorem encodeOne_ok {w : Int} (h : Valid w) : encodeOne w = .ok (enc w.toNat) := by
  obtain ⟨h0, h1⟩ := h
  unfold encodeOne encTab encodeBig enc
  obtain ⟨n, rfl⟩ := Int.eq_ofNat_of_zero_le h0
  simp only [Int.toNat_natCast]
  by_cases a : n < 0x80
  · rw [if_pos (by omega), if_pos (by omega), if_pos a, if_pos a]
  · by_cases b : n < 0x4000
    · rw [if_pos (by omega), if_pos (by omega), if_neg a, if_neg a, if_pos b]
    · rw [if_neg (by omega), if_pos (by omega), if_neg a, if_neg b]
      by_cases c : n < 0x200000
      · rw [if_pos (by omega), if_pos c]
        simp only [Nat.div_div_eq_div_mul]
      · rw [if_neg (by omega), if_pos (by omega), if_neg c]
        simp only [Nat.div_div_eq_div_mul]

theorem encodeOne_error {w : Int} (h : 0x10000000 ≤ w) : encodeOne w = .error .AssertionError := by
  unfold encodeOne encodeBig
  rw [if_neg (by omega), if_neg (by omega)]

/-- code of a list of valid ids -/
def encs (ns : List Int) : List Nat := (ns.map (fun w => enc w.toNat)).flatten

theorem encs_cons (w : Int) (t : List Int) : encs (w :: t) = enc w.toNat ++ encs t := rfl

theorem encs_append (a b : List Int) : encs (a ++ b) = encs a ++ encs b := by
  simp [encs]

theorem encode_ok {ws : List Int} (h : ∀ w ∈ ws, Valid w) : encode ws = .ok (encs ws) := by
  induction ws with
  | nil => rfl
  | cons w t ih =>
    unfold encode
    rw [encodeOne_ok (h w (by simp)), ih (fun x hx => h x (by simp [hx]))]
    rfl

/-- shape of a code: a head character and then low ones -/
theorem enc_shape {n : Nat} (h : n < 0x10000000) :
    ∃ c t, enc n = c :: t ∧ isHead c = true ∧ ∀ x ∈ t, isLow x = true ∧ isHead x = false := by
  unfold enc isHead isLow
  have m1 : n % 0x80 < 0x80 := Nat.mod_lt _ (by omega)
  have m2 : n / 0x80 % 0x80 < 0x80 := Nat.mod_lt _ (by omega)
  have m3 : n / 0x4000 % 0x80 < 0x80 := Nat.mod_lt _ (by omega)
  split
  · exact ⟨_, _, rfl, by simp; omega, by simp⟩
  · split
    · refine ⟨_, _, rfl, by simp; omega, ?_⟩
      intro x hx
      simp only [List.mem_cons, List.not_mem_nil, or_false] at hx
      subst hx
      simp; omega
    · split
      · refine ⟨_, _, rfl, by simp; omega, ?_⟩
        intro x hx
        simp only [List.mem_cons, List.not_mem_nil, or_false] at hx
        rcases hx with rfl | rfl <;> (simp; omega)
      · refine ⟨_, _, rfl, by simp; omega, ?_⟩
        intro x hx
        simp only [List.mem_cons, List.not_mem_nil, or_false] at hx
        rcases hx with rfl | rfl | rfl <;> (simp; omega)

theorem or_shift {x y k : Nat} (h : y < 2 ^ k) : (x <<< k) ||| y = x * 2 ^ k + y := by
  rw [← Nat.shiftLeft_add_eq_or_of_lt h, Nat.shiftLeft_eq]

theorem low_and {x : Nat} (h : x < 0x80) : x &&& 0x80 = 0 := by
  have : ∀ y < 0x80, y &&& 0x80 = 0 := by decide
  exact this x h

theorem head_and {x : Nat} (h : x < 0x80) : (x + 0x80) &&& 0x80 = 0x80 := by
  have : ∀ y < 0x80, (y + 0x80) &&& 0x80 = 0x80 := by decide
  exact this x h

theorem head_and7 {x : Nat} (h : x < 0x80) : (x + 0x80) &&& 0x7F = x := by
  have : ∀ y < 0x80, (y + 0x80) &&& 0x7F = y := by decide
  exact this x h

theorem decodeOne_enc {n : Nat} (h : n < 0x10000000) : decodeOne (enc n) = .ok (n : Int) := by
  unfold enc
  have m1 : n % 0x80 < 0x80 := Nat.mod_lt _ (by omega)
  have m2 : n / 0x80 % 0x80 < 0x80 := Nat.mod_lt _ (by omega)
  have m3 : n / 0x4000 % 0x80 < 0x80 := Nat.mod_lt _ (by omega)
  split
  · rename_i h1
    unfold decodeOne decTab
    simp only
    rw [if_pos (by omega)]
    cases n with
    | zero => rfl
    | succ n => simp
  · split
    · rename_i h1 h2
      unfold decodeOne decTab
      simp only
      rw [if_pos (by omega)]
      have e : (n / 0x80 + 0x80 - 0x80) * 0x80 + n % 0x80 = n := by omega
      rw [e]
      cases n with
      | zero => omega
      | succ n => rfl
    · split
      · rename_i h1 h2 h3
        have a1 : n / 0x4000 < 0x80 := by omega
        unfold decodeOne decTab decodeBig
        simp only
        rw [if_neg (by simp), if_pos ⟨head_and a1, low_and m2, low_and m1⟩, head_and7 a1]
        congr 2
        rw [Nat.lor_assoc, or_shift (k := 7) (by omega), or_shift (k := 14) (by omega)]
        omega
      · rename_i h1 h2 h3
        have a1 : n / 0x200000 < 0x80 := by omega
        unfold decodeOne decTab decodeBig
        simp only
        rw [if_neg (by simp), if_pos ⟨head_and a1, low_and m3, low_and m2, low_and m1⟩, head_and7 a1]
        congr 2
        rw [Nat.lor_assoc, Nat.lor_assoc, or_shift (k := 7) (by omega), or_shift (k := 14) (by omega),
          or_shift (k := 21) (by omega)]
        omega

theorem enc_inj {m n : Nat} (hm : m < 0x10000000) (hn : n < 0x10000000) (h : enc m = enc n) : m = n := by
  have a := decodeOne_enc hm
  rw [h, decodeOne_enc hn] at a
  have := Except.ok.inj a
  omega

/-- a list that is empty or starts with a head character -/
def StartsHead : List Nat → Prop
  | [] => True
  | c :: _ => isHead c = true

theorem not_isLow_of_isHead {c : Nat} (h : isHead c = true) : isLow c = false := by
  unfold isHead at h; unfold isLow
  simp at h ⊢; omega

theorem takeWhile_low {t r : List Nat} (ht : ∀ x ∈ t, isLow x = true) (hr : StartsHead r) :
    (t ++ r).takeWhile isLow = t ∧ (t ++ r).dropWhile isLow = r := by
  induction t with
  | nil =>
    cases r with
    | nil => simp
    | cons c r =>
      have := not_isLow_of_isHead hr
      simp [this]
  | cons x t ih =>
    have h1 := ht x (by simp)
    have h2 := ih (fun y hy => ht y (by simp [hy]))
    simp [h1, h2]

theorem startsHead_encs {ws : List Int} (h : ∀ w ∈ ws, Valid w) : StartsHead (encs ws) := by
  cases ws with
  | nil => trivial
  | cons w t =>
    obtain ⟨c, r, e, hc, _⟩ := enc_shape (n := w.toNat) (by have := h w (by simp); unfold Valid at this; omega)
    rw [encs_cons, e]
    exact hc

theorem findallF_encs {ws : List Int} (h : ∀ w ∈ ws, Valid w) :
    ∀ fuel, (encs ws).length ≤ fuel → findallF fuel (encs ws) = ws.map (fun w => enc w.toNat) := by
  induction ws with
  | nil => intro fuel _; cases fuel <;> rfl
  | cons w t ih =>
    intro fuel hf
    have ht : ∀ w ∈ t, Valid w := fun x hx => h x (by simp [hx])
    obtain ⟨c, r, e, hc, hr⟩ := enc_shape (n := w.toNat) (by have := h w (by simp); unfold Valid at this; omega)
    rw [encs_cons, e] at hf ⊢
    cases fuel with
    | zero => simp at hf
    | succ fuel =>
      have := takeWhile_low (fun x hx => (hr x hx).1) (startsHead_encs ht) (t := r)
      simp only [List.cons_append, findallF, hc, if_true, this.1, this.2, List.map_cons, e]
      rw [ih ht fuel (by simp at hf; omega)]

theorem mapM_ok {α β : Type} (f : α → Except PyErr β) (g : α → β) (l : List α)
    (h : ∀ a ∈ l, f a = .ok (g a)) : l.mapM f = .ok (l.map g) := by
  induction l with
  | nil => rfl
  | cons a t ih =>
    rw [List.mapM_cons, h a (by simp), ih (fun x hx => h x (by simp [hx]))]
    rfl

theorem decode_encs {ws : List Int} (h : ∀ w ∈ ws, Valid w) : decode (encs ws) = .ok ws := by
  unfold decode findall
  rw [findallF_encs h _ (le_refl _), List.mapM_map]
  rw [mapM_ok _ id ws]
  · simp
  · intro w hw
    have := h w hw
    unfold Valid at this
    simp only [Function.comp_apply, id]
    rw [decodeOne_enc (by omega)]
    congr 1
    omega

/-! ### occurrences -/

/-- an occurrence of a head character splits the document at a word boundary -/
theorem boundary {ws : List Int} (h : ∀ w ∈ ws, Valid w) {p s : List Nat} {c : Nat}
    (hc : isHead c = true) (e : encs ws = p ++ c :: s) :
    ∃ a b, ws = a ++ b ∧ encs a = p ∧ encs b = c :: s := by
  induction ws generalizing p with
  | nil => simp [encs] at e
  | cons w t ih =>
    have ht : ∀ w ∈ t, Valid w := fun x hx => h x (by simp [hx])
    cases p with
    | nil => exact ⟨[], w :: t, rfl, rfl, e⟩
    | cons x p =>
      obtain ⟨d, r, ed, hd, hr⟩ := enc_shape (n := w.toNat) (by have := h w (by simp); unfold Valid at this; omega)
      have e2 := e
      rw [encs_cons, ed] at e2
      simp only [List.cons_append, List.cons.injEq] at e2
      obtain ⟨rfl, e2⟩ := e2
      -- r ++ encs t = p ++ c :: s ; r is all low, c is a head
      have hsplit : ∃ p', p = r ++ p' ∧ encs t = p' ++ c :: s := by
        rcases List.append_eq_append_iff.1 e2 with ⟨a', h1, h2⟩ | ⟨c', h1, h2⟩
        · exact ⟨a', h1, h2⟩
        · cases c' with
          | nil => exact ⟨[], by simpa using h1.symm, by simpa using h2.symm⟩
          | cons y c' =>
            simp only [List.cons_append, List.cons.injEq] at h2
            have hy := hr y (by rw [h1]; simp)
            rw [← h2.1, hc] at hy
            exact absurd hy.2 (by simp)
      obtain ⟨p', hp', et⟩ := hsplit
      obtain ⟨a, b, e1, e3, e4⟩ := ih ht et
      refine ⟨w :: a, b, by rw [e1]; rfl, ?_, e4⟩
      rw [encs_cons, ed, e3, hp']; rfl

/-- a code that begins with the code of `w` begins with a word of which that is a prefix; and if
something starting with a head character follows, it is `w` itself -/
theorem prefix_word {ws : List Int} (h : ∀ w ∈ ws, Valid w) {n : Nat} (hn : n < 0x10000000)
    {s : List Nat} (e : encs ws = enc n ++ s) :
    ∃ x t, ws = x :: t ∧ enc n <+: enc x.toNat := by
  cases ws with
  | nil =>
    obtain ⟨c, r, ec, _⟩ := enc_shape hn
    rw [ec] at e; simp [encs] at e
  | cons x t =>
    refine ⟨x, t, rfl, ?_⟩
    have ht : ∀ w ∈ t, Valid w := fun y hy => h y (by simp [hy])
    rw [encs_cons] at e
    rcases List.append_eq_append_iff.1 e with ⟨a', h1, h2⟩ | ⟨c', h1, h2⟩
    · -- enc n = enc x ++ a', a' must be empty as it would start with a head
      cases a' with
      | nil => rw [h1]; simp
      | cons y a' =>
        obtain ⟨c, r, ec, hc, hr⟩ := enc_shape hn
        obtain ⟨d, q, ed, hd, hq⟩ := enc_shape (n := x.toNat) (by have := h x (by simp); unfold Valid at this; omega)
        have hy : isHead y = true := by
          have := startsHead_encs ht
          rw [h2] at this
          exact this
        rw [ec, ed] at h1
        simp only [List.cons_append, List.cons.injEq] at h1
        have : y ∈ r := by rw [h1.2]; simp
        have := (hr y this).2
        rw [hy] at this
        exact absurd this (by simp)
    · rw [h1]; simp

theorem prefix_word_head {ws : List Int} (h : ∀ w ∈ ws, Valid w) {n : Nat} (hn : n < 0x10000000)
    {s : List Nat} {c : Nat} (hc : isHead c = true) (e : encs ws = enc n ++ c :: s) :
    ∃ x t, ws = x :: t ∧ x.toNat = n ∧ encs t = c :: s := by
  obtain ⟨a, b, e1, e2, e3⟩ := boundary h hc e
  cases a with
  | nil =>
    obtain ⟨c, r, ec, _⟩ := enc_shape hn
    rw [ec] at e2; simp [encs] at e2
  | cons x a =>
    have hx : Valid x := h x (by rw [e1]; simp)
    have ha : ∀ w ∈ a, Valid w := fun w hw => h w (by rw [e1]; simp [hw])
    have hxn : x.toNat < 0x10000000 := by unfold Valid at hx; omega
    -- enc x ++ encs a = enc n : encs a starts with a head, so it is empty
    have : a = [] := by
      cases a with
      | nil => rfl
      | cons y a =>
        obtain ⟨d, q, ed, hd, hq⟩ := enc_shape (n := y.toNat) (by have := ha y (by simp); unfold Valid at this; omega)
        obtain ⟨c', r, ec, hc', hr⟩ := enc_shape hn
        obtain ⟨d', q', ed', hd', hq'⟩ := enc_shape hxn
        rw [encs_cons, encs_cons, ed, ed', ec] at e2
        simp only [List.cons_append, List.cons.injEq] at e2
        have : d ∈ r := by rw [← e2.2]; simp
        have := (hr d this).2
        rw [hd] at this
        exact absurd this (by simp)
    subst this
    refine ⟨x, b, by simpa using e1, ?_, e3⟩
    apply enc_inj hxn hn
    simpa [encs] using e2

/-- how a phrase can occur in a document at byte level -/
theorem occ_prefix {ws : List Int} {l : Int} {init : List Int} (h : ∀ w ∈ ws, Valid w)
    (hi : ∀ w ∈ init, Valid w) (hl : Valid l) {s : List Nat} (e : encs ws = encs (init ++ [l]) ++ s) :
    ∃ x post, ws = init ++ x :: post ∧ enc l.toNat <+: enc x.toNat := by
  induction init generalizing ws with
  | nil =>
    simp only [List.nil_append] at e ⊢
    rw [encs_cons] at e
    exact prefix_word h (by unfold Valid at hl; omega) (by simpa [encs] using e)
  | cons w init ih =>
    have hw := hi w (by simp)
    have hi' : ∀ w ∈ init, Valid w := fun x hx => hi x (by simp [hx])
    rw [List.cons_append, encs_cons, List.append_assoc] at e
    have hne : ∃ c r, encs (init ++ [l]) ++ s = c :: r ∧ isHead c = true := by
      have hv : ∀ w ∈ init ++ [l], Valid w := by
        intro x hx
        rcases List.mem_append.1 hx with hx | hx
        · exact hi' x hx
        · simp only [List.mem_singleton] at hx; subst hx; exact hl
      have := startsHead_encs hv
      cases hE : encs (init ++ [l]) with
      | nil =>
        exfalso
        rw [encs_append] at hE
        have := (List.append_eq_nil_iff.1 hE).2
        obtain ⟨c, r, ec, _⟩ := enc_shape (n := l.toNat) (by unfold Valid at hl; omega)
        simp [encs, ec] at this
      | cons c r =>
        rw [hE] at this
        exact ⟨c, r ++ s, rfl, this⟩
    obtain ⟨c, r, ecr, hc⟩ := hne
    rw [ecr] at e
    obtain ⟨x, t, e1, e2, e3⟩ := prefix_word_head h (by unfold Valid at hw; omega) hc e
    have hx : Valid x := h x (by rw [e1]; simp)
    have hxw : x = w := by unfold Valid at hx hw; omega
    subst hxw
    rw [← ecr] at e3
    obtain ⟨y, post, e4, e5⟩ := ih (fun y hy => h y (by rw [e1]; simp [hy])) hi' e3
    exact ⟨y, post, by rw [e1, e4]; rfl, e5⟩

/-- when the code of `l` is a prefix of the code of `x` -/
theorem enc_prefix_iff {l x : Nat} (hl : l < 0x10000000) (hx : x < 0x10000000) :
    enc l <+: enc x ↔ (l = 0 → x = 0) ∧ ∃ j, x / 128 ^ j = l := by
  constructor
  · intro h
    unfold enc at h
    constructor
    · rintro rfl
      simp only [Nat.zero_add, Nat.reduceLT, if_true] at h
      split at h
      · simp at h; omega
      · split at h
        · simp at h; omega
        · split at h
          · simp at h; omega
          · simp at h; omega
    · split at h
      · split at h
        · exact ⟨0, by simp at h; omega⟩
        · split at h
          · exact ⟨1, by simp at h; omega⟩
          · split at h
            · exact ⟨2, by simp at h; omega⟩
            · exact ⟨3, by simp at h; omega⟩
      · split at h
        · split at h
          · simp at h
          · split at h
            · exact ⟨0, by simp at h; omega⟩
            · split at h
              · exact ⟨1, by simp at h; omega⟩
              · exact ⟨2, by simp at h; omega⟩
        · split at h
          · split at h
            · simp at h
            · split at h
              · simp at h
              · split at h
                · exact ⟨0, by simp at h; omega⟩
                · exact ⟨1, by simp at h; omega⟩
          · split at h
            · simp at h
            · split at h
              · simp at h
              · split at h
                · simp at h
                · exact ⟨0, by simp at h; omega⟩
  · rintro ⟨h0, j, hj⟩
    by_cases hz : l = 0
    · rw [h0 hz, hz]; exact List.prefix_rfl
    · have hj4 : j < 4 := by
        by_contra hc
        have : 128 ^ 4 ≤ 128 ^ j := Nat.pow_le_pow_right (by omega) (by omega)
        have : x / 128 ^ j = 0 := Nat.div_eq_of_lt (by omega)
        omega
      have hcase : j = 0 ∨ j = 1 ∨ j = 2 ∨ j = 3 := by omega
      unfold enc
      rcases hcase with rfl | rfl | rfl | rfl
      · simp only [pow_zero, Nat.div_one] at hj
        subst hj
        exact List.prefix_rfl
      · have hj : x / 128 = l := by simpa using hj
        subst hj
        split
        · rw [if_neg (by omega), if_pos (by omega)]; simp
        · rw [if_neg (by omega : ¬ x < 0x80)]
          split
          · rw [if_neg (by omega), if_pos (by omega)]; simp [Nat.div_div_eq_div_mul]
          · rw [if_neg (by omega : ¬ x < 0x4000)]
            rw [if_pos (by omega), if_neg (by omega)]; simp [Nat.div_div_eq_div_mul]
      · have hj : x / 16384 = l := by simpa using hj
        subst hj
        split
        · rw [if_neg (by omega), if_neg (by omega), if_pos (by omega)]; simp
        · rw [if_neg (by omega : ¬ x < 0x80), if_neg (by omega : ¬ x < 0x4000), if_pos (by omega),
            if_neg (by omega)]; simp [Nat.div_div_eq_div_mul]
      · have hj : x / 2097152 = l := by simpa using hj
        subst hj
        rw [if_pos (by omega), if_neg (by omega), if_neg (by omega), if_neg (by omega)]; simp

/-! ### `str.find` -/

theorem pyFindFrom_nonneg (pat s : List Nat) (i : Nat) : 0 ≤ pyFindFrom pat s i ↔ pat <:+: s := by
  induction s generalizing i with
  | nil =>
    unfold pyFindFrom
    by_cases h : pat.isPrefixOf [] = true
    · rw [if_pos h]
      rw [List.isPrefixOf_iff_prefix] at h
      simp [h.isInfix]
    · rw [if_neg h]
      rw [List.isPrefixOf_iff_prefix] at h
      constructor
      · intro h'; omega
      · intro h'
        exfalso; apply h
        have : pat = [] := by simpa using h'
        rw [this]; exact List.prefix_rfl
  | cons c t ih =>
    unfold pyFindFrom
    by_cases h : pat.isPrefixOf (c :: t) = true
    · rw [if_pos h]
      rw [List.isPrefixOf_iff_prefix] at h
      simp [h.isInfix]
    · rw [if_neg h]
      rw [List.isPrefixOf_iff_prefix] at h
      rw [ih, List.infix_cons_iff]
      constructor
      · exact Or.inr
      · rintro (h' | h')
        · exact absurd h' h
        · exact h'

theorem pyFind_nonneg (s pat : List Nat) : 0 ≤ pyFind s pat ↔ pat <:+: s := pyFindFrom_nonneg pat s 0

end Verif.WidCode
