import Verif.Proofs.WidCode

/-! # C31, C32, C33: word id coding

`a <:+: b` says that `a` occurs as a contiguous run in `b`; `a <+: b` that it is a prefix. -/

set_option autoImplicit false

namespace Verif

open WidCode

/-- **C31.** Round trip for every list of word ids in `[0, 2^28)`. -/
theorem C31_round_trip (wids : List Int) (h : ∀ w ∈ wids, 0 ≤ w ∧ w < 2 ^ 28) :
    ∃ code, encode wids = .ok code ∧ decode code = .ok wids := by
  have h' : ∀ w ∈ wids, Valid w := fun w hw => by have := h w hw; unfold Valid; omega
  exact ⟨encs wids, encode_ok h', decode_encs h'⟩

/-- **C31.** A word id of `2^28` or more (among non-negative ones) makes `encode` raise
`AssertionError`. -/
theorem C31_too_large (wids : List Int) (h0 : ∀ w ∈ wids, 0 ≤ w) (h : ∃ w ∈ wids, 2 ^ 28 ≤ w) :
    encode wids = .error .AssertionError := by
  induction wids with
  | nil => simp at h
  | cons w t ih =>
    unfold encode
    by_cases hw : (2 : Int) ^ 28 ≤ w
    · rw [encodeOne_error (by omega)]; rfl
    · have hv : Valid w := by have := h0 w (by simp); unfold Valid; omega
      rw [encodeOne_ok hv, ih (fun x hx => h0 x (by simp [hx]))]
      · rfl
      · obtain ⟨x, hx, hx2⟩ := h
        rcases List.mem_cons.1 hx with rfl | hx
        · exact absurd hx2 hw
        · exact ⟨x, hx, hx2⟩

/-- Outside the documented domain: negative ids down to `-2^14` are silently encoded as if `2^14`
had been added, so the round trip fails for them. -/
theorem C31_negative (w : Int) (h : -0x4000 ≤ w ∧ w < 0) : encode [w] = encode [w + 0x4000] := by
  have : encodeOne w = encodeOne (w + 0x4000) := by
    unfold encodeOne
    rw [if_pos (by omega), if_neg (by omega), if_pos h.1, if_pos (by omega), if_pos (by omega)]
  unfold encode
  rw [this]

/-- non-vacuity of C31: ids of one to four characters -/
example : encode [1, 128, 100000, 99999999] =
    .ok [129, 129, 0, 134, 13, 32, 175, 87, 65, 127] := by decide
example : decode [129, 129, 0, 134, 13, 32, 175, 87, 65, 127] = .ok [1, 128, 100000, 99999999] := by decide

/-- **C32.** Encoding is a homomorphism for concatenation. -/
theorem C32_append (a b : List Int) :
    encode (a ++ b) = (do let x ← encode a; let y ← encode b; return x ++ y) := by
  induction a with
  | nil =>
    simp only [List.nil_append, encode]
    cases encode b <;> rfl
  | cons w t ih =>
    simp only [List.cons_append, encode, ih]
    cases encodeOne w with
    | error e => rfl
    | ok x =>
      cases encode t with
      | error e => rfl
      | ok y =>
        cases encode b with
        | error e => rfl
        | ok z => simp [bind, Except.bind, pure, Except.pure]

/-- **C32.** Encoding is injective on valid word ids. -/
theorem C32_injective (a b : List Int) (ha : ∀ w ∈ a, 0 ≤ w ∧ w < 2 ^ 28)
    (hb : ∀ w ∈ b, 0 ≤ w ∧ w < 2 ^ 28) (h : encode a = encode b) : a = b := by
  obtain ⟨x, hx, dx⟩ := C31_round_trip a ha
  obtain ⟨y, hy, dy⟩ := C31_round_trip b hb
  rw [hx, hy] at h
  cases h
  rw [dx] at dy
  exact Except.ok.inj dy

/-- **C32.** An occurrence of an encoded non-empty phrase in an encoded document starts at the
boundary of an encoded word id. -/
theorem C32_boundary (doc wids : List Int) (hd : ∀ w ∈ doc, 0 ≤ w ∧ w < 2 ^ 28)
    (hw : ∀ w ∈ wids, 0 ≤ w ∧ w < 2 ^ 28) (hne : wids ≠ []) (D W p s : List Nat)
    (eD : encode doc = .ok D) (eW : encode wids = .ok W) (h : D = p ++ W ++ s) :
    ∃ before after, doc = before ++ after ∧ encode before = .ok p := by
  have hd' : ∀ w ∈ doc, Valid w := fun w hw => by have := hd w hw; unfold Valid; omega
  have hw' : ∀ w ∈ wids, Valid w := fun w hw'' => by have := hw w hw''; unfold Valid; omega
  rw [encode_ok hd'] at eD
  rw [encode_ok hw'] at eW
  cases eD; cases eW
  cases wids with
  | nil => exact absurd rfl hne
  | cons w t =>
    obtain ⟨c, r, ec, hc, _⟩ := enc_shape (n := w.toNat) (by have := hw' w (by simp); unfold Valid at this; omega)
    rw [encs_cons, ec, List.append_assoc] at h
    obtain ⟨a, b, e1, e2, _⟩ := boundary hd' hc h
    refine ⟨a, b, e1, ?_⟩
    rw [encode_ok (fun w hw => hd' w (by rw [e1]; simp [hw])), e2]

/-- **C33 is false of the code**: word 1 is "found" in the document consisting of word 128 only,
because the code `81` of 1 is a prefix of the code `81 00` of 128. -/
theorem C33_fails : ∃ doc wids : List Int, (∀ w ∈ doc, 0 ≤ w ∧ w < 2 ^ 28) ∧
    (∀ w ∈ wids, 0 ≤ w ∧ w < 2 ^ 28) ∧ wids ≠ [] ∧
    ∃ D W, encode doc = .ok D ∧ encode wids = .ok W ∧ 0 ≤ pyFind D W ∧ ¬ wids <:+: doc := by
  refine ⟨[128], [1], by decide, by decide, by decide, [129, 0], [129], by decide, by decide, by decide, ?_⟩
  decide

/-- **C33, one direction.** A phrase that occurs is always found. -/
theorem C33_no_false_negative_partial (doc wids : List Int) (hd : ∀ w ∈ doc, 0 ≤ w ∧ w < 2 ^ 28)
    (D W : List Nat) (eD : encode doc = .ok D) (eW : encode wids = .ok W) (h : wids <:+: doc) :
    0 ≤ pyFind D W := by
  have hd' : ∀ w ∈ doc, Valid w := fun w hw => by have := hd w hw; unfold Valid; omega
  obtain ⟨a, b, rfl⟩ := h
  have hw' : ∀ w ∈ wids, Valid w := fun w hw => hd' w (by simp [hw])
  rw [encode_ok hd'] at eD
  rw [encode_ok hw'] at eW
  cases eD; cases eW
  rw [pyFind_nonneg, encs_append, encs_append]
  exact ⟨encs a, encs b, rfl⟩

/-- **C33, exact characterisation.** A phrase `init ++ [last]` is found iff the document contains
`init` followed by a word `x` that is `last` with base 128 digits appended (possibly none). -/
theorem C33_characterisation_partial (doc init : List Int) (last : Int)
    (hd : ∀ w ∈ doc, 0 ≤ w ∧ w < 2 ^ 28)
    (hw : ∀ w ∈ init ++ [last], 0 ≤ w ∧ w < 2 ^ 28) (D W : List Nat)
    (eD : encode doc = .ok D) (eW : encode (init ++ [last]) = .ok W) :
    0 ≤ pyFind D W ↔
      ∃ x, init ++ [x] <:+: doc ∧ (last = 0 → x = 0) ∧ ∃ j : Nat, x / 128 ^ j = last := by
  have hd' : ∀ w ∈ doc, Valid w := fun w hw => by have := hd w hw; unfold Valid; omega
  have hw' : ∀ w ∈ init ++ [last], Valid w := fun w hw'' => by have := hw w hw''; unfold Valid; omega
  have hi : ∀ w ∈ init, Valid w := fun w h => hw' w (by simp [h])
  have hl : Valid last := hw' last (by simp)
  have conv : ∀ x : Int, Valid x → (enc last.toNat <+: enc x.toNat ↔
      (last = 0 → x = 0) ∧ ∃ j : Nat, x / 128 ^ j = last) := by
    intro x hx
    unfold Valid at hx hl
    rw [enc_prefix_iff (by omega) (by omega)]
    obtain ⟨n, rfl⟩ := Int.eq_ofNat_of_zero_le hx.1
    obtain ⟨m, rfl⟩ := Int.eq_ofNat_of_zero_le hl.1
    simp only [Int.toNat_natCast]
    constructor
    · rintro ⟨h1, j, h2⟩
      refine ⟨fun h => by have := h1 (by omega); omega, j, ?_⟩
      rw [← h2]; simp
    · rintro ⟨h1, j, h2⟩
      refine ⟨fun h => by have := h1 (by omega); omega, j, ?_⟩
      have : ((n / 128 ^ j : Nat) : Int) = (m : Int) := by rw [← h2]; simp
      omega
  rw [encode_ok hd'] at eD
  rw [encode_ok hw'] at eW
  cases eD; cases eW
  rw [pyFind_nonneg]
  constructor
  · rintro ⟨p, s, e⟩
    have hhead : ∃ c r, encs (init ++ [last]) = c :: r ∧ isHead c = true := by
      have h1 := startsHead_encs hw'
      cases hE : encs (init ++ [last]) with
      | nil =>
        exfalso
        rw [encs_append] at hE
        have := (List.append_eq_nil_iff.1 hE).2
        obtain ⟨c, r, ec, _⟩ := enc_shape (n := last.toNat) (by unfold Valid at hl; omega)
        simp [encs, ec] at this
      | cons c r => rw [hE] at h1; exact ⟨c, r, rfl, h1⟩
    obtain ⟨c, r, ecr, hc⟩ := hhead
    rw [List.append_assoc, ecr] at e
    obtain ⟨a, b, e1, e2, e3⟩ := boundary hd' hc (p := p) (s := r ++ s) (by rw [← e]; rfl)
    have hb : ∀ w ∈ b, Valid w := fun w hw => hd' w (by rw [e1]; simp [hw])
    obtain ⟨x, post, e4, e5⟩ := occ_prefix hb hi hl (s := s) (by rw [e3, ecr]; rfl)
    have hx : Valid x := hb x (by rw [e4]; simp)
    refine ⟨x, ⟨a, post, by rw [e1, e4]; simp⟩, (conv x hx).1 e5⟩
  · rintro ⟨x, ⟨a, post, rfl⟩, h⟩
    have hx : Valid x := hd' x (by simp)
    obtain ⟨t, ht⟩ := (conv x hx).2 h
    refine ⟨encs a, t ++ encs post, ?_⟩
    simp only [encs_append, encs_cons, List.append_assoc]
    rw [← ht]
    simp [encs]

/-- **C33 holds** for documents whose words cannot extend the phrase's last word; in particular for
lexicons with fewer than 128 words, where every id is below 128. -/
theorem C33_small_lexicon_partial (doc wids : List Int) (hd : ∀ w ∈ doc, 0 ≤ w ∧ w < 128)
    (hw : ∀ w ∈ wids, 0 ≤ w ∧ w < 2 ^ 28) (D W : List Nat)
    (eD : encode doc = .ok D) (eW : encode wids = .ok W) :
    0 ≤ pyFind D W ↔ wids <:+: doc := by
  have hd2 : ∀ w ∈ doc, 0 ≤ w ∧ w < (2 : Int) ^ 28 := fun w h => by have := hd w h; omega
  constructor
  · intro h
    rcases List.eq_nil_or_concat wids with rfl | ⟨init, last, rfl⟩
    · simp
    · rw [List.concat_eq_append] at hw eW ⊢
      obtain ⟨x, hx, h0, j, hj⟩ := (C33_characterisation_partial doc init last hd2 hw D W eD eW).1 h
      have hxd : x ∈ doc := hx.subset (by simp)
      have := hd x hxd
      have hxl : x = last := by
        cases j with
        | zero => simpa using hj
        | succ j =>
          have h1 : x / 128 ^ (j + 1) = 0 := by
            apply Int.ediv_eq_zero_of_lt this.1
            have h3 : (128 : Int) ^ (j + 1) = 128 ^ j * 128 := pow_succ _ _
            have h2 : (0 : Int) < 128 ^ j := Int.pow_pos (by omega)
            omega
          rw [h1] at hj
          rw [← hj]
          exact h0 hj.symm
      rw [hxl] at hx
      exact hx
  · intro h
    exact C33_no_false_negative_partial doc wids hd2 D W eD eW h

/-- non-vacuity of the characterisation: the false match of `C33_fails` is the case `j = 1` -/
example : (128 : Int) / 128 ^ 1 = 1 := by decide

end Verif
