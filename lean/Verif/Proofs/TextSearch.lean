import Verif.Props.TextIndex
import Verif.Props.SetOps

/-! # Searches of the text indexes -/

set_option autoImplicit false

namespace Verif

namespace Spec

variable {R : Type}

/-- what is needed of an arithmetic so that scores are defined and positive: operations on positive numbers are defined and yield
positive numbers, and inverse document frequencies are positive (`log`: `n` of `N` documents contain the word).  (The real numbers
satisfy this; so do floating point numbers as long as nothing underflows.) -/
structure Positive (A : Arith R) (Pos : R → Prop) : Prop where
  one : Pos A.one
  ofNat : ∀ n, 0 < n → Pos (A.ofNat n)
  ofInt : ∀ n, 0 < n → Pos (A.ofInt n)
  add : ∀ x y, Pos x → Pos y → Pos (A.add x y)
  zeroAdd : ∀ x, Pos x → Pos (A.add A.zero x)
  mul : ∀ x y, Pos x → Pos y → Pos (A.mul x y)
  div : ∀ x y, Pos x → Pos y → ∃ z, A.div x y = some z ∧ Pos z
  log : ∀ N n : Nat, 0 < n → n ≤ N → ∀ x q, x = A.ofNat N ∨ x = A.ofInt N → A.div x (A.ofNat n) = some q →
    ∃ z, A.log (A.add A.one q) = some z ∧ Pos z
  logNat : ∀ n, 0 < n → ∃ z, A.log (A.ofNat n) = some z ∧ Pos (A.add A.one z)
  sqrt : ∀ x, Pos x → ∃ z, A.sqrt x = some z ∧ Pos z
  sqrtZero : ∃ z, A.sqrt A.zero = some z ∧ A.isZero z = true
  zero : A.isZero A.zero = true
  store : ∀ x, Pos x → Pos (A.store x)
  neq : ∀ x y, Pos x → Pos y → A.neq x y = false → x = y
  isZero : ∀ x, Pos x → A.isZero x = false

/-- what is needed of the parameters of the Okapi ranking -/
structure PosParams (A : Arith R) (Pos : R → Prop) (P : Text.Bm25 R) : Prop where
  k1 : Pos P.k1
  b : Pos P.b
  oneMinusB : Pos (A.sub A.one P.b)

end Spec

namespace Text

open Spec SetOps

variable {D R : Type} [LinearOrder D]

/-! ## loops -/

/-- a loop that sets values of distinct keys -/
theorem foldlM_set (stp : SMap D R → D × R → Except PyErr (SMap D R)) (h : D → R → Option R) (l : List (D × R))
    (hn : l.Pairwise (fun a b => a.1 < b.1))
    (hs : ∀ p ∈ l, ∀ acc, stp acc p = .ok (match h p.1 p.2 with | some v => acc.set p.1 v | none => acc)) (m : SMap D R) :
    ∃ r, l.foldlM stp m = .ok r ∧ ∀ d, r.get? d = ((SMap.getL l d).bind (h d)).or (m.get? d) := by
  induction l generalizing m with
  | nil => exact ⟨m, rfl, fun d => by simp⟩
  | cons p l ih =>
    rw [List.pairwise_cons] at hn
    obtain ⟨r, e, hr⟩ := ih hn.2 (fun q hq => hs q (by simp [hq])) (match h p.1 p.2 with | some v => m.set p.1 v | none => m)
    refine ⟨r, ?_, ?_⟩
    · rw [List.foldlM_cons, hs p (by simp)]; exact e
    · intro d
      rw [hr d, SMap.getL_cons]
      by_cases hd : p.1 = d
      · subst hd
        rw [if_pos rfl, SMap.getL_eq_none (fun q hq e => by have := hn.1 q hq; rw [e] at this; exact lt_irrefl _ this)]
        rw [Option.bind_some, Option.bind_none, Option.none_or]
        cases h p.1 p.2 with
        | none => simp
        | some v => simp
      · rw [if_neg hd]
        cases h p.1 p.2 with
        | none => rfl
        | some v => simp only; rw [SMap.get?_set_ne _ (Ne.symm hd)]

theorem mapM_forall₂ {α β : Type} (f : α → Except PyErr β) (Q : α → β → Prop) (l : List α)
    (h : ∀ a ∈ l, ∃ y, f a = .ok y ∧ Q a y) : ∃ L, l.mapM f = .ok L ∧ List.Forall₂ Q l L := by
  induction l with
  | nil => exact ⟨[], rfl, .nil⟩
  | cons a l ih =>
    obtain ⟨y, e, hq⟩ := h a (by simp)
    obtain ⟨L, e', hL⟩ := ih (fun b hb => h b (by simp [hb]))
    refine ⟨y :: L, ?_, .cons hq hL⟩
    rw [List.mapM_cons, e]
    show (l.mapM f >>= fun r => _) = _
    rw [e']; rfl

theorem forall₂_right {α β : Type} {Q : α → β → Prop} {l : List α} {L : List β} (h : List.Forall₂ Q l L) {y : β} (hy : y ∈ L) :
    ∃ a ∈ l, Q a y := by
  induction h with
  | nil => cases hy
  | cons h _ ih =>
    rcases List.mem_cons.1 hy with rfl | hy
    · exact ⟨_, by simp, h⟩
    · obtain ⟨a, h1, h2⟩ := ih hy
      exact ⟨a, by simp [h1], h2⟩

/-! ## positive unions and intersections -/

section pos

/-- the arithmetic of weighted unions and intersections stays among the numbers with `Pos` -/
structure Closed (A : WArith R) (Pos : R → Prop) : Prop where
  one : Pos A.one
  add : ∀ x y, Pos x → Pos y → Pos (A.add x y)
  mul : ∀ x y, Pos x → Pos y → Pos (A.mul x y)

theorem _root_.Verif.Spec.Positive.closed {A : Arith R} {Pos : R → Prop} (hA : Positive A Pos) : Closed A.toWArith Pos :=
  ⟨hA.one, hA.add, hA.mul⟩

variable {A : WArith R} {Pos : R → Prop} (hA : Closed A Pos)

/-- the map has positive values only -/
def PosMap (Pos : R → Prop) (m : SMap D R) : Prop := ∀ d v, m.get? d = some v → Pos v

include hA

theorem posMap_wUnion {x y : SMap D R} {wx wy : R} (hx : PosMap Pos x) (hy : PosMap Pos y) (hwx : Pos wx) (hwy : Pos wy) :
    PosMap Pos (wUnion A x y wx wy) := by
  intro d v h
  rw [get?_wUnion] at h
  unfold wUnionVal at h
  cases h1 : x.get? d with
  | none =>
    cases h2 : y.get? d with
    | none => rw [h1, h2] at h; cases h
    | some b => rw [h1, h2] at h; cases h; exact hA.mul _ _ (hy d b h2) hwy
  | some a =>
    cases h2 : y.get? d with
    | none => rw [h1, h2] at h; cases h; exact hA.mul _ _ (hx d a h1) hwx
    | some b => rw [h1, h2] at h; cases h; exact hA.add _ _ (hA.mul _ _ (hx d a h1) hwx) (hA.mul _ _ (hy d b h2) hwy)

theorem posMap_wInter {x y : SMap D R} {wx wy : R} (hx : PosMap Pos x) (hy : PosMap Pos y) (hwx : Pos wx) (hwy : Pos wy) :
    PosMap Pos (wInter A x y wx wy) := by
  intro d v h
  rw [get?_wInter] at h
  unfold wInterVal at h
  cases h1 : x.get? d with
  | none => rw [h1] at h; cases h
  | some a =>
    cases h2 : y.get? d with
    | none => rw [h1, h2] at h; cases h
    | some b => rw [h1, h2] at h; cases h; exact hA.add _ _ (hA.mul _ _ (hx d a h1) hwx) (hA.mul _ _ (hy d b h2) hwy)

theorem posMap_empty_wUnion {x : SMap D R} {wx : R} (hx : PosMap Pos x) (hwx : Pos wx) :
    PosMap Pos (wUnion A SMap.empty x A.zero wx) := by
  intro d v h
  rw [get?_wUnion] at h
  unfold wUnionVal at h
  cases h2 : x.get? d with
  | none => rw [h2] at h; simp at h
  | some b => rw [h2] at h; simp at h; subst h; exact hA.mul _ _ (hx d b h2) hwx

theorem trivial_pos {L : List (SMap D R × R)} (hL : ∀ p ∈ L, PosMap Pos p.1 ∧ Pos p.2) {m : SMap D R}
    (h : trivialOp A L = .ok m) : PosMap Pos m := by
  match L, hL, h with
  | [], _, h => cases h; intro d v hv; simp at hv
  | [(x, w)], hL, h =>
    obtain ⟨h1, h2⟩ := hL (x, w) (by simp)
    unfold trivialOp at h
    simp only at h
    split at h
    · cases h; exact posMap_empty_wUnion hA h1 h2
    · cases h; exact h1
  | _ :: _ :: _, _, h => cases h

theorem massUnion_pos {L : List (SMap D R × R)} (hL : ∀ p ∈ L, PosMap Pos p.1 ∧ Pos p.2) {m : SMap D R}
    (h : massUnion A L = .ok m) : PosMap Pos m := by
  by_cases h2 : L.length < 2
  · unfold massUnion at h
    rw [if_pos h2] at h
    exact trivial_pos hA hL h
  · obtain ⟨r, e, hr⟩ := massUnion_spec A L (by omega) (fun Q => ∀ p ∈ Q, PosMap Pos p.1 ∧ Pos p.2)
      (fun hp ha p hm => ha p (hp.mem_iff.2 hm))
      (by
        intro x wx y wy rest ha p hm
        rcases List.mem_cons.1 hm with rfl | hm
        · have h1 := ha (x, wx) (by simp)
          have h2 := ha (y, wy) (by simp)
          exact ⟨posMap_wUnion hA h1.1 h2.1 h1.2 h2.2, hA.one⟩
        · exact ha p (by simp [hm]))
      hL
    rw [e] at h
    cases h
    exact (hr (m, A.one) (by simp)).1

theorem massIntersection_pos {L : List (Option (SMap D R) × R)} (hL : ∀ p ∈ presentMaps L, PosMap Pos p.1 ∧ Pos p.2) {m : SMap D R}
    (h : massIntersection A L = .ok m) : PosMap Pos m := by
  unfold massIntersection at h
  change ∀ p ∈ dropNone L, _ at hL
  simp only at h
  generalize dropNone L = M at hL h
  by_cases h2 : M.length < 2
  · rw [if_pos h2] at h
    exact trivial_pos hA hL h
  · rw [if_neg h2] at h
    obtain ⟨x, wx, y, wy, rest, e⟩ := sortByLen_cases M h2
    rw [e] at h
    have hm : ∀ p ∈ (x, wx) :: (y, wy) :: rest, PosMap Pos p.1 ∧ Pos p.2 := by
      intro p hp
      rw [← e] at hp
      exact hL p ((sortByLen_perm M).mem_iff.1 hp)
    cases h
    have key : ∀ (l : List (SMap D R × R)) (r : SMap D R), (∀ p ∈ l, PosMap Pos p.1 ∧ Pos p.2) → PosMap Pos r →
        PosMap Pos (l.foldl (interStep A) r) := by
      intro l
      induction l with
      | nil => intro r _ hr; exact hr
      | cons p l ih =>
        intro r hl hr
        have := hl p (by simp)
        exact ih _ (fun q hq => hl q (by simp [hq])) (posMap_wInter hA hr this.1 hA.one this.2)
    have h1 := hm (x, wx) (by simp)
    have h2 := hm (y, wy) (by simp)
    exact key rest _ (fun p hp => hm p (by simp [hp])) (posMap_wInter hA h1.1 h2.1 h1.2 h2.2)

end pos

/-! ## `_search_wids` -/

/-- `_search_wids` succeeds for words of the index and returns maps of positive scores of exactly the documents with these words -/
def SearchOk (K : Kind D R) (Pos : R → Prop) (s : Ix D R) : Prop :=
  ∀ wids, (∀ w ∈ wids, s.wordinfo.contains w = true) → ∃ L, K.searchWids s wids = .ok L ∧
    List.Forall₂ (fun wid (p : SMap D R × R) => (∀ d, d ∈ p.1.keys ↔ (storedWeight s wid d).isSome) ∧ PosMap Pos p.1 ∧ Pos p.2) wids L

theorem pyDiv_ok {A : Arith R} {Pos : R → Prop} (hA : Positive A Pos) {x y : R} (hx : Pos x) (hy : Pos y) :
    ∃ z, pyDiv A x y = .ok z ∧ Pos z := by
  obtain ⟨z, e, hz⟩ := hA.div x y hx hy
  exact ⟨z, by unfold pyDiv; rw [e], hz⟩

theorem idf_ok {A : Arith R} {Pos : R → Prop} (hA : Positive A Pos) {n N : Nat} (hn : 0 < n) (hN : n ≤ N) {x : R}
    (hx : x = A.ofNat N ∨ x = A.ofInt N) : ∃ z, idf A n x = .ok z ∧ Pos z := by
  have hp : Pos x := by
    rcases hx with rfl | rfl
    · exact hA.ofNat _ (by omega)
    · exact hA.ofInt _ (by omega)
  obtain ⟨q, e, -⟩ := hA.div x _ hp (hA.ofNat n hn)
  obtain ⟨z, e', hz⟩ := hA.log N n hn hN x q hx e
  refine ⟨z, ?_, hz⟩
  unfold idf pyDiv
  rw [e]
  simp only [bind_ok]
  unfold pyLog; rw [e']

theorem okapiTf_ok {A : Arith R} {Pos : R → Prop} (hA : Positive A Pos) {P : Bm25 R} (hP : PosParams A Pos P) {f len mean : R}
    (hf : Pos f) (hl : Pos len) (hm : Pos mean) : ∃ z, okapiTf A P f len mean = .ok z ∧ Pos z := by
  obtain ⟨q, e, hq⟩ := pyDiv_ok hA (hA.mul _ _ hP.b hl) hm
  unfold okapiTf
  rw [e, bind_ok]
  exact pyDiv_ok hA (hA.mul _ _ hf (hA.add _ _ hP.k1 hA.one)) (hA.add _ _ hf (hA.mul _ _ hP.k1 (hA.add _ _ hP.oneMinusB hq)))

/-- the state has what Okapi scoring needs -/
structure OkapiReady (Pos : R → Prop) (s : Ix D R) : Prop where
  weight : ∀ wid e, s.wordinfo.get? wid = some e → 0 < e.map.len ∧ PosMap Pos e.map ∧
    e.map.len ≤ s.docweight.len ∧ ∀ d v, e.map.get? d = some v → ∃ len, s.docweight.get? d = some len ∧ Pos len
  nonempty : (∃ wid, s.wordinfo.contains wid = true) → 0 < s.documentCount ∧ 0 < s.total
  count : s.documentCount = s.docweight.len

theorem okapi_searchOk {A : Arith R} {Pos : R → Prop} (hA : Positive A Pos) {P : Bm25 R} (hP : PosParams A Pos P) {s : Ix D R}
    (hs : OkapiReady Pos s) : SearchOk (okapi A P) Pos s := by
  intro wids hw
  show ∃ L, okapiSearchWids A P s wids = .ok L ∧ _
  unfold okapiSearchWids
  cases wids with
  | nil => exact ⟨[], rfl, .nil⟩
  | cons w0 ws =>
    simp only [List.isEmpty_cons, Bool.false_eq_true, if_false]
    obtain ⟨hN, hT⟩ := hs.nonempty ⟨w0, hw w0 (by simp)⟩
    have hN := hA.ofInt _ hN
    obtain ⟨mean, e, hm⟩ := pyDiv_ok hA (hA.ofInt _ hT) hN
    rw [e, bind_ok]
    refine mapM_forall₂ _ _ _ ?_
    intro t ht
    obtain ⟨d2f, hd⟩ := (SMap.contains_iff _ _).1 (hw t ht)
    obtain ⟨hlen, hpos, hle, hdoc⟩ := hs.weight t d2f hd
    obtain ⟨z, ez, hz⟩ := idf_ok hA hlen hle (x := A.ofInt s.documentCount) (Or.inr (by rw [hs.count]))
    unfold okapiWord
    rw [hd]
    simp only
    rw [ez, bind_ok]
    let score : D → R → Option R := fun d f =>
      match s.docweight.get? d with
      | none => none
      | some len => match okapiTf A P f len mean with
        | .ok tf => some (A.store (A.mul tf z))
        | .error _ => none
    have hsc : ∀ p ∈ d2f.map.items, ∃ v, score p.1 p.2 = some v ∧ Pos v ∧
        ∀ acc : SMap D R, okapiScoreStep A P s.docweight z mean acc p = .ok (acc.set p.1 v) := by
      intro p hp
      have hg := (SMap.get?_eq_some_iff _ _ _).2 hp
      obtain ⟨len, hl, hlp⟩ := hdoc p.1 p.2 hg
      obtain ⟨tf, etf, htf⟩ := okapiTf_ok hA hP (hpos p.1 p.2 hg) hlp hm
      refine ⟨A.store (A.mul tf z), ?_, hA.store _ (hA.mul _ _ htf hz), ?_⟩
      · simp only [score, hl, etf]
      · intro acc
        unfold okapiScoreStep
        rw [hl]
        simp only
        rw [etf, bind_ok]; rfl
    obtain ⟨r, er, hr⟩ := foldlM_set (okapiScoreStep A P s.docweight z mean) score d2f.map.items d2f.map.sorted (by
      intro p hp acc
      obtain ⟨v, h1, -, h3⟩ := hsc p hp
      rw [h3, h1]) SMap.empty
    rw [er, bind_ok]
    have hr' : ∀ d, r.get? d = (d2f.map.get? d).bind (score d) := by
      intro d; rw [hr d]; simp only [SMap.get?_empty, Option.or_none]; rfl
    have hsc' : ∀ d f, d2f.map.get? d = some f → ∃ v, score d f = some v ∧ Pos v := by
      intro d f hf
      obtain ⟨v, h1, h2, -⟩ := hsc (d, f) ((SMap.get?_eq_some_iff _ _ _).1 hf)
      exact ⟨v, h1, h2⟩
    refine ⟨_, rfl, ?_, ?_, hA.one⟩
    · intro d
      rw [SMap.mem_keys_iff, hr' d]
      unfold storedWeight
      rw [hd, Option.bind_some]
      cases hf : d2f.map.get? d with
      | none => simp
      | some f =>
        obtain ⟨v, h1, -⟩ := hsc' d f hf
        simp [h1]
    · intro d v hv
      simp only at hv
      rw [hr' d] at hv
      cases hf : d2f.map.get? d with
      | none => rw [hf] at hv; cases hv
      | some f =>
        obtain ⟨v', h1, h2⟩ := hsc' d f hf
        rw [hf, Option.bind_some, h1] at hv
        cases hv
        exact h2

/-- the state has what cosine scoring needs -/
structure CosineReady (Pos : R → Prop) (s : Ix D R) : Prop where
  weight : ∀ wid e, s.wordinfo.get? wid = some e → 0 < e.map.len ∧ PosMap Pos e.map ∧ e.map.len ≤ s.docweight.len
  nonempty : (∃ wid, s.wordinfo.contains wid = true) → 0 < s.docweight.len

theorem cosine_searchOk {A : Arith R} {Pos : R → Prop} (hA : Positive A Pos) {s : Ix D R}
    (hs : CosineReady Pos s) : SearchOk (cosine A) Pos s := by
  intro wids hw
  show ∃ L, cosineSearchWids A s wids = .ok L ∧ _
  unfold cosineSearchWids
  cases wids with
  | nil => exact ⟨[], rfl, .nil⟩
  | cons w0 ws =>
    simp only [List.isEmpty_cons, Bool.false_eq_true, if_false]
    refine mapM_forall₂ _ _ _ ?_
    intro t ht
    obtain ⟨d2w, hd⟩ := (SMap.contains_iff _ _).1 (hw t ht)
    obtain ⟨hlen, hpos, hle⟩ := hs.weight t d2w hd
    obtain ⟨z, ez, hz⟩ := idf_ok hA hlen hle (Or.inl rfl)
    unfold cosineWord
    rw [hd]
    simp only
    rw [ez, bind_ok]
    refine ⟨_, rfl, ?_, ?_, hz⟩
    · intro d
      unfold storedWeight
      rw [hd, Option.bind_some, SMap.mem_keys_iff, Option.isSome_iff_exists]
      split
      · rfl
      · rw [SMap.get?_mapVals]
        cases d2w.map.get? d <;> simp
    · intro d v hv
      simp only at hv
      split at hv
      · exact hpos d v hv
      · rw [SMap.get?_mapVals] at hv
        cases hf : d2w.map.get? d with
        | none => rw [hf] at hv; cases hv
        | some f => rw [hf] at hv; cases hv; exact hA.store _ (hpos d f hf)

/-! ## both classes are lawful, and reachable states are ready for searches -/

theorem countLoop_pos {wids : List Int} {p : Int × Nat} (h : p ∈ countLoop wids) : 0 < p.2 ∧ p.2 = wids.count p.1 := by
  have := dget?_of_mem (countLoop_nodup wids) (show (p.1, p.2) ∈ countLoop wids from h)
  rw [countLoop_get] at this
  split at this
  · rename_i hm
    have := Option.some.inj this
    exact ⟨by rw [← this]; exact List.count_pos_iff.2 hm, this.symm⟩
  · cases this

theorem cosineWeights_eq (A : Arith R) (tw : Nat → R) (l : List (Int × Nat)) (h : ∀ p ∈ l, docTermWeight A p.2 = .ok (tw p.2)) (sum : R) :
    cosineWeights A l sum = .ok (l.map (fun p => (p.1, tw p.2)), l.foldl (fun s p => A.add s (A.mul (tw p.2) (tw p.2))) sum) := by
  induction l generalizing sum with
  | nil => rfl
  | cons p l ih =>
    obtain ⟨wid, n⟩ := p
    unfold cosineWeights
    rw [h (wid, n) (by simp), bind_ok, ih (fun q hq => h q (by simp [hq])), bind_ok]
    rfl

theorem docTermWeight_ok {A : Arith R} {Pos : R → Prop} (hA : Positive A Pos) {n : Nat} (hn : 0 < n) :
    ∃ z, docTermWeight A n = .ok z ∧ Pos z := by
  obtain ⟨z, e, hz⟩ := hA.logNat n hn
  refine ⟨_, ?_, hz⟩
  unfold docTermWeight pyLog
  rw [e]; rfl

/-- weight of a word that occurs `n` times, before normalization -/
def tw (A : Arith R) (n : Nat) : R :=
  match docTermWeight A n with
  | .ok z => z
  | .error _ => A.zero

theorem tw_ok {A : Arith R} {Pos : R → Prop} (hA : Positive A Pos) {n : Nat} (hn : 0 < n) :
    docTermWeight A n = .ok (tw A n) ∧ Pos (tw A n) := by
  obtain ⟨z, e, hz⟩ := docTermWeight_ok hA hn
  unfold tw; rw [e]; exact ⟨rfl, hz⟩

/-- sum of the squares of the weights -/
def sqSum (A : Arith R) (wids : List Int) : R :=
  (countLoop wids).foldl (fun s p => A.add s (A.mul (tw A p.2) (tw A p.2))) A.zero

theorem sqSum_pos {A : Arith R} {Pos : R → Prop} (hA : Positive A Pos) (wids : List Int) :
    (wids = [] ∧ sqSum A wids = A.zero) ∨ Pos (sqSum A wids) := by
  unfold sqSum
  have hp : ∀ p ∈ countLoop wids, 0 < p.2 := fun p h => (countLoop_pos h).1
  have hk := countLoop_keys wids
  generalize countLoop wids = l at hp hk
  have key : ∀ (l : List (Int × Nat)) (s : R), (∀ p ∈ l, 0 < p.2) → Pos s →
      Pos (l.foldl (fun s p => A.add s (A.mul (tw A p.2) (tw A p.2))) s) := by
    intro l
    induction l with
    | nil => intro s _ h; exact h
    | cons p l ih =>
      intro s hl h
      have := (tw_ok hA (hl p (by simp))).2
      exact ih _ (fun q hq => hl q (by simp [hq])) (hA.add _ _ h (hA.mul _ _ this this))
  cases l with
  | nil =>
    left
    refine ⟨?_, rfl⟩
    rw [List.eq_nil_iff_forall_not_mem]
    intro w hw
    have := (hk w).2 hw
    simp at this
  | cons p l =>
    right
    have := (tw_ok hA (hp p (by simp))).2
    exact key l _ (fun q hq => hp q (by simp [hq])) (hA.zeroAdd _ (hA.mul _ _ this this))

theorem cosineFreqs_ok {A : Arith R} {Pos : R → Prop} (hA : Positive A Pos) (wids : List Int) :
    ∃ d W, cosineFreqs A wids = .ok (d, W) ∧ A.sqrt (sqSum A wids) = some W ∧
      List.Forall₂ (fun p (q : Int × R) => q.1 = p.1 ∧ A.div (tw A p.2) W = some q.2 ∧ Pos q.2) (countLoop wids) d := by
  have hp : ∀ p ∈ countLoop wids, 0 < p.2 := fun p h => (countLoop_pos h).1
  have hW : ∃ W, A.sqrt (sqSum A wids) = some W ∧ (wids ≠ [] → Pos W) := by
    rcases sqSum_pos hA wids with ⟨h1, h2⟩ | h
    · obtain ⟨W, e, -⟩ := hA.sqrtZero
      rw [h2]
      exact ⟨W, e, fun h => absurd h1 h⟩
    · obtain ⟨W, e, hW⟩ := hA.sqrt _ h
      exact ⟨W, e, fun _ => hW⟩
  obtain ⟨W, eW, hWp⟩ := hW
  have hmap := mapM_forall₂ (fun (p : Int × R) => (do
      let q ← pyDiv A p.2 W
      return (p.1, q) : Except PyErr (Int × R)))
    (fun p q => q.1 = p.1 ∧ A.div p.2 W = some q.2 ∧ Pos q.2) ((countLoop wids).map (fun p => (p.1, tw A p.2))) (by
      intro q hq
      obtain ⟨p, hm, rfl⟩ := List.mem_map.1 hq
      have hne : wids ≠ [] := by
        rintro rfl
        have := (countLoop_keys [] p.1).1 (List.mem_map.2 ⟨p, hm, rfl⟩)
        simp at this
      obtain ⟨z, e, hz⟩ := hA.div _ _ (tw_ok hA (hp p hm)).2 (hWp hne)
      refine ⟨(p.1, z), ?_, rfl, e, hz⟩
      unfold pyDiv
      simp only [e]; rfl)
  obtain ⟨d, ed, hd⟩ := hmap
  refine ⟨d, W, ?_, eW, ?_⟩
  · unfold cosineFreqs
    rw [cosineWeights_eq A (tw A) _ (fun p h => (tw_ok hA (hp p h)).1), bind_ok]
    have : pySqrt A (sqSum A wids) = .ok W := by unfold pySqrt; rw [eW]
    show (pySqrt A (sqSum A wids) >>= _) = _
    rw [this, bind_ok]
    show (List.mapM _ _ >>= _) = _
    rw [ed]; rfl
  · rw [List.forall₂_map_left_iff] at hd
    exact hd

theorem cosine_lawful {A : Arith R} {Pos : R → Prop} (hA : Positive A Pos) : Lawful (cosine A : Kind D R) := by
  have hpos : ∀ wids r, cosineFreqs A wids = .ok r → r.1.map (·.1) = (countLoop wids).map (·.1) ∧ ∀ q ∈ r.1, Pos q.2 := by
    intro wids r hr
    obtain ⟨d, W, e, -, h⟩ := cosineFreqs_ok hA wids
    obtain rfl := Except.ok.inj (e.symm.trans hr)
    refine ⟨?_, ?_⟩
    · simp only
      clear e hr
      generalize countLoop wids = l at h
      induction h with
      | nil => rfl
      | cons h _ ih => rw [List.map_cons, List.map_cons, h.1, ih]
    · intro q hq
      obtain ⟨p, -, h⟩ := forall₂_right h hq
      exact h.2.2
  refine ⟨?_, ?_⟩
  · intro wids
    obtain ⟨d, W, e, -, -⟩ := cosineFreqs_ok hA wids
    obtain ⟨h1, -⟩ := hpos wids _ e
    refine ⟨_, e, ?_, ?_⟩
    · rw [h1]; exact countLoop_nodup wids
    · intro w; rw [h1]; exact countLoop_keys wids w
  · intro wids wids' r r' w a b hr hr' ha hb hne
    exact hA.neq a b ((hpos wids r hr).2 _ ha) ((hpos wids' r' hr').2 _ hb) hne

theorem okapi_lawful' {A : Arith R} {Pos : R → Prop} (hA : Positive A Pos)
    (P : Bm25 R) : Lawful (okapi A P : Kind D R) := by
  refine ⟨?_, ?_⟩
  · intro wids
    refine ⟨_, rfl, ?_, ?_⟩
    · rw [List.map_map]
      exact countLoop_nodup wids
    · intro w
      rw [List.map_map]
      exact countLoop_keys wids w
  · intro wids wids' r r' w a b hr hr' ha hb hne
    cases hr; cases hr'
    obtain ⟨p, hp, ep⟩ := List.mem_map.1 ha
    obtain ⟨q, hq, eq⟩ := List.mem_map.1 hb
    obtain ⟨-, rfl⟩ := Prod.mk.inj ep
    obtain ⟨-, rfl⟩ := Prod.mk.inj eq
    exact hA.neq _ _ (hA.ofNat _ (countLoop_pos hp).1) (hA.ofNat _ (countLoop_pos hq).1) hne

theorem len_pos_of_nonempty {V : Type} {m : SMap D V} (h : m.isEmpty = false) : 0 < m.len := by
  unfold SMap.isEmpty at h
  unfold SMap.len
  cases hl : m.items with
  | nil => rw [hl] at h; cases h
  | cons _ _ => simp

theorem len_pos_of_get {V : Type} {m : SMap D V} {d : D} {v : V} (h : m.get? d = some v) : 0 < m.len := by
  have := (SMap.get?_eq_some_iff _ _ _).1 h
  unfold SMap.len
  exact List.length_pos_of_mem this

/-- the entries of the words hold documents that contain them -/
theorem entry_docs {K : Kind D R} (hK : Lawful K) {s : Ix D R} {W : D → Option (List Int)} (hi : Inv K s W) {wid : Int} {e : D2S D R}
    (he : s.wordinfo.get? wid = some e) : 0 < e.map.len ∧ (∃ d v, e.map.get? d = some v) ∧
      ∀ d v, e.map.get? d = some v → ∃ ws f, W d = some ws ∧ wid ∈ ws ∧ (wid, f) ∈ (fr K ws).1 ∧ (v = f ∨ v = K.arith.store f) := by
  obtain ⟨h1, h2⟩ := (hi.info wid).1 e he
  have hl := len_pos_of_nonempty h1
  refine ⟨hl, ?_, ?_⟩
  · obtain ⟨p, hp⟩ := List.exists_mem_of_length_pos hl
    exact ⟨p.1, p.2, (SMap.get?_eq_some_iff _ _ _).2 hp⟩
  · intro d v hv
    rw [h2 d, Option.map_eq_some_iff] at hv
    obtain ⟨f, hf, hv⟩ := hv
    unfold weights at hf
    rw [Option.bind_eq_some_iff] at hf
    obtain ⟨ws, hws, hg⟩ := hf
    have hm := dget?_mem hg
    refine ⟨ws, f, hws, (hK.mem ws wid).1 (List.mem_map.2 ⟨_, hm, rfl⟩), hm, ?_⟩
    unfold keep at hv
    split at hv
    · exact Or.inr hv.symm
    · exact Or.inl hv.symm

theorem len_le_of_keys {V V' : Type} {m : SMap D V} {m' : SMap D V'} (h : ∀ d ∈ m.keys, d ∈ m'.keys) : m.len ≤ m'.len := by
  rw [← SMap.len_keys m, ← SMap.len_keys m']
  exact (List.subperm_of_subset (SMap.keys_nodup m) h).length_le

/-- a word is in at most as many documents as there are -/
theorem entry_le {K : Kind D R} (hK : Lawful K) {s : Ix D R} {W : D → Option (List Int)} (hi : Inv K s W) {wid : Int} {e : D2S D R}
    (he : s.wordinfo.get? wid = some e) : e.map.len ≤ s.docweight.len := by
  refine len_le_of_keys ?_
  intro d hd
  obtain ⟨v, hv⟩ := (SMap.mem_keys_iff _ _).1 hd
  obtain ⟨ws, f, hW, -⟩ := (entry_docs hK hi he).2.2 d v hv
  rw [SMap.mem_keys_iff, hi.docweight, hW]
  exact ⟨_, rfl⟩

theorem count_docs {K : Kind D R} {s : Ix D R} {W : D → Option (List Int)} (hi : Inv K s W) : s.documentCount = s.docweight.len := by
  rw [hi.documentCount]
  have h1 : s.docwords.len ≤ s.docweight.len := len_le_of_keys (by
    intro d hd
    rw [SMap.mem_keys_iff, hi.docwords] at hd
    rw [SMap.mem_keys_iff, hi.docweight]
    cases hW : W d with
    | none => rw [hW] at hd; simp at hd
    | some ws => exact ⟨_, rfl⟩)
  have h2 : s.docweight.len ≤ s.docwords.len := len_le_of_keys (by
    intro d hd
    rw [SMap.mem_keys_iff, hi.docweight] at hd
    rw [SMap.mem_keys_iff, hi.docwords]
    cases hW : W d with
    | none => rw [hW] at hd; simp at hd
    | some ws => exact ⟨_, rfl⟩)
  omega

theorem okapi_ready {A : Arith R} {Pos : R → Prop} (hA : Positive A Pos) (P : Bm25 R) {s : Ix D R} {W : D → Option (List Int)}
    (hi : Inv (okapi A P) s W) (ht : (∃ wid, s.wordinfo.contains wid = true) → 0 < s.total) : OkapiReady Pos s := by
  have hK := okapi_lawful' (D := D) hA P
  have hf : ∀ ws p, p ∈ (fr (okapi A P : Kind D R) ws).1 → Pos p.2 := by
    intro ws p hp
    obtain ⟨q, hq, rfl⟩ := List.mem_map.1 (show p ∈ (countLoop ws).map (fun p => (p.1, A.ofNat p.2)) from hp)
    exact hA.ofNat _ (countLoop_pos hq).1
  refine ⟨?_, ?_, count_docs hi⟩
  · intro wid e he
    obtain ⟨h1, -, h2⟩ := entry_docs hK hi he
    refine ⟨h1, ?_, entry_le hK hi he, ?_⟩
    · intro d v hv
      obtain ⟨ws, f, -, -, hm, rfl | rfl⟩ := h2 d v hv
      · exact hf ws _ hm
      · exact hA.store _ (hf ws _ hm)
    · intro d v hv
      obtain ⟨ws, f, hW, hw, -, -⟩ := h2 d v hv
      refine ⟨A.store (A.ofNat ws.length), ?_, hA.store _ (hA.ofNat _ (List.length_pos_of_mem hw))⟩
      rw [hi.docweight, hW]; rfl
  · intro hw
    refine ⟨?_, ht hw⟩
    obtain ⟨wid, hw⟩ := hw
    obtain ⟨e, he⟩ := (SMap.contains_iff _ _).1 hw
    obtain ⟨-, ⟨d, v, hv⟩, h2⟩ := entry_docs hK hi he
    obtain ⟨ws, f, hW, -⟩ := h2 d v hv
    have := hi.docwords d
    rw [hW] at this
    have := len_pos_of_get this
    rw [hi.documentCount]; omega

theorem cosine_ready {A : Arith R} {Pos : R → Prop} (hA : Positive A Pos) {s : Ix D R} {W : D → Option (List Int)}
    (hi : Inv (cosine A) s W) : CosineReady Pos s := by
  have hK := cosine_lawful (D := D) hA
  have hf : ∀ ws p, p ∈ (fr (cosine A : Kind D R) ws).1 → Pos p.2 := by
    intro ws q hq
    obtain ⟨d, W, e, -, h⟩ := cosineFreqs_ok hA ws
    have : fr (cosine A : Kind D R) ws = (d, W) := by
      unfold fr
      have : (cosine A : Kind D R).freqs ws = .ok (d, W) := e
      rw [this]
    rw [this] at hq
    obtain ⟨p, -, h⟩ := forall₂_right h hq
    exact h.2.2
  refine ⟨?_, ?_⟩
  · intro wid e he
    obtain ⟨h1, -, h2⟩ := entry_docs hK hi he
    refine ⟨h1, ?_, entry_le hK hi he⟩
    intro d v hv
    obtain ⟨ws, f, -, -, hm, rfl | rfl⟩ := h2 d v hv
    · exact hf ws _ hm
    · exact hA.store _ (hf ws _ hm)
  · rintro ⟨wid, hw⟩
    obtain ⟨e, he⟩ := (SMap.contains_iff _ _).1 hw
    obtain ⟨-, ⟨d, v, hv⟩, h2⟩ := entry_docs hK hi he
    obtain ⟨ws, f, hW, -⟩ := h2 d v hv
    have := hi.docweight d
    rw [hW] at this
    exact len_pos_of_get this

/-- the total length is positive if some word is indexed -/
theorem total_pos {A : Arith R} {Pos : R → Prop} (hA : Positive A Pos) (P : Bm25 R) (pipeline : List Element) (ops : List (Op D))
    (hs : SmallLexicon pipeline ops) (he : LengthsExact A pipeline ops) {s : TI D R} (hr : run (okapi A P) pipeline ops = .ok s)
    (hi : Inv (okapi A P) s.ix (docWids pipeline ops)) (hw : ∃ wid, s.ix.wordinfo.contains wid = true) : 0 < s.ix.total := by
  have hK := okapi_lawful' (D := D) hA P
  have h1 := (total_ok hK rfl (okapi_weight A P) pipeline ops hs he s hr).1
  refine lt_of_lt_of_le ?_ h1
  have h2 := lens_nonneg (okapi_weight A P) he hi
  obtain ⟨wid, hw⟩ := hw
  obtain ⟨e, he⟩ := (SMap.contains_iff _ _).1 hw
  obtain ⟨-, ⟨d, v, hv⟩, h3⟩ := entry_docs hK hi he
  obtain ⟨ws, f, hW, hws, -⟩ := h3 d v hv
  have hd := hi.docweight d
  rw [hW] at hd
  have hd := (SMap.get?_eq_some_iff _ _ _).1 hd
  unfold lens sumVals
  obtain ⟨ws', e1, e2⟩ := h2 _ hd
  have hlen : 0 < (okapi A P : Kind D R).arith.toInt (Option.map (fun ws => (okapi A P : Kind D R).arith.store (fr (okapi A P : Kind D R) ws).2) (some ws) |>.getD (A.zero)) := by
    simp only [Option.map_some, Option.getD_some]
    rw [e2]
    have : ws = ws'.map (lexAfter pipeline ops).getWid := by
      have : docWids pipeline ops d = some (ws'.map (lexAfter pipeline ops).getWid) := by
        unfold docWids; rw [e1]; rfl
      rw [hW] at this; exact Option.some.inj this
    have hl := List.length_pos_of_mem hws
    rw [this, List.length_map] at hl
    omega
  simp only [Option.map_some, Option.getD_some] at hlen
  have hsum : ∀ l : List (D × R), (∀ p ∈ l, 0 ≤ (okapi A P : Kind D R).arith.toInt p.2) → ∀ p ∈ l, 0 < (okapi A P : Kind D R).arith.toInt p.2 →
      0 < (l.map (fun p => (okapi A P : Kind D R).arith.toInt p.2)).sum := by
    intro l
    induction l with
    | nil => intro _ p hp; cases hp
    | cons q l ih =>
      intro hn p hp hpos
      rw [List.map_cons, List.sum_cons]
      have h0 := hn q (by simp)
      have hrest : 0 ≤ (l.map (fun p => (okapi A P : Kind D R).arith.toInt p.2)).sum := by
        apply List.sum_nonneg
        intro x hx
        obtain ⟨q', hq', rfl⟩ := List.mem_map.1 hx
        exact hn q' (by simp [hq'])
      rcases List.mem_cons.1 hp with rfl | hp
      · omega
      · have := ih (fun q' hq' => hn q' (by simp [hq'])) p hp hpos
        omega
  refine hsum _ ?_ _ hd hlen
  intro p hp
  obtain ⟨ws, -, e⟩ := h2 p hp
  rw [e]; omega

/-- `query_weight` succeeds and is positive or zero -/
def WeightOk (K : Kind D R) (Pos : R → Prop) (s : Ix D R) : Prop :=
  ∀ wids, ∃ q, K.queryWeight s wids = .ok q ∧ (K.arith.isZero q = true ∨ Pos q)

/-- a loop that adds positive numbers -/
theorem foldlM_add {A : Arith R} {Pos : R → Prop} (hA : Positive A Pos) (f : R → Int → Except PyErr R) (l : List Int)
    (h : ∀ w ∈ l, ∃ x, Pos x ∧ ∀ sum, f sum w = .ok (A.add sum x)) :
    ∃ q, l.foldlM f A.zero = .ok q ∧ (q = A.zero ∨ Pos q) := by
  have key : ∀ (l : List Int), (∀ w ∈ l, ∃ x, Pos x ∧ ∀ sum, f sum w = .ok (A.add sum x)) → ∀ acc, Pos acc →
      ∃ q, l.foldlM f acc = .ok q ∧ Pos q := by
    intro l
    induction l with
    | nil => intro _ acc h; exact ⟨acc, rfl, h⟩
    | cons w l ih =>
      intro h acc hacc
      obtain ⟨x, hx, hf⟩ := h w (by simp)
      obtain ⟨q, e, hq⟩ := ih (fun v hv => h v (by simp [hv])) _ (hA.add _ _ hacc hx)
      refine ⟨q, ?_, hq⟩
      rw [List.foldlM_cons, hf acc]; exact e
  cases l with
  | nil => exact ⟨A.zero, rfl, Or.inl rfl⟩
  | cons w l =>
    obtain ⟨x, hx, hf⟩ := h w (by simp)
    obtain ⟨q, e, hq⟩ := key l (fun v hv => h v (by simp [hv])) _ (hA.zeroAdd _ hx)
    refine ⟨q, ?_, Or.inr hq⟩
    rw [List.foldlM_cons, hf A.zero]; exact e

theorem okapi_weightOk {A : Arith R} {Pos : R → Prop} (hA : Positive A Pos) {P : Bm25 R} (hP : PosParams A Pos P) {s : Ix D R}
    (hs : OkapiReady Pos s) : WeightOk (okapi A P) Pos s := by
  intro wids
  show ∃ q, okapiQueryWeight A P s wids = .ok q ∧ _
  unfold okapiQueryWeight
  obtain ⟨q, e, hq⟩ := foldlM_add hA (okapiWeightStep A s (A.ofNat s.docweight.len) (A.add A.one P.k1)) (removeOov s wids) (by
    intro w hw
    obtain ⟨d2f, hd⟩ := (SMap.contains_iff _ _).1 (List.mem_filter.1 hw).2
    obtain ⟨hlen, -, hle, -⟩ := hs.weight w d2f hd
    obtain ⟨z, ez, hz⟩ := idf_ok hA hlen hle (Or.inl rfl)
    refine ⟨A.mul z (A.add A.one P.k1), hA.mul _ _ hz (hA.add _ _ hA.one hP.k1), ?_⟩
    intro sum
    unfold okapiWeightStep
    simp only [hd]
    rw [ez, bind_ok]; rfl)
  refine ⟨q, e, ?_⟩
  rcases hq with rfl | hq
  · exact Or.inl hA.zero
  · exact Or.inr hq

theorem cosine_weightOk {A : Arith R} {Pos : R → Prop} (hA : Positive A Pos) {s : Ix D R} (hs : CosineReady Pos s) :
    WeightOk (cosine A) Pos s := by
  intro wids
  show ∃ q, cosineQueryWeight A s wids = .ok q ∧ _
  unfold cosineQueryWeight
  obtain ⟨q, e, hq⟩ := foldlM_add hA (cosineWeightStep A s (A.ofNat s.docweight.len)) (removeOov s wids) (by
    intro w hw
    have hc := (List.mem_filter.1 hw).2
    obtain ⟨d2f, hd⟩ := (SMap.contains_iff _ _).1 hc
    obtain ⟨hlen, -, hle⟩ := hs.weight w d2f hd
    obtain ⟨z, ez, hz⟩ := idf_ok hA hlen hle (Or.inl rfl)
    refine ⟨A.mul z z, hA.mul _ _ hz hz, ?_⟩
    intro sum
    unfold cosineWeightStep
    simp only [hd]
    rw [ez, bind_ok]; rfl)
  rw [e, bind_ok]
  rcases hq with rfl | hq
  · obtain ⟨z, ez, hz⟩ := hA.sqrtZero
    exact ⟨z, by unfold pySqrt; rw [ez], Or.inl hz⟩
  · obtain ⟨z, ez, hz⟩ := hA.sqrt _ hq
    exact ⟨z, by unfold pySqrt; rw [ez], Or.inr hz⟩

/-- the two index classes, over an arithmetic where scores are positive -/
inductive Ranked (A : Arith R) (Pos : R → Prop) : Kind D R → Prop
  | okapi (P : Bm25 R) (h : PosParams A Pos P) : Ranked A Pos (Text.okapi A P)
  | cosine : Ranked A Pos (Text.cosine A)

theorem Ranked.arith {A : Arith R} {Pos : R → Prop} {K : Kind D R} (hK : Ranked A Pos K) : K.arith = A := by cases hK <;> rfl

theorem Ranked.lawful {A : Arith R} {Pos : R → Prop} (hA : Positive A Pos) {K : Kind D R} (hK : Ranked A Pos K) : Lawful K := by
  cases hK with
  | okapi P _ => exact okapi_lawful' hA P
  | cosine => exact cosine_lawful hA

/-- every history leads to a state in which searches are defined -/
theorem Ranked.run {A : Arith R} {Pos : R → Prop} (hA : Positive A Pos) {K : Kind D R} (hK : Ranked A Pos K) {pipeline : List Element}
    {ops : List (Op D)} (hs : SmallLexicon pipeline ops) (he : K.hasTotal = true → LengthsExact A pipeline ops) {s : TI D R}
    (hr : Text.run K pipeline ops = .ok s) : s.lex = lexAfter pipeline ops ∧ Inv K s.ix (docWids pipeline ops) ∧
      SearchOk K Pos s.ix ∧ WeightOk K Pos s.ix := by
  obtain ⟨s', e, hl, hi⟩ := run_ok (hK.lawful hA) pipeline ops hs
  obtain rfl : s' = s := Except.ok.inj (e.symm.trans hr)
  refine ⟨hl, hi, ?_⟩
  cases hK with
  | okapi P hP =>
    have h := okapi_ready hA P hi (total_pos hA P pipeline ops hs (he rfl) hr hi)
    exact ⟨okapi_searchOk hA hP h, okapi_weightOk hA hP h⟩
  | cosine =>
    have h := cosine_ready hA hi
    exact ⟨cosine_searchOk hA h, cosine_weightOk hA h⟩

/-! ## the searches -/

section searches

variable {K : Kind D R} {Pos : R → Prop} (hA : Positive K.arith Pos) {s : Ix D R} (hs : SearchOk K Pos s)

include hA hs

theorem searchUnion_ok (wids : List Int) : ∃ r, searchUnion K s wids = .ok r ∧
    (∀ d, d ∈ r.keys ↔ ∃ w ∈ wids, (storedWeight s w d).isSome) ∧ PosMap Pos r := by
  have hmem : ∀ w ∈ removeOov s wids, s.wordinfo.contains w = true := by
    intro w hw; exact (List.mem_filter.1 hw).2
  obtain ⟨L, e, hL⟩ := hs _ hmem
  unfold searchUnion
  rw [e, bind_ok]
  obtain ⟨r, er, hr⟩ := C28_union_keys K.arith.toWArith L
  refine ⟨r, er, ?_, ?_⟩
  · intro d
    rw [hr d]
    unfold InSome
    have h1 : (∃ p ∈ L, d ∈ p.1.keys) ↔ ∃ w ∈ removeOov s wids, (storedWeight s w d).isSome := by
      clear e er hr
      generalize removeOov s wids = ws at hL
      induction hL with
      | nil => simp
      | cons h _ ih =>
        simp only [List.mem_cons, exists_eq_or_imp]
        rw [ih, h.1 d]
    rw [h1]
    unfold removeOov
    simp only [List.mem_filter]
    constructor
    · rintro ⟨w, ⟨h1, -⟩, h2⟩; exact ⟨w, h1, h2⟩
    · rintro ⟨w, h1, h2⟩
      refine ⟨w, ⟨h1, ?_⟩, h2⟩
      unfold storedWeight at h2
      rw [SMap.contains_iff]
      cases hg : s.wordinfo.get? w with
      | none => rw [hg] at h2; cases h2
      | some e => exact ⟨e, rfl⟩
  · refine massUnion_pos hA.closed ?_ er
    intro p hp
    obtain ⟨w, -, h⟩ := forall₂_right hL hp
    exact ⟨h.2.1, h.2.2⟩

theorem stored_contains {wid : Int} {d : D} (h : (storedWeight s wid d).isSome) : s.wordinfo.contains wid = true := by
  unfold storedWeight at h
  rw [SMap.contains_iff]
  cases hg : s.wordinfo.get? wid with
  | none => rw [hg] at h; cases h
  | some e => exact ⟨e, rfl⟩

theorem search_ok (pipeline : List Element) (lex : Lexicon) (term : TextArg) (ids : List Int)
    (ht : lex.termToWordIds pipeline term = .ok ids) :
    (ids = [] ∧ search K pipeline lex s term = .ok none) ∨
    (ids ≠ [] ∧ ∃ r, search K pipeline lex s term = .ok (some r) ∧ (∀ d, d ∈ r.keys ↔ ∃ w ∈ ids, (storedWeight s w d).isSome) ∧
      PosMap Pos r) := by
  unfold search
  rw [ht, bind_ok]
  cases ids with
  | nil => exact Or.inl ⟨rfl, rfl⟩
  | cons i ids =>
    right
    refine ⟨by simp, ?_⟩
    simp only [List.isEmpty_cons, Bool.false_eq_true, if_false]
    obtain ⟨r, e, h1, h2⟩ := searchUnion_ok hA hs (i :: ids)
    rw [e, bind_ok]
    exact ⟨r, rfl, h1, h2⟩

theorem searchGlob_ok (odd : Word → Except PyErr (Word → Bool)) (lex : Lexicon) (pattern : Word) (ids : List Int)
    (ht : lex.globToWordIds odd pattern = .ok ids) :
    ∃ r, searchGlob K odd lex s pattern = .ok r ∧ (∀ d, d ∈ r.keys ↔ ∃ w ∈ ids, (storedWeight s w d).isSome) ∧ PosMap Pos r := by
  unfold searchGlob
  rw [ht, bind_ok]
  exact searchUnion_ok hA hs ids

theorem presentMaps_some (L : List (SMap D R × R)) : presentMaps (L.map (fun p => (some p.1, p.2))) = L := by
  unfold presentMaps
  rw [List.filterMap_map]
  exact List.filterMap_some

theorem searchPhrase_ok {W : D → Option (List Int)} (hi : Inv K s W) (pipeline : List Element) (lex : Lexicon) (phrase : TextArg)
    (ids : List Int) (ht : lex.termToWordIds pipeline phrase = .ok ids) (hv : ∀ w ∈ ids, WidCode.Valid w) :
    ∃ r, searchPhrase K pipeline lex s phrase = .ok r ∧ PosMap Pos r ∧
      ∀ d, d ∈ r.keys ↔ ids ≠ [] ∧ (∀ w ∈ ids, (storedWeight s w d).isSome) ∧
        ∃ ws, W d = some ws ∧ 0 ≤ WidCode.pyFind (WidCode.encs ws) (WidCode.encs ids) := by
  unfold searchPhrase
  rw [ht, bind_ok]
  simp only
  by_cases hl : ids.length = (removeOov s ids).length
  · rw [if_neg (by simpa using hl)]
    have hall : ∀ w ∈ ids, s.wordinfo.contains w = true := by
      unfold removeOov at hl
      exact List.length_filter_eq_length_iff.1 hl.symm
    obtain ⟨L, e, hL⟩ := hs ids hall
    rw [e, bind_ok]
    obtain ⟨hits, eh, hh⟩ := C29_inter_keys K.arith.toWArith (L.map (fun p => (some p.1, p.2)))
    have hpos : PosMap Pos hits := by
      refine massIntersection_pos hA.closed ?_ eh
      rw [presentMaps_some hA hs]
      intro p hp
      obtain ⟨w, -, h⟩ := forall₂_right hL hp
      exact ⟨h.2.1, h.2.2⟩
    rw [eh, bind_ok]
    have hkeys : ∀ d, d ∈ hits.keys ↔ ids ≠ [] ∧ ∀ w ∈ ids, (storedWeight s w d).isSome := by
      intro d
      rw [hh d, presentMaps_some hA hs]
      unfold InEvery
      clear e eh hh hpos hall hl ht hv
      have h1 : L = [] ↔ ids = [] := by cases hL <;> simp
      have h2 : (∀ p ∈ L, d ∈ p.1.keys) ↔ ∀ w ∈ ids, (storedWeight s w d).isSome := by
        clear h1
        induction hL with
        | nil => simp
        | cons h _ ih => simp only [List.mem_cons, forall_eq_or_imp]; rw [ih, h.1 d]
      rw [Ne, h1, h2]
    by_cases hem : hits.isEmpty = true
    · rw [if_pos hem]
      refine ⟨hits, rfl, hpos, ?_⟩
      intro d
      have hno : d ∉ hits.keys := by
        rw [SMap.mem_keys_iff]
        rintro ⟨v, hv⟩
        have := len_pos_of_get hv
        unfold SMap.isEmpty at hem
        unfold SMap.len at this
        rw [List.isEmpty_iff] at hem
        rw [hem] at this
        simp at this
      constructor
      · intro h; exact absurd h hno
      · rintro ⟨h1, h2, -⟩; exact absurd ((hkeys d).2 ⟨h1, h2⟩) hno
    · rw [if_neg hem, WidCode.encode_ok hv, bind_ok]
      let code := WidCode.encs ids
      have hdoc : ∀ d v, hits.get? d = some v → ∃ ws, W d = some ws := by
        intro d v hd
        obtain ⟨h1, h2⟩ := (hkeys d).1 ((SMap.mem_keys_iff _ _).2 ⟨v, hd⟩)
        obtain ⟨w, hw⟩ := List.exists_mem_of_ne_nil _ h1
        obtain ⟨v', hv'⟩ := Option.isSome_iff_exists.1 (h2 w hw)
        obtain ⟨f, hf, -⟩ := (stored_iff hi w d).2 v' hv'
        unfold weights at hf
        cases hW : W d with
        | none => rw [hW] at hf; cases hf
        | some ws => exact ⟨ws, rfl⟩
      let pick : D → R → Option R := fun d v =>
        match W d with
        | none => none
        | some ws => if 0 ≤ WidCode.pyFind (WidCode.encs ws) code then some (K.arith.store v) else none
      obtain ⟨r, er, hr⟩ := foldlM_set (phraseLoop K s code) pick hits.items hits.sorted (by
        intro p hp acc
        obtain ⟨ws, hW⟩ := hdoc p.1 p.2 ((SMap.get?_eq_some_iff _ _ _).2 hp)
        unfold phraseLoop
        rw [hi.docwords, hW]
        simp only [Option.map_some, pick, hW]
        split <;> rfl) SMap.empty
      have hr' : ∀ d, r.get? d = (hits.get? d).bind (pick d) := by
        intro d; rw [hr d]; simp only [SMap.get?_empty, Option.or_none]; rfl
      refine ⟨r, er, ?_, ?_⟩
      · intro d v hv
        rw [hr' d] at hv
        cases hd : hits.get? d with
        | none => rw [hd] at hv; cases hv
        | some x =>
          obtain ⟨ws, hW⟩ := hdoc d x hd
          rw [hd, Option.bind_some] at hv
          simp only [pick, hW] at hv
          split at hv
          · cases hv; exact hA.store _ (hpos d x hd)
          · cases hv
      · intro d
        rw [SMap.mem_keys_iff, hr' d, ← and_assoc, ← hkeys d, SMap.mem_keys_iff]
        cases hd : hits.get? d with
        | none => simp
        | some x =>
          obtain ⟨ws, hW⟩ := hdoc d x hd
          rw [Option.bind_some]
          simp only [pick, hW, Option.some.injEq, exists_eq', exists_eq_left', true_and]
          split <;> simp_all [code]
  · rw [if_pos (by simpa using hl)]
    refine ⟨SMap.empty, rfl, by intro d v hv; simp at hv, ?_⟩
    intro d
    constructor
    · intro h; simp at h
    · rintro ⟨-, h, -⟩
      exfalso
      apply hl
      unfold removeOov
      rw [List.filter_eq_self.2]
      intro w hw
      exact stored_contains hA hs (h w hw)

end searches

end Text
end Verif
