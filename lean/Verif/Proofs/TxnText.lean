import Verif.Proofs.TxnTextHeap
import Verif.Proofs.TxnLexicon
import Verif.Proofs.TextSame
import Verif.Spec.TxnText
import Mathlib.Tactic.Choose

/-! Concurrent transactions on a text index. -/

set_option autoImplicit false

namespace Verif.Text

open Txn Txn.View Spec Spec.Txn

variable {D R : Type} [LinearOrder D]

/-- for the class that keeps the total length: weights of words are numbers of occurrences, weights of documents are lengths -/
def Counted (K : Kind D R) : Prop := K.hasTotal = true → ∀ wids,
  (∀ w v, dget? w (fr K wids).1 = some v → ∃ n, n ≤ wids.length ∧ v = K.arith.ofNat n) ∧ (fr K wids).2 = K.arith.ofNat wids.length

theorem okapi_counted (A : Arith R) (P : Bm25 R) : Counted (okapi A P : Kind D R) := by
  intro _ wids
  refine ⟨?_, rfl⟩
  intro w v h
  have h : dget? w ((countLoop wids).map (fun p => (p.1, A.ofNat p.2))) = some v := h
  have hmap : ∀ l : List (Int × Nat), dget? w (l.map (fun p => (p.1, A.ofNat p.2))) = (dget? w l).map A.ofNat := by
    intro l
    induction l with
    | nil => rfl
    | cons p l ih =>
      rw [List.map_cons]
      unfold dget?
      split <;> [rfl; exact ih]
  rw [hmap, countLoop_get] at h
  split at h
  · cases h
    exact ⟨_, List.count_le_length, rfl⟩
  · cases h

theorem cosine_counted (A : Arith R) : Counted (cosine A : Kind D R) := by
  intro h; cases h

theorem Counted.exact {K : Kind D R} (hK : Counted K) {pipeline : List Element} {t : TextArg} {wids : List Int}
    (hl : wids.length = (wordsOf pipeline t).length) (ht : K.hasTotal = true → CountsExact K.arith pipeline t) : ExactW K wids := by
  intro h
  obtain ⟨h1, h2⟩ := hK h wids
  obtain ⟨h3, h4⟩ := ht h
  refine ⟨?_, by rw [h2, hl]; exact h4⟩
  intro w v hv
  obtain ⟨n, hn, rfl⟩ := h1 w v hv
  exact h3 n (by omega)

namespace HIx

/-- the word ids of the documents -/
def wordsIn (s : HIx D R) (d : D) : Option (List Int) :=
  (s.docwords.get? d).map (fun code => match WidCode.decode code with
    | .ok ws => ws
    | .error _ => [])

/-- the entry of a word fits the documents -/
def Fits (K : Kind D R) (s : HIx D R) (W : D → Option (List Int)) (k : Int) : Prop :=
  match s.wordinfo.get? k with
  | none => ∀ d, weights K W d k = none
  | some (.dict m) => m.isEmpty = false ∧ ∀ d, NearW K (m.get? d) (weights K W d k)
  | some (.tree a) => ∀ d, (s.treeAt a).get? d = (weights K W d k).map K.arith.store

theorem Fits.none {K : Kind D R} {s : HIx D R} {W : D → Option (List Int)} {k : Int} (h : Fits K s W k) (e : s.wordinfo.get? k = none)
    (d : D) : weights K W d k = Option.none := by
  unfold Fits at h; rw [e] at h; exact h d

theorem Fits.dict {K : Kind D R} {s : HIx D R} {W : D → Option (List Int)} {k : Int} (h : Fits K s W k) {m : SMap D R}
    (e : s.wordinfo.get? k = some (.dict m)) : m.isEmpty = false ∧ ∀ d, NearW K (m.get? d) (weights K W d k) := by
  unfold Fits at h; rw [e] at h; exact h

theorem Fits.tree {K : Kind D R} {s : HIx D R} {W : D → Option (List Int)} {k : Int} (h : Fits K s W k) {a : Nat}
    (e : s.wordinfo.get? k = some (.tree a)) (d : D) : (s.treeAt a).get? d = (weights K W d k).map K.arith.store := by
  unfold Fits at h; rw [e] at h; exact h d

/-- the index fits the documents it holds -/
structure IxOk (K : Kind D R) (s : HIx D R) : Prop where
  docwords : ∀ d, s.docwords.get? d = (s.wordsIn d).map WidCode.encs
  docweight : ∀ d, s.docweight.get? d = (s.wordsIn d).map (fun ws => K.arith.store (fr K ws).2)
  fits : ∀ k, Fits K s s.wordsIn k
  wordCount : s.wordCount = s.wordinfo.len
  documentCount : s.documentCount = s.docwords.len
  valid : ∀ d ws, s.wordsIn d = some ws → ∀ w ∈ ws, WidCode.Valid w
  total : s.total = if K.hasTotal then sumVals K.arith.toInt s.docweight else 0

variable {K : Kind D R}

theorem IxOk.toInv {s : HIx D R} (hg : s.tv.Good) (h : IxOk K s) :
    ∃ P, InvP K s.view s.wordsIn P ∧ ∀ d w, NearW K (P d w) (weights K s.wordsIn d w) := by
  let P : D → Int → Option R := fun d k =>
    match s.wordinfo.get? k with
    | some (.dict m) => m.get? d
    | _ => weights K s.wordsIn d k
  have hP : ∀ d k, NearW K (P d k) (weights K s.wordsIn d k) := by
    intro d k
    show NearW K (match s.wordinfo.get? k with
      | some (.dict m) => m.get? d
      | _ => weights K s.wordsIn d k) _
    cases e : s.wordinfo.get? k with
    | none => exact NearW.refl _ _
    | some p =>
      cases p with
      | dict m => exact ((h.fits k).dict e).2 d
      | tree a => exact NearW.refl _ _
  refine ⟨P, ⟨h.docwords, h.docweight, ?_, fun d w => (hP d w).none_iff, ?_, h.documentCount, h.valid⟩, hP⟩
  · intro k
    rw [view_get]
    refine ⟨?_, ?_⟩
    · intro e he
      cases hk : s.wordinfo.get? k with
      | none => rw [hk] at he; cases he
      | some p =>
        rw [hk] at he
        cases he
        cases p with
        | dict m =>
          refine ⟨((h.fits k).dict hk).1, fun d => ?_⟩
          have : P d k = m.get? d := by
            show (match s.wordinfo.get? k with
              | some (.dict m) => m.get? d
              | _ => weights K s.wordsIn d k) = _
            rw [hk]
          rw [this]
          show m.get? d = (m.get? d).map (keep K.arith false)
          cases m.get? d <;> rfl
        | tree a =>
          refine ⟨?_, fun d => ?_⟩
          · obtain ⟨d, m, hm, hd⟩ := hg.ne k a (fwd_tree.2 hk)
            obtain ⟨v, hv⟩ := (SMap.mem_keys_iff _ _).1 hd
            rw [SMap.isEmpty_eq_false_iff]
            refine ⟨d, v, ?_⟩
            show (s.treeAt a).get? d = _
            unfold treeAt; rw [hm]; exact hv
          · have : P d k = weights K s.wordsIn d k := by
              show (match s.wordinfo.get? k with
                | some (.dict m) => m.get? d
                | _ => weights K s.wordsIn d k) = _
              rw [hk]
            rw [this]
            exact (h.fits k).tree hk d
    · intro he d
      have hk : s.wordinfo.get? k = none := by
        cases hk : s.wordinfo.get? k with
        | none => rfl
        | some p => rw [hk] at he; cases he
      have : P d k = weights K s.wordsIn d k := by
        show (match s.wordinfo.get? k with
          | some (.dict m) => m.get? d
          | _ => weights K s.wordsIn d k) = _
        rw [hk]
      rw [this]; exact (h.fits k).none hk d
  · show s.wordCount = ((s.wordinfo.mapVals _).len : Int)
    rw [SMap.len_mapVals]; exact h.wordCount

theorem wordsIn_eq {s : HIx D R} {W : D → Option (List Int)} {P : D → Int → Option R} (h : InvP K s.view W P) : s.wordsIn = W := by
  funext d
  unfold wordsIn
  rw [show s.docwords.get? d = (W d).map WidCode.encs from h.docwords d]
  cases hW : W d with
  | none => rfl
  | some ws =>
    simp only [Option.map_some]
    rw [WidCode.decode_encs (h.valid d ws hW)]

theorem IxOk.ofInv {s : HIx D R} {W : D → Option (List Int)} {P : D → Int → Option R} (h : InvP K s.view W P)
    (hP : ∀ d w, NearW K (P d w) (weights K W d w)) (ht : s.total = if K.hasTotal then sumVals K.arith.toInt s.docweight else 0) :
    IxOk K s := by
  have hW := wordsIn_eq h
  refine ⟨by rw [hW]; exact h.docwords, by rw [hW]; exact h.docweight, ?_, ?_, h.documentCount, by rw [hW]; exact h.valid, ht⟩
  · intro k
    rw [hW]
    unfold Fits
    obtain ⟨h1, h2⟩ := h.info k
    rw [view_get] at h1 h2
    cases hk : s.wordinfo.get? k with
    | none =>
      rw [hk] at h2
      intro d
      exact (hP d k).none_iff.1 (h2 rfl d)
    | some p =>
      rw [hk] at h1
      obtain ⟨h3, h4⟩ := h1 _ rfl
      cases p with
      | dict m =>
        refine ⟨h3, fun d => ?_⟩
        have : m.get? d = P d k := by
          have := h4 d
          rw [show (s.entry (.dict m)).map = m from rfl, show (s.entry (.dict m)).tree = false from rfl] at this
          rw [this]
          cases P d k <;> rfl
        rw [this]; exact hP d k
      | tree a =>
        intro d
        have := h4 d
        rw [show (s.entry (.tree a)).map = s.treeAt a from rfl, show (s.entry (.tree a)).tree = true from rfl] at this
        rw [this]
        exact (hP d k).1
  · have := h.wordCount
    rw [show s.view.wordinfo.len = s.wordinfo.len from SMap.len_mapVals _ _] at this
    exact this

/-- weights of a changed document -/
theorem near_changed {W : D → Option (List Int)} {d : D} {o : Option (List Int)} {P P' : D → Int → Option R}
    (hc : Changed K W d o P P') (hP : ∀ d w, NearW K (P d w) (weights K W d w)) (d' : D) (w : Int) :
    NearW K (P' d' w) (weights K (setDoc W d o) d' w) := by
  by_cases hd : d' = d
  · subst hd
    rcases hc.2 w with e | ⟨e1, e2⟩
    · rw [e]; exact NearW.refl _ _
    · rw [e1, ← e2]; exact hP d' w
  · rw [hc.1 d' w hd]
    have : weights K (setDoc W d o) d' w = weights K W d' w := by
      unfold weights setDoc; rw [if_neg hd]
    rw [this]; exact hP d' w

theorem encode_valid {ws : List Int} {code : List Nat} (h : WidCode.encode ws = .ok code) : ∀ w ∈ ws, w < 0x10000000 := by
  induction ws generalizing code with
  | nil => intro w hw; cases hw
  | cons a ws ih =>
    unfold WidCode.encode at h
    cases ha : WidCode.encodeOne a with
    | error e => rw [ha] at h; cases h
    | ok c =>
      rw [ha, bind_ok] at h
      cases hr : WidCode.encode ws with
      | error e => rw [hr] at h; cases h
      | ok r =>
        intro w hw
        rcases List.mem_cons.1 hw with rfl | hw
        · by_contra hge
          rw [WidCode.encodeOne_error (by omega)] at ha
          cases ha
        · exact ih hr w hw

theorem bind_inv {α β : Type} {x : Except PyErr α} {f : α → Except PyErr β} {b : β} (h : x >>= f = .ok b) :
    ∃ a, x = .ok a ∧ f a = .ok b := by
  cases x with
  | error e => cases h
  | ok a => exact ⟨a, rfl, h⟩

theorem index_encodes {s t : HIx D R} {d : D} {wids : List Int} (h : indexDoc K d wids s = .ok t) :
    ∀ w ∈ wids, w < 0x10000000 := by
  unfold indexDoc at h
  split at h
  · obtain ⟨u, h1, -⟩ := bind_inv h
    unfold reindexDoc at h1
    obtain ⟨_, -, h1⟩ := bind_inv h1
    obtain ⟨_, -, h1⟩ := bind_inv h1
    obtain ⟨_, -, h1⟩ := bind_inv h1
    obtain ⟨_, -, h1⟩ := bind_inv h1
    obtain ⟨_, -, h1⟩ := bind_inv h1
    obtain ⟨_, -, h1⟩ := bind_inv h1
    obtain ⟨_, -, h1⟩ := bind_inv h1
    obtain ⟨code, h2, -⟩ := bind_inv h1
    exact encode_valid h2
  · obtain ⟨_, -, h1⟩ := bind_inv h
    obtain ⟨code, h2, -⟩ := bind_inv h1
    exact encode_valid h2

/-- `index_doc` -/
theorem IxOk.index (hK : Lawful K) {s t : HIx D R} (ho : Ok s) (h : IxOk K s) {d : D} {wids : List Int} (hp : ∀ w ∈ wids, 0 ≤ w)
    (hx : ExactW K wids) (hx' : ∀ d ws, s.wordsIn d = some ws → ExactW K ws) (e : indexDoc K d wids s = .ok t) :
    IxOk K t ∧ Next s t ∧ t.wordsIn = setDoc s.wordsIn d (some wids) := by
  have hv : ∀ w ∈ wids, WidCode.Valid w := fun w hw => ⟨hp w hw, index_encodes e w hw⟩
  obtain ⟨P, hi, hP⟩ := h.toInv ho.good
  obtain ⟨s', P', e', hi', hc, ht⟩ := indexDoc_okP hK hi d wids hv
  rcases index_sim K ho d wids with ⟨u, e1, e2, hn⟩ | ⟨err, e1, -⟩
  · rw [e] at e1
    cases e1
    rw [e'] at e2
    cases e2
    refine ⟨IxOk.ofInv hi' (near_changed hc hP) ?_, hn, wordsIn_eq hi'⟩
    rw [show t.total = t.view.total from rfl, ht, show s.view.total = s.total from rfl, h.total]
    cases htot : K.hasTotal with
    | false => simp
    | true =>
      simp only [if_true]
      have := lens_set hi hi'
      unfold lens at this
      rw [show t.view.docweight = t.docweight from rfl, show s.view.docweight = s.docweight from rfl] at this
      rw [this]
      have hl : lenOf K (setDoc s.wordsIn d (some wids)) d = wids.length := by
        unfold lenOf setDoc
        simp only [if_true]
        exact (hx htot).2
      rw [hl]; omega
  · rw [e] at e1; cases e1

/-- `unindex_doc` -/
theorem IxOk.unindex (hK : Lawful K) {s t : HIx D R} (ho : Ok s) (h : IxOk K s) {d : D} (e : unindexDoc K d s = .ok t) :
    IxOk K t ∧ Next s t ∧ t.wordsIn = setDoc s.wordsIn d none := by
  obtain ⟨P, hi, hP⟩ := h.toInv ho.good
  obtain ⟨s', P', e', hi', hc, ht⟩ := unindexDoc_okP hK hi d
  rcases unindex_sim K ho d with ⟨u, e1, e2, hn⟩ | ⟨err, e1, -⟩
  · rw [e] at e1
    cases e1
    rw [e'] at e2
    cases e2
    refine ⟨IxOk.ofInv hi' (near_changed hc hP) ?_, hn, wordsIn_eq hi'⟩
    rw [show t.total = t.view.total from rfl, ht, show s.view.total = s.total from rfl, h.total]
    cases htot : K.hasTotal with
    | false => simp
    | true =>
      simp only [if_true]
      have := lens_set hi hi'
      unfold lens at this
      rw [show t.view.docweight = t.docweight from rfl, show s.view.docweight = s.docweight from rfl] at this
      rw [this]
      have hl : lenOf K (setDoc s.wordsIn d none) d = 0 := by simp [lenOf, setDoc]
      rw [hl]; omega
  · rw [e] at e1; cases e1

/-! ### Merging -/

/-- sum of values, over any keys that include those of the container -/
theorem sumVals_eq (f : R → Int) (m : SMap D R) {ks : List D} (hn : ks.Nodup) (hs : ∀ k ∈ m.keys, k ∈ ks) :
    sumVals f m = (ks.map (fun k => ((m.get? k).map f).getD 0)).sum := by
  have h1 : sumVals f m = (m.keys.map (fun k => ((m.get? k).map f).getD 0)).sum := by
    unfold sumVals SMap.keys
    rw [List.map_map]
    congr 1
    refine List.map_congr_left (fun p hp => ?_)
    simp only [Function.comp]
    rw [(m.get?_eq_some_iff p.1 p.2).2 hp]; rfl
  rw [h1]
  have h2 : (ks.map (fun k => ((m.get? k).map f).getD 0)).sum =
      ((ks.filter m.contains).map (fun k => ((m.get? k).map f).getD 0)).sum := by
    clear hn hs h1
    induction ks with
    | nil => rfl
    | cons k ks ih =>
      rw [List.filter_cons, List.map_cons, List.sum_cons, ih]
      by_cases hc : m.contains k = true
      · rw [if_pos hc, List.map_cons, List.sum_cons]
      · rw [if_neg hc]
        have : m.get? k = Option.none := by rw [← SMap.contains_eq_false]; simpa using hc
        rw [this]; simp
  rw [h2]
  refine List.Perm.sum_eq (List.Perm.map _ ?_)
  rw [List.perm_ext_iff_of_nodup m.keys_nodup (hn.filter _)]
  intro k
  rw [List.mem_filter, SMap.contains_iff_mem]
  exact ⟨fun h => ⟨hs k h, h⟩, fun h => h.2⟩

theorem mergeTree_sum [DecidableEq R] (f : R → Int) {o c n r : SMap D R} (h : mergeTree o c n = some r) :
    sumVals f r + sumVals f o = sumVals f c + sumVals f n := by
  classical
  let ks := (o.keys ++ c.keys ++ n.keys).dedup
  have hn : ks.Nodup := List.nodup_dedup _
  have hmem : ∀ k, k ∈ ks ↔ k ∈ o.keys ∨ k ∈ c.keys ∨ k ∈ n.keys := by
    intro k; simp [ks, List.mem_dedup, List.mem_append, or_assoc]
  have hr : ∀ k ∈ r.keys, k ∈ ks := by
    intro k hk
    rw [SMap.mem_keys_iff] at hk
    obtain ⟨v, hv⟩ := hk
    rw [hmem]
    rcases mergeTree_keywise h k with ⟨-, e⟩ | ⟨-, e⟩
    · exact Or.inr (Or.inr ((SMap.mem_keys_iff _ _).2 ⟨v, e ▸ hv⟩))
    · exact Or.inr (Or.inl ((SMap.mem_keys_iff _ _).2 ⟨v, e ▸ hv⟩))
  rw [sumVals_eq f r hn hr, sumVals_eq f o hn (fun k hk => (hmem k).2 (Or.inl hk)),
    sumVals_eq f c hn (fun k hk => (hmem k).2 (Or.inr (Or.inl hk))),
    sumVals_eq f n hn (fun k hk => (hmem k).2 (Or.inr (Or.inr hk)))]
  clear hr hmem hn
  induction ks with
  | nil => rfl
  | cons k t ih =>
    simp only [List.map_cons, List.sum_cons]
    rcases mergeTree_keywise h k with ⟨e1, e2⟩ | ⟨e1, e2⟩ <;> rw [e1, e2] <;> omega

variable [DecidableEq R]

/-- a merge, taken apart -/
structure Parts (o c x r : HIx D R) : Prop where
  heap : mergeHeap mergeTree o.heap c.heap x.heap = some r.heap
  wordinfo : mergeTree o.wordinfo c.wordinfo x.wordinfo = some r.wordinfo
  docweight : mergeTree o.docweight c.docweight x.docweight = some r.docweight
  docwords : mergeTree o.docwords c.docwords x.docwords = some r.docwords
  wordCount : r.wordCount = c.wordCount + x.wordCount - o.wordCount
  documentCount : r.documentCount = c.documentCount + x.documentCount - o.documentCount
  total : r.total = c.total + x.total - o.total

theorem merge_parts {o c x r : HIx D R} (h : merge o c x = some r) : Parts o c x r := by
  unfold merge at h
  cases h1 : mergeHeap mergeTree o.heap c.heap x.heap with
  | none => rw [h1] at h; cases h
  | some heap =>
  cases h2 : mergeTree o.wordinfo c.wordinfo x.wordinfo with
  | none => rw [h1, h2] at h; cases h
  | some wordinfo =>
  cases h3 : mergeTree o.docweight c.docweight x.docweight with
  | none => rw [h1, h2, h3] at h; cases h
  | some docweight =>
  cases h4 : mergeTree o.docwords c.docwords x.docwords with
  | none => rw [h1, h2, h3, h4] at h; cases h
  | some docwords =>
  rw [h1, h2, h3, h4] at h
  cases h
  exact ⟨h1, h2, h3, h4, rfl, rfl, rfl⟩

theorem Parts.merged {o c x r : HIx D R} (h : Parts o c x r) : Merged o.tv c.tv x.tv r.tv :=
  merged_by (mem := fun (m : SMap D R) d => d ∈ m.keys) (fun _ _ _ _ e => mergeTree_mergesBy e) h.heap (fun k => by
    rcases mergeTree_keywise h.wordinfo k with ⟨e1, e2⟩ | ⟨e1, e2⟩
    · exact Or.inl ⟨by rw [e1], by rw [e2]⟩
    · exact Or.inr ⟨by rw [e1], by rw [e2]⟩)

/-- per document, the merged index has the words of one side, the other having left the document alone -/
theorem Parts.words {o c x r : HIx D R} (h : Parts o c x r) (d : D) :
    (o.wordsIn d = c.wordsIn d ∧ r.wordsIn d = x.wordsIn d) ∨ (o.wordsIn d = x.wordsIn d ∧ r.wordsIn d = c.wordsIn d) := by
  unfold wordsIn
  rcases mergeTree_keywise h.docwords d with ⟨e1, e2⟩ | ⟨e1, e2⟩
  · exact Or.inl ⟨by rw [e1], by rw [e2]⟩
  · exact Or.inr ⟨by rw [e1], by rw [e2]⟩

theorem weights_congr {W W' : D → Option (List Int)} {d : D} (h : W d = W' d) (k : Int) : weights K W d k = weights K W' d k := by
  unfold weights; rw [h]

/-- cells of objects both transactions found -/
theorem cell_cases {o c x r : Heap (SMap D R)} (h : mergeHeap mergeTree o c x = some r) {a : Nat} {m : SMap D R} (ho : o.get? a = some m) :
    ∃ mc mx mr, c.get? a = some mc ∧ x.get? a = some mx ∧ r.get? a = some mr ∧ mergeTree m mc mx = some mr := by
  have hm := mergeHeap_spec h a
  rw [ho] at hm
  cases hc : c.get? a with
  | none => rw [hc] at hm; cases hm
  | some mc =>
    cases hx : x.get? a with
    | none => rw [hc, hx] at hm; cases hm
    | some mx =>
      rw [hc, hx] at hm
      simp only [mergeCell] at hm
      cases hv : mergeTree m mc mx with
      | none => rw [hv] at hm; cases hm
      | some mr =>
        rw [hv] at hm
        simp only [Option.map_some, Option.some.injEq] at hm
        exact ⟨mc, mx, mr, rfl, rfl, hm.symm, hv⟩

/-- weights that are exact -/
theorem weights_exact {W : D → Option (List Int)} (hx : ∀ d ws, W d = some ws → ExactW K ws) (ht : K.hasTotal = true) (d : D) (k : Int) :
    (weights K W d k).map K.arith.store = weights K W d k := by
  unfold weights
  cases hW : W d with
  | none => rfl
  | some ws =>
    rw [Option.bind_some]
    cases hg : dget? k (fr K ws).1 with
    | none => rfl
    | some v => rw [Option.map_some, (hx d ws hW ht).1 k v hg]

/-- the entry of a word in the merged index, when the committed transactions did not replace it -/
theorem fits_merge {o c x r : HIx D R} {k : Int}
    (hh : mergeHeap mergeTree o.heap c.heap x.heap = some r.heap)
    (go : o.tv.Good) (gx : x.tv.Good) (hox : Evo o.tv x.tv)
    (fresh : ∀ a, c.tv.has a → x.tv.has a → o.tv.has a)
    (fo : Fits K o o.wordsIn k) (fc : Fits K c c.wordsIn k) (fx : Fits K x x.wordsIn k)
    (xo : ∀ d ws, o.wordsIn d = some ws → ExactW K ws) (xc : ∀ d ws, c.wordsIn d = some ws → ExactW K ws)
    (hw : ∀ d, (o.wordsIn d = c.wordsIn d ∧ r.wordsIn d = x.wordsIn d) ∨ (o.wordsIn d = x.wordsIn d ∧ r.wordsIn d = c.wordsIn d))
    (e1 : o.wordinfo.get? k = c.wordinfo.get? k) (e2 : r.wordinfo.get? k = x.wordinfo.get? k) : Fits K r r.wordsIn k := by
  by_cases hsame : ∃ a, o.wordinfo.get? k = some (.tree a) ∧ x.wordinfo.get? k = some (.tree a)
  · obtain ⟨a, ho, hx⟩ := hsame
    have hc := e1.symm.trans ho
    have hr := e2.trans hx
    obtain ⟨m, hm⟩ := go.refs k a (fwd_tree.2 ho)
    obtain ⟨mc, mx, mr, h1, h2, h3, h4⟩ := cell_cases hh hm
    have qo := fo.tree ho
    have tc := fc.tree hc
    have tx := fx.tree hx
    unfold treeAt at qo tc tx
    rw [hm] at qo
    rw [h1] at tc
    rw [h2] at tx
    simp only [Option.getD_some] at qo tc tx
    unfold Fits
    rw [hr]
    intro d
    unfold treeAt
    rw [h3]
    simp only [Option.getD_some]
    rcases hw d with ⟨w1, w2⟩ | ⟨w1, w2⟩
    · rw [weights_congr w2, ← tx d]
      rcases mergeTree_keywise h4 d with ⟨v1, v2⟩ | ⟨v1, v2⟩
      · exact v2
      · rw [v2, tc d, ← weights_congr w1, ← qo d, v1]
    · rw [weights_congr w2, ← tc d]
      rcases mergeTree_keywise h4 d with ⟨v1, v2⟩ | ⟨v1, v2⟩
      · rw [v2, tx d, ← weights_congr w1, ← qo d, v1]
      · exact v2
  · -- the committed transactions did not change the weights of the word
    have star : ∀ d, NearW K (weights K o.wordsIn d k) (weights K c.wordsIn d k) := by
      intro d
      cases ho : o.wordinfo.get? k with
      | none =>
        rw [fo.none ho d, fc.none (e1.symm.trans ho) d]; exact NearW.refl _ _
      | some p =>
        cases p with
        | dict m => exact ((fo.dict ho).2 d).symm.trans ((fc.dict (e1.symm.trans ho)).2 d)
        | tree a =>
          have hc := e1.symm.trans ho
          obtain ⟨m, hm⟩ := go.refs k a (fwd_tree.2 ho)
          obtain ⟨mc, mx, mr, h1, h2, h3, h4⟩ := cell_cases hh hm
          have hempty : ∀ d, ¬ x.tv.mem a d := by
            rcases hox.keep k a (fwd_tree.2 ho) with h' | h'
            · exact absurd ⟨a, ho, fwd_tree.1 h'⟩ hsame
            · exact h'
          have hmx : mx.isEmpty = true := by
            rw [SSet.isEmpty_iff_keys]
            intro d hd
            exact hempty d ⟨mx, h2, hd⟩
          have hmo : m.isEmpty = false := by
            obtain ⟨d, m', hm', hd⟩ := go.ne k a (fwd_tree.2 ho)
            have hm' : o.heap.get? a = some m' := hm'
            rw [hm] at hm'
            cases hm'
            obtain ⟨v, hv⟩ := (SMap.mem_keys_iff _ _).1 hd
            exact (SMap.isEmpty_eq_false_iff _).2 ⟨d, v, hv⟩
          have hcm : mc = m := by
            rcases mergeTree_cases h4 with ⟨q, -⟩ | ⟨q, -⟩ | ⟨-, -, q, -⟩
            · exact q
            · rw [q, hmo] at hmx; cases hmx
            · rw [q] at hmx; cases hmx
          subst hcm
          have qo := fo.tree ho d
          have tc := fc.tree hc d
          unfold treeAt at qo tc
          rw [hm] at qo
          rw [h1] at tc
          have hst := qo.symm.trans tc
          refine ⟨hst, fun ht => ?_⟩
          rw [← weights_exact xo ht, ← weights_exact xc ht]
          exact hst
    have hnear : ∀ d, NearW K (weights K x.wordsIn d k) (weights K r.wordsIn d k) := by
      intro d
      rcases hw d with ⟨w1, w2⟩ | ⟨w1, w2⟩
      · rw [weights_congr w2]; exact NearW.refl _ _
      · rw [weights_congr w2, ← weights_congr w1]; exact star d
    unfold Fits
    rw [e2]
    cases hx : x.wordinfo.get? k with
    | none =>
      intro d
      exact (hnear d).none_iff.1 (fx.none hx d)
    | some p =>
      cases p with
      | dict m => exact ⟨(fx.dict hx).1, fun d => ((fx.dict hx).2 d).trans (hnear d)⟩
      | tree b =>
        intro d
        have hno : ¬ o.tv.has b := by
          intro hob
          exact hsame ⟨b, fwd_tree.1 (hox.back k b hob (fwd_tree.2 hx)), hx⟩
        obtain ⟨mx, hmx⟩ := gx.refs k b (fwd_tree.2 hx)
        have hm := mergeHeap_spec hh b
        have hoN : o.heap.get? b = none := by
          cases e : o.heap.get? b with
          | none => rfl
          | some m => exact absurd ⟨m, e⟩ hno
        have hcN : c.heap.get? b = none := by
          cases e : c.heap.get? b with
          | none => rfl
          | some m => exact absurd (fresh b ⟨m, e⟩ ⟨mx, hmx⟩) hno
        rw [hoN, hcN, hmx] at hm
        simp only [mergeCell, Option.some.injEq] at hm
        have : r.treeAt b = x.treeAt b := by unfold treeAt; rw [← hm, hmx]
        rw [this, fx.tree hx d]
        exact (hnear d).1

/-- the other half of a merge -/
theorem mergeTree_swap {A B : Type} [LinearOrder A] [DecidableEq B] {o c x r : SMap A B} (h : mergeTree o c x = some r) :
    mergeTree o x c = some r := by
  rcases mergeTree_cases h with ⟨rfl, rfl⟩ | ⟨rfl, rfl⟩ | ⟨h1, h2, h3, h4⟩
  · unfold mergeTree
    by_cases e : r = c
    · rw [if_pos e, e]
    · rw [if_neg e, if_pos rfl]
  · exact mergeTree_same _ _
  · unfold mergeTree
    by_cases e : x = o
    · subst e
      rw [if_pos rfl]
      congr 1
      ext1 k
      rcases h1 k with ⟨a1, a2⟩ | ⟨a1, a2⟩
      · rw [a2, a1]
      · exact a2.symm
    · rw [if_neg e]
      by_cases e' : c = o
      · subst e'
        rw [if_pos rfl]
        congr 1
        ext1 k
        rcases h1 k with ⟨a1, a2⟩ | ⟨a1, a2⟩
        · exact a2.symm
        · rw [a2, a1]
      · rw [if_neg e', h2, h3]
        simp only [Bool.or_self, Bool.false_eq_true, if_false]
        have hall : (o.keys ++ x.keys ++ c.keys).all (fun k => decide (x.get? k = o.get? k) || decide (c.get? k = o.get? k)) = true := by
          rw [List.all_eq_true]
          intro k _
          rw [Bool.or_eq_true, decide_eq_true_eq, decide_eq_true_eq]
          rcases h1 k with ⟨a1, -⟩ | ⟨a1, -⟩
          · exact Or.inr a1.symm
          · exact Or.inl a1.symm
        rw [if_pos hall]
        have hb : SMap.build (o.keys ++ x.keys ++ c.keys) (fun k => if x.get? k = o.get? k then c.get? k else x.get? k) = r := by
          ext1 k
          rw [SMap.get?_build]
          by_cases hk : k ∈ o.keys ++ x.keys ++ c.keys
          · rw [if_pos hk]
            rcases h1 k with ⟨a1, a2⟩ | ⟨a1, a2⟩
            · by_cases q : x.get? k = o.get? k
              · rw [if_pos q, a2, q, a1]
              · rw [if_neg q, a2]
            · rw [if_pos a1.symm, a2]
          · rw [if_neg hk]
            simp only [List.mem_append, not_or] at hk
            obtain ⟨⟨-, hx⟩, hc⟩ := hk
            rw [← SMap.get?_eq_none_iff] at hx hc
            rcases h1 k with ⟨-, a2⟩ | ⟨-, a2⟩
            · rw [a2, hx]
            · rw [a2, hc]
        rw [hb, h4]
        simp

theorem mergeHeap_swap_cells {o c x r : Heap (SMap D R)} (h : mergeHeap mergeTree o c x = some r) :
    ∃ n, mergeHeap mergeTree o x c = some { r with next := n } := by
  have hcell : ∀ a, mergeCell mergeTree (o.get? a) (x.get? a) (c.get? a) = some (r.get? a) := by
    intro a
    have hm := mergeHeap_spec h a
    revert hm
    generalize r.get? a = w
    cases ho : o.get? a <;> cases hc : c.get? a <;> cases hx : x.get? a <;> intro hm <;> simp only [mergeCell] at hm ⊢ <;>
      first | exact hm | (cases hm; done) | skip
    rename_i m mc mx
    cases hv : mergeTree m mc mx with
    | none => rw [hv] at hm; cases hm
    | some mr => rw [hv] at hm; rw [mergeTree_swap hv]; exact hm
  refine ⟨c.next, ?_⟩
  unfold mergeHeap
  dsimp only
  rw [if_pos (by rw [List.all_eq_true]; intro a _; rw [hcell]; rfl)]
  congr 2
  ext1 a
  rw [SMap.get?_build, hcell]
  by_cases ha : a ∈ o.cells.keys ++ x.cells.keys ++ c.cells.keys
  · rw [if_pos ha]; rfl
  · rw [if_neg ha]
    simp only [List.mem_append, not_or] at ha
    have h1 := (SMap.get?_eq_none_iff _ _).2 ha.1.1
    have h2 := (SMap.get?_eq_none_iff _ _).2 ha.1.2
    have h3 := (SMap.get?_eq_none_iff _ _).2 ha.2
    have hm := mergeHeap_spec h a
    unfold Heap.get? at hm
    rw [h1, h2, h3] at hm
    simp only [mergeCell, Option.some.injEq] at hm
    exact hm

/-- a merge of two indexes that fit their documents fits its documents -/
theorem IxOk.merge {o c x r : HIx D R} (hm : HIx.merge o c x = some r)
    (go : o.tv.Good) (gc : c.tv.Good) (gx : x.tv.Good) (hoc : Evo o.tv c.tv) (hox : Evo o.tv x.tv)
    (fresh : ∀ a, c.tv.has a → x.tv.has a → o.tv.has a) (ho : IxOk K o) (hc : IxOk K c) (hx : IxOk K x)
    (xo : ∀ d ws, o.wordsIn d = some ws → ExactW K ws) (xc : ∀ d ws, c.wordsIn d = some ws → ExactW K ws)
    (xx : ∀ d ws, x.wordsIn d = some ws → ExactW K ws) : IxOk K r := by
  have hp := merge_parts hm
  have hw := hp.words
  refine ⟨?_, ?_, ?_, ?_, ?_, ?_, ?_⟩
  · intro d
    rcases mergeTree_keywise hp.docwords d with ⟨-, e2⟩ | ⟨-, e2⟩
    · have : r.wordsIn d = x.wordsIn d := by unfold wordsIn; rw [e2]
      rw [e2, this]; exact hx.docwords d
    · have : r.wordsIn d = c.wordsIn d := by unfold wordsIn; rw [e2]
      rw [e2, this]; exact hc.docwords d
  · intro d
    rcases mergeTree_keywise hp.docweight d with ⟨e1, e2⟩ | ⟨e1, e2⟩ <;> rcases hw d with ⟨w1, w2⟩ | ⟨w1, w2⟩ <;> rw [e2, w2]
    · exact hx.docweight d
    · rw [hx.docweight, ← w1, ← ho.docweight, e1, hc.docweight]
    · rw [hc.docweight, ← w1, ← ho.docweight, e1, hx.docweight]
    · exact hc.docweight d
  · intro k
    rcases mergeTree_keywise hp.wordinfo k with ⟨e1, e2⟩ | ⟨e1, e2⟩
    · exact fits_merge hp.heap go gx hox fresh (ho.fits k) (hc.fits k) (hx.fits k) xo xc hw e1 e2
    · obtain ⟨n, hs⟩ := mergeHeap_swap_cells hp.heap
      have := fits_merge (K := K) (o := o) (c := x) (x := c) (r := { r with heap := { r.heap with next := n } }) hs go gc hoc
        (fun a h1 h2 => fresh a h2 h1) (ho.fits k) (hx.fits k) (hc.fits k) xo xx (fun d => (hw d).symm) e1 e2
      exact this
  · rw [hp.wordCount, ho.wordCount, hc.wordCount, hx.wordCount]
    have := mergeTree_len hp.wordinfo
    omega
  · rw [hp.documentCount, ho.documentCount, hc.documentCount, hx.documentCount]
    have := mergeTree_len hp.docwords
    omega
  · intro d ws h
    rcases hw d with ⟨-, w2⟩ | ⟨-, w2⟩
    · exact hx.valid d ws (w2 ▸ h)
    · exact hc.valid d ws (w2 ▸ h)
  · rw [hp.total, ho.total, hc.total, hx.total]
    have := mergeTree_sum K.arith.toInt hp.docweight
    cases K.hasTotal
    · simp
    · simp only [if_true]; omega

end HIx
end Verif.Text
