import Verif.Spec.SharedLexicon
import Verif.Proofs.TextSame

/-! # Word ids do not matter -/

set_option autoImplicit false

namespace Verif.Text

open SetOps Spec

variable {D R : Type} [LinearOrder D]

/-! ## Counting -/

/-- the keys of a dict renamed -/
def rename {V : Type} (f : Int → Int) (d : List (Int × V)) : List (Int × V) := d.map (fun p => (f p.1, p.2))

theorem dget?_rename {V : Type} (f : Int → Int) (k : Int) (d : List (Int × V)) (h : ∀ a ∈ d.map (·.1), f a = f k → a = k) :
    dget? (f k) (rename f d) = dget? k d := by
  induction d with
  | nil => rfl
  | cons p d ih =>
    obtain ⟨a, v⟩ := p
    have ih := ih (fun b hb => h b (by simp [hb]))
    show (if f a = f k then _ else dget? (f k) (rename f d)) = if a = k then _ else _
    by_cases hk : a = k
    · rw [if_pos hk, if_pos (by rw [hk])]
    · rw [if_neg hk, if_neg (fun e => hk (h a (by simp) e)), ih]

theorem dset_rename {V : Type} (f : Int → Int) (k : Int) (v : V) (d : List (Int × V)) (h : ∀ a ∈ d.map (·.1), f a = f k → a = k) :
    dset (f k) v (rename f d) = rename f (dset k v d) := by
  induction d with
  | nil => rfl
  | cons p d ih =>
    obtain ⟨a, w⟩ := p
    have ih := ih (fun b hb => h b (by simp [hb]))
    show (if f a = f k then _ else (f a, w) :: dset (f k) v (rename f d)) = rename f (if a = k then _ else _)
    by_cases hk : a = k
    · rw [if_pos hk, if_pos (by rw [hk])]; rfl
    · rw [if_neg hk, if_neg (fun e => hk (h a (by simp) e)), ih]; rfl

theorem countLoop_rename (f : Int → Int) (l : List Int) (h : ∀ a ∈ l, ∀ b ∈ l, f a = f b → a = b) :
    countLoop (l.map f) = rename f (countLoop l) := by
  induction l using List.reverseRecOn with
  | nil => rfl
  | append_singleton l k ih =>
    have ih := ih (fun a ha b hb => h a (by simp [ha]) b (by simp [hb]))
    have hk : ∀ a ∈ (countLoop l).map (·.1), f a = f k → a = k := by
      intro a ha
      rw [countLoop_keys] at ha
      exact h a (by simp [ha]) k (by simp)
    have e : ∀ (l : List Int) k, countLoop (l ++ [k]) = dset k ((dget? k (countLoop l)).getD 0 + 1) (countLoop l) := by
      intro l k; unfold countLoop; rw [List.foldl_append]; rfl
    rw [List.map_append, List.map_singleton, e, e, ih, dget?_rename f k _ hk, dset_rename f k _ _ hk]

/-! ## Two indexes with different word ids -/

/-- two states that agree on all words, up to what single precision loses; `g` and `g'` are the ids of the words -/
structure Via (A : Arith R) (exact : Bool) (g g' : Word → Int) (s s' : Ix D R) : Prop where
  docweight : s.docweight = s'.docweight
  documentCount : s.documentCount = s'.documentCount
  total : s.total = s'.total
  none : ∀ w, s.wordinfo.get? (g w) = none ↔ s'.wordinfo.get? (g' w) = none
  some : ∀ w e e', s.wordinfo.get? (g w) = some e → s'.wordinfo.get? (g' w) = some e' →
    e.toTree A = e'.toTree A ∧ (exact = true → e.map = e'.map)

/-- word ids do not matter to the class -/
structure Renames (K : Kind D R) : Prop where
  freqs : ∀ (f : Int → Int) (l : List Int), (∀ a ∈ l, ∀ b ∈ l, f a = f b → a = b) →
    K.freqs (l.map f) = (K.freqs l).map (fun r => (rename f r.1, r.2))
  searches : ∀ (g g' : Word → Int) (s s' : Ix D R), Via K.arith K.hasTotal g g' s s' → ∀ xs : List Word,
    K.searchWids s (xs.map g) = K.searchWids s' (xs.map g') ∧ K.queryWeight s (xs.map g) = K.queryWeight s' (xs.map g')

theorem mapM_via {α : Type} {g g' : Word → Int} {f f' : Int → Except PyErr α} (h : ∀ w, f (g w) = f' (g' w)) (xs : List Word) :
    (xs.map g).mapM f = (xs.map g').mapM f' := by
  induction xs with
  | nil => rfl
  | cons x xs ih => rw [List.map_cons, List.map_cons, List.mapM_cons, List.mapM_cons, h, ih]

theorem foldlM_via {α : Type} {g g' : Word → Int} {f f' : α → Int → Except PyErr α} (h : ∀ a w, f a (g w) = f' a (g' w))
    (xs : List Word) (a : α) : (xs.map g).foldlM f a = (xs.map g').foldlM f' a := by
  induction xs generalizing a with
  | nil => rfl
  | cons x xs ih =>
    rw [List.map_cons, List.map_cons, List.foldlM_cons, List.foldlM_cons, h]
    exact congrArg _ (funext ih)

section
variable {A : Arith R} {exact : Bool} {g g' : Word → Int} {s s' : Ix D R} (h : Via A exact g g' s s')
include h

theorem Via.cases (w : Word) : (s.wordinfo.get? (g w) = Option.none ∧ s'.wordinfo.get? (g' w) = Option.none) ∨
    ∃ e e', s.wordinfo.get? (g w) = Option.some e ∧ s'.wordinfo.get? (g' w) = Option.some e' ∧ e.map.len = e'.map.len ∧
      e.toTree A = e'.toTree A ∧ (exact = true → e.map = e'.map) := by
  cases he : s.wordinfo.get? (g w) with
  | none => exact Or.inl ⟨rfl, (h.none w).1 he⟩
  | some e =>
    cases he' : s'.wordinfo.get? (g' w) with
    | none => rw [(h.none w).2 he'] at he; cases he
    | some e' =>
      obtain ⟨h1, h2⟩ := h.some w e e' he he'
      exact Or.inr ⟨e, e', rfl, rfl, by rw [← D2S.toTree_len A e, ← D2S.toTree_len A e', h1], h1, h2⟩

theorem Via.contains (w : Word) : s.wordinfo.contains (g w) = s'.wordinfo.contains (g' w) := by
  unfold SMap.contains
  rcases h.cases w with ⟨e1, e2⟩ | ⟨e, e', e1, e2, -⟩ <;> rw [e1, e2] <;> rfl

/-- the words that remain are the same -/
theorem Via.removeOov (xs : List Word) :
    removeOov s (xs.map g) = (xs.filter (fun w => s.wordinfo.contains (g w))).map g ∧
    removeOov s' (xs.map g') = (xs.filter (fun w => s.wordinfo.contains (g w))).map g' := by
  constructor
  · unfold Text.removeOov; rw [List.filter_map]; rfl
  · unfold Text.removeOov
    rw [List.filter_map]
    have : ((fun w => s'.wordinfo.contains w) ∘ g') = fun w => s.wordinfo.contains (g w) := funext (fun w => (h.contains w).symm)
    rw [this]

end

theorem okapi_renames (A : Arith R) (P : Bm25 R) : Renames (okapi A P : Kind D R) := by
  refine ⟨?_, ?_⟩
  · intro f l hf
    show okapiFreqs A (l.map f) = (okapiFreqs A l).map _
    unfold okapiFreqs
    rw [countLoop_rename f l hf, List.length_map]
    show Except.ok _ = Except.ok _
    unfold rename
    simp only [List.map_map]
    rfl
  · intro g g' s s' h xs
    have h : Via A true g g' s s' := h
    constructor
    · show okapiSearchWids A P s (xs.map g) = okapiSearchWids A P s' (xs.map g')
      unfold okapiSearchWids
      rw [h.documentCount, h.total, List.isEmpty_map, List.isEmpty_map]
      have : ∀ N m w, okapiWord A P s N m (g w) = okapiWord A P s' N m (g' w) := by
        intro N m w
        unfold okapiWord
        rcases h.cases w with ⟨e1, e2⟩ | ⟨e, e', e1, e2, -, -, e3⟩ <;> rw [e1, e2]
        rw [h.docweight]
        dsimp only
        rw [e3 rfl]
      have : ∀ N m, (xs.map g).mapM (okapiWord A P s N m) = (xs.map g').mapM (okapiWord A P s' N m) :=
        fun N m => mapM_via (this N m) xs
      simp only [this]
    · show okapiQueryWeight A P s (xs.map g) = okapiQueryWeight A P s' (xs.map g')
      unfold okapiQueryWeight
      rw [(h.removeOov xs).1, (h.removeOov xs).2, h.docweight]
      refine foldlM_via ?_ _ _
      intro a w
      unfold okapiWeightStep
      rcases h.cases w with ⟨e1, e2⟩ | ⟨e, e', e1, e2, e3, -⟩ <;> rw [e1, e2]
      dsimp only
      rw [e3]

theorem okapiC_renames (A : Arith R) (cdiv : R → R → R) (P : Bm25 R) : Renames (okapiC A cdiv P : Kind D R) := by
  refine ⟨(okapi_renames (D := D) A P).freqs, ?_⟩
  intro g g' s s' h xs
  refine ⟨?_, ((okapi_renames A P).searches g g' s s' h xs).2⟩
  have h : Via A true g g' s s' := h
  show cSearchWids A cdiv P s (xs.map g) = cSearchWids A cdiv P s' (xs.map g')
  unfold cSearchWids
  rw [h.documentCount, h.total, List.isEmpty_map, List.isEmpty_map]
  have : ∀ N m w, cWord A cdiv P s N m (g w) = cWord A cdiv P s' N m (g' w) := by
    intro N m w
    unfold cWord
    rcases h.cases w with ⟨e1, e2⟩ | ⟨e, e', e1, e2, -, -, e3⟩ <;> rw [e1, e2]
    rw [h.docweight]
    dsimp only
    rw [e3 rfl]
  have : ∀ N m, (xs.map g).mapM (cWord A cdiv P s N m) = (xs.map g').mapM (cWord A cdiv P s' N m) :=
    fun N m => mapM_via (this N m) xs
  simp only [this]

theorem cosineWeights_rename (A : Arith R) (f : Int → Int) (d : List (Int × Nat)) (sum : R) :
    cosineWeights A (rename f d) sum = (cosineWeights A d sum).map (fun r => (rename f r.1, r.2)) := by
  induction d generalizing sum with
  | nil => rfl
  | cons p d ih =>
    obtain ⟨a, n⟩ := p
    show (do let w ← docTermWeight A n; let r ← cosineWeights A (rename f d) (A.add sum (A.mul w w)); return ((f a, w) :: r.1, r.2)) =
      (do let w ← docTermWeight A n; let r ← cosineWeights A d (A.add sum (A.mul w w)); return ((a, w) :: r.1, r.2)).map _
    cases docTermWeight A n with
    | error e => rfl
    | ok w =>
      simp only [bind_ok]
      rw [ih]
      cases cosineWeights A d (A.add sum (A.mul w w)) <;> rfl

theorem cosine_renames (A : Arith R) : Renames (cosine A : Kind D R) := by
  refine ⟨?_, ?_⟩
  · intro f l hf
    show cosineFreqs A (l.map f) = (cosineFreqs A l).map _
    unfold cosineFreqs
    rw [countLoop_rename f l hf, cosineWeights_rename]
    cases cosineWeights A (countLoop l) A.zero with
    | error e => rfl
    | ok r =>
      simp only [Except.map, bind_ok]
      cases pySqrt A r.2 with
      | error e => rfl
      | ok W =>
        simp only [bind_ok]
        have : ∀ d : List (Int × R), (rename f d).mapM (fun p => do let q ← pyDiv A p.2 W; return (p.1, q)) =
            (d.mapM (fun p => do let q ← pyDiv A p.2 W; return (p.1, q)) : Except PyErr _).map (rename f) := by
          intro d
          induction d with
          | nil => rfl
          | cons p d ih =>
            obtain ⟨a, x⟩ := p
            show ((f a, x) :: rename f d).mapM _ = _
            rw [List.mapM_cons, List.mapM_cons, ih]
            cases pyDiv A x W with
            | error e => rfl
            | ok q =>
              simp only [bind_ok]
              cases (d.mapM (fun p => do let q ← pyDiv A p.2 W; return (p.1, q)) : Except PyErr _) <;> rfl
        rw [this]
        cases (r.1.mapM (fun p => do let q ← pyDiv A p.2 W; return (p.1, q)) : Except PyErr _) <;> rfl
  · intro g g' s s' h xs
    have h : Via A false g g' s s' := h
    constructor
    · show cosineSearchWids A s (xs.map g) = cosineSearchWids A s' (xs.map g')
      unfold cosineSearchWids
      rw [h.docweight, List.isEmpty_map, List.isEmpty_map]
      have : ∀ N w, cosineWord A s N (g w) = cosineWord A s' N (g' w) := by
        intro N w
        unfold cosineWord
        rcases h.cases w with ⟨e1, e2⟩ | ⟨e, e', e1, e2, e3, e4, -⟩ <;> rw [e1, e2]
        dsimp only
        unfold D2S.toTree at e4
        rw [e3, e4]
      rw [mapM_via (this _) xs]
    · show cosineQueryWeight A s (xs.map g) = cosineQueryWeight A s' (xs.map g')
      unfold cosineQueryWeight
      rw [(h.removeOov xs).1, (h.removeOov xs).2, h.docweight]
      have : ∀ a w, cosineWeightStep A s (A.ofNat s'.docweight.len) a (g w) = cosineWeightStep A s' (A.ofNat s'.docweight.len) a (g' w) := by
        intro a w
        unfold cosineWeightStep
        rcases h.cases w with ⟨e1, e2⟩ | ⟨e, e', e1, e2, e3, -⟩ <;> rw [e1, e2]
        dsimp only
        rw [e3]
      rw [foldlM_via this]

/-! ## Indexes that hold the same words -/

/-- the ids of the words of a text are told apart from all others -/
def Tells (g : Word → Int) (ws : List Word) : Prop := ∀ w ∈ ws, ∀ v, g v = g w → v = w

theorem fr_rename {K : Kind D R} (hL : Lawful K) (hK : Renames K) {g g' : Word → Int} {ws : List Word} (hg : Tells g ws)
    (hg' : Tells g' ws) :
    (fr K (ws.map g')).2 = (fr K (ws.map g)).2 ∧ ∀ v, dget? (g' v) (fr K (ws.map g')).1 = dget? (g v) (fr K (ws.map g)).1 := by
  classical
  let f : Int → Int := fun i => if h : ∃ w ∈ ws, g w = i then g' h.choose else 0
  have hf : ∀ w ∈ ws, f (g w) = g' w := by
    intro w hw
    have h : ∃ v ∈ ws, g v = g w := ⟨w, hw, rfl⟩
    show (if h : ∃ v ∈ ws, g v = g w then g' h.choose else 0) = _
    rw [dif_pos h]
    rw [hg w hw _ h.choose_spec.2]
  have hinj : ∀ a ∈ ws.map g, ∀ b ∈ ws.map g, f a = f b → a = b := by
    intro a ha b hb e
    obtain ⟨w, hw, rfl⟩ := List.mem_map.1 ha
    obtain ⟨v, hv, rfl⟩ := List.mem_map.1 hb
    rw [hf w hw, hf v hv] at e
    rw [hg' v hv w e]
  have hmap : ws.map g' = (ws.map g).map f := by
    rw [List.map_map]
    exact List.map_congr_left (fun w hw => (hf w hw).symm)
  have hfr : fr K (ws.map g') = (rename f (fr K (ws.map g)).1, (fr K (ws.map g)).2) := by
    have e := hK.freqs f (ws.map g) hinj
    rw [hL.ok (ws.map g), ← hmap, hL.ok (ws.map g')] at e
    exact Except.ok.inj e
  refine ⟨by rw [hfr], fun v => ?_⟩
  by_cases hv : v ∈ ws
  · rw [hfr, ← hf v hv]
    refine dget?_rename f (g v) _ ?_
    intro a ha e
    exact hinj a ((hL.mem _ _).1 ha) (g v) (List.mem_map.2 ⟨v, hv, rfl⟩) e
  · have hno : ∀ g, Tells g ws → dget? (g v) (fr K (ws.map g)).1 = none := by
      intro g hg
      have : ¬ (dget? (g v) (fr K (ws.map g)).1).isSome := by
        rw [dget?_isSome, hL.mem]
        intro hm
        obtain ⟨w, hw, e⟩ := List.mem_map.1 hm
        exact hv (by rw [hg w hw v e.symm]; exact hw)
      cases h : dget? (g v) (fr K (ws.map g)).1 with
      | none => rfl
      | some x => rw [h] at this; exact absurd rfl this
    rw [hno g hg, hno g' hg']

/-- two indexes that hold the same words agree on all words -/
theorem via_of_inv {K : Kind D R} (hL : Lawful K) (hK : Renames K) {s s' : Ix D R} {V : D → Option (List Word)} {g g' : Word → Int}
    (hi : Inv K s (fun d => (V d).map (fun ws => ws.map g))) (hi' : Inv K s' (fun d => (V d).map (fun ws => ws.map g')))
    (hg : ∀ d ws, V d = some ws → Tells g ws) (hg' : ∀ d ws, V d = some ws → Tells g' ws)
    (hx : ∀ d ws, V d = some ws → ExactW K (ws.map g)) (ht : s.total = s'.total) : Via K.arith K.hasTotal g g' s s' := by
  have hw : ∀ d v, weights K (fun d => (V d).map (fun ws => ws.map g)) d (g v) =
      weights K (fun d => (V d).map (fun ws => ws.map g')) d (g' v) := by
    intro d v
    unfold weights
    dsimp only
    cases hV : V d with
    | none => rfl
    | some ws => exact ((fr_rename hL hK (hg d ws hV) (hg' d ws hV)).2 v).symm
  have hdw : s.docweight = s'.docweight := by
    ext1 d
    rw [hi.docweight, hi'.docweight]
    cases hV : V d with
    | none => rfl
    | some ws =>
      simp only [Option.map_some]
      rw [(fr_rename hL hK (hg d ws hV) (hg' d ws hV)).1]
  have hnone : ∀ {s s' : Ix D R} {g g' : Word → Int}, Inv K s (fun d => (V d).map (fun ws => ws.map g)) →
      Inv K s' (fun d => (V d).map (fun ws => ws.map g')) →
      (∀ d v, weights K (fun d => (V d).map (fun ws => ws.map g)) d (g v) =
        weights K (fun d => (V d).map (fun ws => ws.map g')) d (g' v)) →
      ∀ w, s.wordinfo.get? (g w) = none → s'.wordinfo.get? (g' w) = none := by
    intro s s' g g' hi hi' hw w h
    cases he : s'.wordinfo.get? (g' w) with
    | none => rfl
    | some e =>
      exfalso
      obtain ⟨hne, hv⟩ := (hi'.info (g' w)).1 e he
      obtain ⟨d, v, hd⟩ := (SMap.isEmpty_eq_false_iff _).1 hne
      have h1 := (hi.info (g w)).2 h d
      rw [hv d, ← hw, h1] at hd
      cases hd
  refine ⟨hdw, ?_, ht, fun w => ⟨hnone hi hi' hw w, hnone hi' hi (fun d v => (hw d v).symm) w⟩, ?_⟩
  · rw [hi.documentCount, hi'.documentCount, ← SMap.len_keys, ← SMap.len_keys]
    have : s.docwords.keys = s'.docwords.keys := SMap.keys_eq_of_iff (fun d => by
      rw [SMap.mem_keys_iff, SMap.mem_keys_iff, hi.docwords, hi'.docwords]
      cases V d <;> simp)
    rw [this]
  · intro w e e' he he'
    have hmap : ∀ {s : Ix D R} {g : Word → Int}, Inv K s (fun d => (V d).map (fun ws => ws.map g)) →
        (∀ d v, (weights K (fun d => (V d).map (fun ws => ws.map g)) d (g v)).isSome → K.hasTotal = true →
          (weights K (fun d => (V d).map (fun ws => ws.map g)) d (g v)).map K.arith.store =
            weights K (fun d => (V d).map (fun ws => ws.map g)) d (g v)) →
        ∀ e, s.wordinfo.get? (g w) = some e → ∀ d,
        (e.toTree K.arith).get? d = (weights K (fun d => (V d).map (fun ws => ws.map g)) d (g w)).map K.arith.store ∧
        (K.hasTotal = true → e.map.get? d = weights K (fun d => (V d).map (fun ws => ws.map g)) d (g w)) := by
      intro s g hi hex e he d
      have hv := ((hi.info (g w)).1 e he).2 d
      unfold D2S.toTree
      cases htr : e.tree with
      | true =>
        rw [htr] at hv
        have hv : e.map.get? d = (weights K (fun d => (V d).map (fun ws => ws.map g)) d (g w)).map K.arith.store := hv
        simp only [if_true]
        refine ⟨hv, fun ht => ?_⟩
        rw [hv]
        cases hc : weights K (fun d => (V d).map (fun ws => ws.map g)) d (g w) with
        | none => rfl
        | some x =>
          have := hex d w (by rw [hc]; rfl) ht
          rw [hc] at this; exact this
      | false =>
        rw [htr] at hv
        have hv : e.map.get? d = weights K (fun d => (V d).map (fun ws => ws.map g)) d (g w) := by
          rw [hv]; cases weights K (fun d => (V d).map (fun ws => ws.map g)) d (g w) <;> rfl
        simp only [Bool.false_eq_true, if_false]
        exact ⟨by rw [SMap.get?_mapVals, hv], fun _ => hv⟩
    have hex : ∀ d v, (weights K (fun d => (V d).map (fun ws => ws.map g)) d (g v)).isSome → K.hasTotal = true →
          (weights K (fun d => (V d).map (fun ws => ws.map g)) d (g v)).map K.arith.store =
            weights K (fun d => (V d).map (fun ws => ws.map g)) d (g v) := by
      intro d v _ ht
      unfold weights
      dsimp only
      cases hV : V d with
      | none => rfl
      | some ws =>
        simp only [Option.map_some, Option.bind_some]
        cases hc : dget? (g v) (fr K (ws.map g)).1 with
        | none => rfl
        | some x => rw [Option.map_some, (hx d ws hV ht).1 _ x hc]
    have h1 := hmap hi hex e he
    have h2 := hmap hi' (fun d v h1 h2 => by rw [← hw] at h1 ⊢; exact hex d v h1 h2) e' he'
    refine ⟨?_, fun ht => ?_⟩
    · ext1 d; rw [(h1 d).1, (h2 d).1, hw]
    · ext1 d; rw [(h1 d).2 ht, (h2 d).2 ht, hw]

/-! ## Searches -/

section
variable {K : Kind D R} (hK : Renames K) {g g' : Word → Int} {s s' : Ix D R} (h : Via K.arith K.hasTotal g g' s s')
include hK h

theorem Via.searchUnion' {xs xs' : List Word}
    (hx : xs.filter (fun w => s.wordinfo.contains (g w)) = xs'.filter (fun w => s.wordinfo.contains (g w))) :
    searchUnion K s (xs.map g) = searchUnion K s' (xs'.map g') := by
  unfold Text.searchUnion
  rw [(h.removeOov xs).1, (h.removeOov xs').2, ← hx, ((hK.searches g g' s s' h) _).1]

theorem Via.searchUnion (xs : List Word) : searchUnion K s (xs.map g) = searchUnion K s' (xs.map g') := h.searchUnion' hK rfl

end

/-- the ids found by a pattern are those of the words that satisfy some condition, whatever the lexicon -/
theorem glob_form (odd : Word → Except PyErr (Word → Bool)) (p : Word) :
    (∃ e, ∀ lex : Lexicon, lex.globToWordIds odd p = .error e) ∨
    ∃ M : Word → Bool, ∀ lex : Lexicon, (∀ w n, lex.wids.get? w = some n → n ≠ 0) →
      lex.globToWordIds odd p = .ok ((lex.wids.keys.filter M).map lex.getWid) := by
  unfold Lexicon.globToWordIds
  dsimp only
  generalize p.takeWhile (fun c => !Lexicon.isGlobChar c) = pre
  generalize p.dropWhile (fun c => !Lexicon.isGlobChar c) = pat
  by_cases h1 : pat.isEmpty = true
  · right
    refine ⟨fun w => decide (w = pre), fun lex hz => ?_⟩
    rw [if_pos h1]
    congr 1
    have hnd : lex.wids.keys.Nodup := by
      have := lex.wids.sorted
      unfold SMap.keys
      rw [List.nodup_iff_pairwise_ne, List.pairwise_map]
      exact this.imp (fun h => ne_of_lt h)
    cases hg : lex.wids.get? pre with
    | none =>
      rw [getWid_zero hg, if_neg (by simp)]
      symm
      rw [List.map_eq_nil_iff, List.filter_eq_nil_iff]
      intro w hw e
      have e : w = pre := by simpa using e
      subst e
      rw [SMap.mem_keys_iff] at hw
      obtain ⟨v, hv⟩ := hw
      rw [hg] at hv; cases hv
    | some n =>
      have hn : lex.getWid pre = n := Lexicon.getWid_eq hg
      rw [hn, if_pos (hz pre n hg)]
      have hf : lex.wids.keys.filter (fun w => decide (w = pre)) = [pre] := by
        have h2 := hnd.filter (fun w => decide (w = pre))
        have h3 : pre ∈ lex.wids.keys := (SMap.mem_keys_iff _ _).2 ⟨n, hg⟩
        refine List.perm_singleton.1 ((List.perm_ext_iff_of_nodup h2 (by simp)).2 (fun w => ?_))
        rw [List.mem_filter, List.mem_singleton]
        constructor
        · rintro ⟨-, e⟩; simpa using e
        · rintro rfl; exact ⟨h3, by simp⟩
      rw [hf, List.map_singleton, hn]
  · by_cases h2 : pre.isEmpty = true
    · left
      exact ⟨_, fun lex => by rw [if_neg h1, if_pos h2]⟩
    · cases hc : Lexicon.compile odd pre pat with
      | error e => exact Or.inl ⟨e, fun lex => by rw [if_neg h1, if_neg h2]; rfl⟩
      | ok prog =>
        right
        refine ⟨fun w => decide (pre ≤ w) && (pre.isPrefixOf w && prog w), fun lex _ => ?_⟩
        rw [if_neg h1, if_neg h2, bind_ok]
        show Except.ok _ = Except.ok _
        congr 1
        have hmem : ∀ p, p ∈ (lex.wids.range (some pre) none).items ↔ p ∈ lex.wids.items ∧ pre ≤ p.1 := by
          intro p
          unfold SMap.range SMap.filter
          rw [List.mem_filter]
          simp
        rw [Lexicon.globLoop_ok prog pre _ (lex.wids.range (some pre) none).sorted (fun p h => ((hmem p).1 h).2)]
        unfold SMap.keys
        rw [List.filter_map, List.map_map]
        have e : (lex.wids.range (some pre) none).items.filter (fun p => pre.isPrefixOf p.1 && prog p.1) =
            lex.wids.items.filter ((fun w => decide (pre ≤ w) && (pre.isPrefixOf w && prog w)) ∘ fun p => p.1) := by
          unfold SMap.range SMap.filter
          rw [List.filter_filter]
          refine List.filter_congr (fun p _ => ?_)
          simp [Bool.and_comm]
        rw [e]
        refine List.map_congr_left (fun p hp => ?_)
        have hp := (List.mem_filter.1 hp).1
        exact (Lexicon.getWid_eq ((SMap.get?_eq_some_iff _ _ _).2 hp)).symm

/-- two text indexes that hold the same words; the lexicons may know other words as well -/
structure ViaTI (K : Kind D R) (s s' : TI D R) : Prop where
  ix : Via K.arith K.hasTotal s.lex.getWid s'.lex.getWid s.ix s'.ix
  noZero : ∀ w n, s.lex.wids.get? w = some n → n ≠ 0
  noZero' : ∀ w n, s'.lex.wids.get? w = some n → n ≠ 0
  known : ∀ w, s.ix.wordinfo.contains (s.lex.getWid w) = true → (∃ n, s.lex.wids.get? w = some n) ∧ ∃ n, s'.lex.wids.get? w = some n

section
variable {K : Kind D R} (hK : Renames K) {s s' : TI D R} (h : ViaTI K s s')

theorem termToWordIds_cases (pipeline : List Element) (t : TextArg) :
    (∃ e, ∀ lex : Lexicon, lex.termToWordIds pipeline t = .error e) ∨
    ∃ xs : List Word, ∀ lex : Lexicon, lex.termToWordIds pipeline t = .ok (xs.map lex.getWid) := by
  unfold Lexicon.termToWordIds
  cases Lexicon.text2list t with
  | none => exact Or.inl ⟨_, fun _ => rfl⟩
  | some l => exact Or.inr ⟨_, fun _ => rfl⟩

include hK h

theorem ViaTI.search (pipeline : List Element) (t : TextArg) :
    search K pipeline s.lex s.ix t = search K pipeline s'.lex s'.ix t := by
  unfold Text.search
  rcases termToWordIds_cases pipeline t with ⟨e, he⟩ | ⟨xs, hx⟩
  · rw [he, he]; rfl
  · rw [hx, hx, bind_ok, bind_ok, List.isEmpty_map, List.isEmpty_map, h.ix.searchUnion hK]

theorem ViaTI.searchGlob (odd : Word → Except PyErr (Word → Bool)) (p : Word) :
    searchGlob K odd s.lex s.ix p = searchGlob K odd s'.lex s'.ix p := by
  unfold Text.searchGlob
  rcases glob_form odd p with ⟨e, he⟩ | ⟨M, hM⟩
  · rw [he, he]; rfl
  · rw [hM _ h.noZero, hM _ h.noZero', bind_ok, bind_ok]
    refine h.ix.searchUnion' hK ?_
    rw [List.filter_filter, List.filter_filter]
    have hsorted : ∀ m : SMap Word Int, m.keys.Pairwise (· < ·) := by
      intro m
      unfold SMap.keys
      rw [List.pairwise_map]
      exact m.sorted
    refine List.Perm.eq_of_pairwise (fun a b _ _ h1 h2 => absurd h1 (lt_asymm h2)) ((hsorted _).filter _) ((hsorted _).filter _) ?_
    refine (List.perm_ext_iff_of_nodup ?_ ?_).2 (fun w => ?_)
    · exact ((hsorted _).imp (fun h => ne_of_lt h)).filter _
    · exact ((hsorted _).imp (fun h => ne_of_lt h)).filter _
    · rw [List.mem_filter, List.mem_filter, SMap.mem_keys_iff, SMap.mem_keys_iff]
      constructor
      · rintro ⟨-, h2⟩
        exact ⟨(h.known w (Bool.and_eq_true _ _ ▸ h2).1).2, h2⟩
      · rintro ⟨-, h2⟩
        exact ⟨(h.known w (Bool.and_eq_true _ _ ▸ h2).1).1, h2⟩

theorem ViaTI.queryWeight (pipeline : List Element) (terms : List TextArg) :
    queryWeight K pipeline s terms = queryWeight K pipeline s' terms := by
  have : (∃ e, ∀ lex : Lexicon, termWids pipeline lex terms = .error e) ∨
      ∃ xs : List Word, ∀ lex : Lexicon, termWids pipeline lex terms = .ok (xs.map lex.getWid) := by
    induction terms with
    | nil => exact Or.inr ⟨[], fun _ => rfl⟩
    | cons t ts ih =>
      unfold termWids
      rcases termToWordIds_cases pipeline t with ⟨e, he⟩ | ⟨xs, hx⟩
      · exact Or.inl ⟨e, fun lex => by rw [he]; rfl⟩
      · rcases ih with ⟨e, he⟩ | ⟨ys, hy⟩
        · exact Or.inl ⟨e, fun lex => by rw [hx, he]; rfl⟩
        · refine Or.inr ⟨xs ++ ys, fun lex => ?_⟩
          rw [hx, hy, List.map_append]; rfl
  unfold Text.queryWeight
  rcases this with ⟨e, he⟩ | ⟨xs, hx⟩
  · rw [he, he]; rfl
  · rw [hx, hx, bind_ok, bind_ok, (hK.searches _ _ _ _ h.ix xs).2]

/-- a phrase that is found in the same documents has the same scores there -/
theorem ViaTI.searchPhrase (pipeline : List Element) (t : TextArg) {r r' : SMap D R}
    (hr : searchPhrase K pipeline s.lex s.ix t = .ok r) (hr' : searchPhrase K pipeline s'.lex s'.ix t = .ok r')
    (hk : ∀ d, d ∈ r.keys ↔ d ∈ r'.keys) : r = r' := by
  have hloop : ∀ (s : Ix D R) code (l : List (D × R)) (acc m : SMap D R), l.foldlM (phraseLoop K s code) acc = .ok m →
      ∀ d v, m.get? d = some v → acc.get? d = some v ∨ ∃ x, (d, x) ∈ l ∧ v = K.arith.store x := by
    intro s code l
    induction l with
    | nil => intro acc m e d v hv; cases e; exact Or.inl hv
    | cons p l ih =>
      intro acc m e d v hv
      rw [List.foldlM_cons] at e
      unfold phraseLoop at e
      cases hd : s.docwords.get? p.1 with
      | none => rw [hd] at e; cases e
      | some w =>
        rw [hd] at e
        dsimp only at e
        have lift : (∃ x, (d, x) ∈ l ∧ v = K.arith.store x) → ∃ x, (d, x) ∈ p :: l ∧ v = K.arith.store x := by
          rintro ⟨x, h1, h2⟩; exact ⟨x, by simp [h1], h2⟩
        split at e
        · rw [bind_ok] at e
          rcases ih _ _ e d v hv with h1 | h1
          · rw [SMap.get?_set] at h1
            split at h1
            · rename_i hd; cases h1; exact Or.inr ⟨p.2, by rw [hd]; simp, rfl⟩
            · exact Or.inl h1
          · exact Or.inr (lift h1)
        · rw [bind_ok] at e
          rcases ih _ _ e d v hv with h1 | h1
          · exact Or.inl h1
          · exact Or.inr (lift h1)
  unfold Text.searchPhrase at hr hr'
  rcases termToWordIds_cases pipeline t with ⟨e, he⟩ | ⟨xs, hx⟩
  · rw [he] at hr; cases hr
  · rw [hx, bind_ok] at hr hr'
    dsimp only at hr hr'
    rw [(h.ix.removeOov xs).1, List.length_map, List.length_map] at hr
    rw [(h.ix.removeOov xs).2, List.length_map, List.length_map] at hr'
    rw [← (hK.searches _ _ _ _ h.ix xs).1] at hr'
    split at hr
    · rename_i hl
      rw [if_pos hl] at hr'
      cases hr; cases hr'; rfl
    · rename_i hl
      rw [if_neg hl] at hr'
      cases hS : K.searchWids s.ix (xs.map s.lex.getWid) with
      | error e => rw [hS] at hr; cases hr
      | ok L =>
        rw [hS, bind_ok] at hr hr'
        cases hM : massIntersection K.arith.toWArith (L.map (fun p => (some p.1, p.2))) with
        | error e => rw [hM] at hr; cases hr
        | ok hits =>
          rw [hM, bind_ok] at hr hr'
          split at hr
          · rename_i hem
            rw [if_pos hem] at hr'
            cases hr; cases hr'; rfl
          · rename_i hem
            rw [if_neg hem] at hr'
            cases hc : WidCode.encode (xs.map s.lex.getWid) with
            | error e => rw [hc] at hr; cases hr
            | ok code =>
              cases hc' : WidCode.encode (xs.map s'.lex.getWid) with
              | error e => rw [hc'] at hr'; cases hr'
              | ok code' =>
                rw [hc, bind_ok] at hr
                rw [hc', bind_ok] at hr'
                ext1 d
                cases hd : r.get? d with
                | none =>
                  cases hd' : r'.get? d with
                  | none => rfl
                  | some v =>
                    have := (hk d).2 ((SMap.mem_keys_iff _ _).2 ⟨v, hd'⟩)
                    rw [SMap.mem_keys_iff] at this
                    obtain ⟨u, hu⟩ := this
                    rw [hd] at hu; cases hu
                | some v =>
                  obtain ⟨u, hu⟩ := (SMap.mem_keys_iff _ _).1 ((hk d).1 ((SMap.mem_keys_iff _ _).2 ⟨v, hd⟩))
                  rw [hu]
                  rcases hloop _ _ _ _ _ hr d v hd with h1 | ⟨x, h1, rfl⟩
                  · cases h1
                  · rcases hloop _ _ _ _ _ hr' d u hu with h2 | ⟨y, h2, rfl⟩
                    · cases h2
                    · have e1 := (SMap.get?_eq_some_iff _ _ _).2 h1
                      have e2 := (SMap.get?_eq_some_iff _ _ _).2 h2
                      rw [e1] at e2
                      cases e2; rfl

end

/-! ## Queries -/

mutual

theorem execute_congr (A : WArith R) {ix ix' : Searcher D R} (hs : ∀ w, ix.search w = ix'.search w)
    (hg : ∀ w, ix.searchGlob w = ix'.searchGlob w) :
    ∀ n : Node, (∀ ws ∈ phrases n, ix.searchPhrase ws = ix'.searchPhrase ws) → n.execute A ix = n.execute A ix'
  | .atom w, _ => hs w
  | .phrase ws, hp => hp ws (by simp [phrases])
  | .glob w, _ => hg w
  | .not _, _ => rfl
  | .and l, hp => by
    unfold Node.execute
    rw [executeAnd_congr A hs hg l (by simpa [phrases] using hp)]
  | .or l, hp => by
    unfold Node.execute
    rw [executeOr_congr A hs hg l (by simpa [phrases] using hp)]

theorem executeAnd_congr (A : WArith R) {ix ix' : Searcher D R} (hs : ∀ w, ix.search w = ix'.search w)
    (hg : ∀ w, ix.searchGlob w = ix'.searchGlob w) :
    ∀ l : List Node, (∀ ws ∈ phrasesAll l, ix.searchPhrase ws = ix'.searchPhrase ws) → Node.executeAnd A ix l = Node.executeAnd A ix' l
  | [], _ => rfl
  | n :: rest, hp => by
    have h2 := executeAnd_congr A hs hg rest (fun ws hw => hp ws (by simp [phrasesAll, hw]))
    cases n with
    | not m =>
      have h1 := execute_congr A hs hg m (fun ws hw => hp ws (by simp [phrasesAll, phrases, hw]))
      unfold Node.executeAnd
      rw [h1, h2]
    | atom w =>
      have h1 := execute_congr A hs hg (.atom w) (fun ws hw => hp ws (by simp only [phrasesAll, List.mem_append]; exact Or.inl hw))
      unfold Node.executeAnd; rw [h1, h2]
    | phrase w =>
      have h1 := execute_congr A hs hg (.phrase w) (fun ws hw => hp ws (by simp only [phrasesAll, List.mem_append]; exact Or.inl hw))
      unfold Node.executeAnd; rw [h1, h2]
    | glob w =>
      have h1 := execute_congr A hs hg (.glob w) (fun ws hw => hp ws (by simp only [phrasesAll, List.mem_append]; exact Or.inl hw))
      unfold Node.executeAnd; rw [h1, h2]
    | and l =>
      have h1 := execute_congr A hs hg (.and l) (fun ws hw => hp ws (by simp only [phrasesAll, List.mem_append]; exact Or.inl hw))
      unfold Node.executeAnd; rw [h1, h2]
    | or l =>
      have h1 := execute_congr A hs hg (.or l) (fun ws hw => hp ws (by simp only [phrasesAll, List.mem_append]; exact Or.inl hw))
      unfold Node.executeAnd; rw [h1, h2]

theorem executeOr_congr (A : WArith R) {ix ix' : Searcher D R} (hs : ∀ w, ix.search w = ix'.search w)
    (hg : ∀ w, ix.searchGlob w = ix'.searchGlob w) :
    ∀ l : List Node, (∀ ws ∈ phrasesAll l, ix.searchPhrase ws = ix'.searchPhrase ws) → Node.executeOr A ix l = Node.executeOr A ix' l
  | [], _ => rfl
  | n :: rest, hp => by
    have h1 := execute_congr A hs hg n (fun ws hw => hp ws (by simp [phrasesAll, hw]))
    have h2 := executeOr_congr A hs hg rest (fun ws hw => hp ws (by simp [phrasesAll, hw]))
    unfold Node.executeOr
    rw [h1, h2]

end

end Verif.Text
