import Verif.Proofs.FieldSort
import Verif.Spec.SortGen

/-! Lemmas about the generator of `sort`. -/

set_option autoImplicit false

namespace Verif.Field

open Spec.Field Spec

variable {D V : Type} [LinearOrder D] [PyValue V]

theorem emit_cons (l : Option Nat) (n : Nat) (d : D) (t : List D) :
    emit l n (d :: t) = d :: (if reached l (n + 1) = true then [] else emit l (n + 1) t) := by
  cases l with
  | none => simp [emit, reached]
  | some k =>
    simp only [emit, reached, decide_eq_true_eq]
    split <;> rfl

/-- the docids of the sets at the keys `vs` -/
def blocks (fwd : SMap V (SSet D)) (ids : SSet D) (vs : List V) : List D :=
  vs.flatMap (fun v => (SSet.inter ids ((fwd.get? v).getD SMap.empty)).keys)

/-- what an undisturbed generator still has to give -/
def rem (s : Field D V) : Gen D V → List D
  | .start _ => []
  | .values rest => rest
  | .scan rest limit n old => if reached limit n then [] else emit limit n (rest.filter (old.getD s.rev).contains)
  | .walk ids rest key limit n _ old =>
    if reached limit n then []
    else emit limit n (rest ++ blocks (old.getD s.fwd) ids ((old.getD s.fwd).keys.filter (fun v => decide (key < v))))
  | .done => []

/-- the generator has started, and iterates over no changed BTree -/
def Calm : Gen D V → Prop
  | .start _ => False
  | .walk _ _ _ _ _ dirty _ => dirty = false
  | _ => True

theorem nextScan_spec (rev : SMap D V) (l : Option Nat) (n : Nat) (old : Option (SMap D V)) (rest : List D) :
    (rest.filter rev.contains = [] ∧ nextScan rev l n old rest = (.stop, .done)) ∨
    ∃ d t r, rest.filter rev.contains = d :: t ∧ nextScan rev l n old rest = (.value d, .scan r l (n + 1) old) ∧
      r.filter rev.contains = t ∧ ∃ q, rest = q ++ d :: r ∧ ∀ x ∈ q, rev.contains x = false := by
  induction rest with
  | nil => exact Or.inl ⟨rfl, rfl⟩
  | cons x rest ih =>
    cases hx : rev.contains x with
    | true =>
      refine Or.inr ⟨x, rest.filter rev.contains, rest, by simp [List.filter_cons, hx], by simp [nextScan, hx], rfl, [], rfl, by simp⟩
    | false =>
      rcases ih with ⟨h1, h2⟩ | ⟨d, t, r, h1, h2, h3, q, h4, h5⟩
      · exact Or.inl ⟨by simp [List.filter_cons, hx, h1], by simp [nextScan, hx, h2]⟩
      · refine Or.inr ⟨d, t, r, by simp [List.filter_cons, hx, h1], by simp [nextScan, hx, h2], h3, x :: q, by rw [h4]; rfl, ?_⟩
        intro y hy
        rcases List.mem_cons.1 hy with rfl | hy
        · exact hx
        · exact h5 y hy

theorem filter_lt_suffix {ks : List V} (hs : ks.Pairwise (· < ·)) (key : V) :
    ∃ pre, ks = pre ++ ks.filter (fun v => decide (key < v)) := by
  induction ks with
  | nil => exact ⟨[], rfl⟩
  | cons k ks ih =>
    obtain ⟨h1, h2⟩ := List.pairwise_cons.1 hs
    by_cases hk : key < k
    · refine ⟨[], ?_⟩
      rw [List.nil_append, eq_comm, List.filter_eq_self]
      intro x hx
      rcases List.mem_cons.1 hx with rfl | hx
      · simpa using hk
      · simpa using hk.trans (h1 x hx)
    · obtain ⟨pre, hpre⟩ := ih h2
      refine ⟨k :: pre, ?_⟩
      rw [List.filter_cons_of_neg (by simpa using hk), List.cons_append, ← hpre]

theorem filter_lt_after {ks pre vs : List V} {v : V} (hs : ks.Pairwise (· < ·)) (h : ks = pre ++ v :: vs) :
    ks.filter (fun x => decide (v < x)) = vs := by
  subst h
  obtain ⟨h1, h2, h3⟩ := List.pairwise_append.1 hs
  obtain ⟨h4, h5⟩ := List.pairwise_cons.1 h2
  rw [List.filter_append, List.filter_eq_nil_iff.2, List.nil_append, List.filter_cons_of_neg (by simp), List.filter_eq_self]
  · intro x hx; simpa using h4 x hx
  · intro x hx
    have := h3 x hx v (by simp)
    simpa using le_of_lt this

theorem nextWalk_spec (fwd : SMap V (SSet D)) (ids : SSet D) (l : Option Nat) (n : Nat) (old : Option (SMap V (SSet D)))
    (vs pre : List V) (hk : fwd.keys = pre ++ vs) :
    (blocks fwd ids vs = [] ∧ nextWalk fwd ids l n old vs = (.stop, .done)) ∨
    ∃ d rest v, nextWalk fwd ids l n old vs = (.value d, .walk ids rest v l (n + 1) false old) ∧
      blocks fwd ids vs = d :: (rest ++ blocks fwd ids (fwd.keys.filter (fun x => decide (v < x)))) ∧
      (∃ q, vs = q ++ v :: fwd.keys.filter (fun x => decide (v < x)) ∧ blocks fwd ids q = []) ∧
      (SSet.inter ids ((fwd.get? v).getD SMap.empty)).keys = d :: rest := by
  induction vs generalizing pre with
  | nil => exact Or.inl ⟨rfl, rfl⟩
  | cons v vs ih =>
    have hb : ∀ ws, blocks fwd ids (v :: ws) = (SSet.inter ids ((fwd.get? v).getD SMap.empty)).keys ++ blocks fwd ids ws := fun ws => rfl
    cases he : (SSet.inter ids ((fwd.get? v).getD SMap.empty)).keys with
    | nil =>
      have hn : nextWalk fwd ids l n old (v :: vs) = nextWalk fwd ids l n old vs := by rw [nextWalk, he]
      rw [hn, hb, he, List.nil_append]
      rcases ih (pre ++ [v]) (by rw [hk]; simp) with h | ⟨d, rest, v', h1, h2, ⟨q, h3, h4⟩, h5⟩
      · exact Or.inl h
      · refine Or.inr ⟨d, rest, v', h1, h2, ⟨v :: q, by rw [List.cons_append, ← h3], ?_⟩, h5⟩
        rw [hb, he, h4]; rfl
    | cons d rest =>
      have ha := filter_lt_after fwd.keys_sorted hk
      refine Or.inr ⟨d, rest, v, by rw [nextWalk, he], ?_, ⟨[], by rw [ha]; rfl, rfl⟩, he⟩
      rw [hb, he, ha]; rfl

/-- an undisturbed generator gives its docids one by one -/
theorem next_rem (s : Field D V) (w : Wild D) (g : Gen D V) (hc : Calm g) :
    (rem s g = [] ∧ next s w g = (.stop, .done)) ∨
    ∃ d t g', rem s g = d :: t ∧ next s w g = (.value d, g') ∧ Calm g' ∧ rem s g' = t := by
  cases g with
  | start a => exact hc.elim
  | done => exact Or.inl ⟨rfl, rfl⟩
  | values rest =>
    cases rest with
    | nil => exact Or.inl ⟨rfl, rfl⟩
    | cons d t => exact Or.inr ⟨d, t, .values t, rfl, rfl, trivial, rfl⟩
  | scan rest l n old =>
    simp only [rem, next]
    cases hr : reached l n with
    | true => exact Or.inl ⟨rfl, rfl⟩
    | false =>
      simp only [Bool.false_eq_true, if_false]
      rcases nextScan_spec (old.getD s.rev) l n old rest with ⟨h1, h2⟩ | ⟨d, t, r, h1, h2, h3, -⟩
      · rw [h1]; exact Or.inl ⟨rfl, h2⟩
      · rw [h1, emit_cons]
        exact Or.inr ⟨d, _, _, rfl, h2, trivial, by simp only [rem, h3]⟩
  | walk ids rest key l n dirty old =>
    have hc : dirty = false := hc
    subst hc
    simp only [rem, next]
    cases hr : reached l n with
    | true => exact Or.inl ⟨rfl, rfl⟩
    | false =>
      simp only [Bool.false_eq_true, if_false]
      cases rest with
      | cons d rest =>
        simp only [List.cons_append]
        rw [emit_cons]
        exact Or.inr ⟨d, _, _, rfl, rfl, rfl, by simp only [rem]⟩
      | nil =>
        simp only [List.nil_append]
        obtain ⟨pre, hpre⟩ := filter_lt_suffix (old.getD s.fwd).keys_sorted key
        rcases nextWalk_spec (old.getD s.fwd) ids l n old _ pre hpre with ⟨h1, h2⟩ | ⟨d, rest, v, h1, h2, -⟩
        · rw [h1]; exact Or.inl ⟨rfl, h2⟩
        · rw [h2, emit_cons]
          exact Or.inr ⟨d, _, _, rfl, h1, rfl, by simp only [rem]⟩

theorem trace_rem (hist : List (Op D V)) (ws : List (Wild D)) (g : Gen D V) (hc : Calm g) :
    trace hist g (ws.map .next) = (List.range ws.length).map (fun i => (hist, expected (.ok (rem (run hist) g)) i)) := by
  induction ws generalizing g with
  | nil => rfl
  | cons w ws ih =>
    rw [List.map_cons, trace, List.length_cons, List.range_succ_eq_map, List.map_cons, List.map_map]
    rcases next_rem (run hist) w g hc with ⟨h1, h2⟩ | ⟨d, t, g', h1, h2, h3, h4⟩
    · rw [h1, h2, ih .done trivial]
      simp [expected, rem, Function.comp_def]
    · rw [h1, h2, ih g' h3, h4]
      simp [expected, Function.comp_def]

/-- the first `next()` of a generator over the list `r` -/
def FirstOf (s : Field D V) (r : Except PyErr (List D)) (o : Out D × Gen D V) : Prop :=
  match r with
  | .error e => o = (.raised e, .done)
  | .ok [] => o = (.stop, .done)
  | .ok (d :: t) => ∃ g, o = (.value d, g) ∧ Calm g ∧ rem s g = t

theorem values_eq (m : SMap V (SSet D)) (ids : SSet D) :
    m.values.flatMap (fun stored => (SSet.inter ids stored).keys) = blocks m ids m.keys := by
  unfold blocks SMap.values SMap.keys
  rw [List.flatMap_map, List.flatMap_map]
  apply List.flatMap_congr
  intro p hp
  rw [(SMap.get?_eq_some_iff m p.1 p.2).2 hp]; rfl

theorem beginSort_first (s : Field D V) (a : SortArgs D) (limit : Option Nat) (hl : ∀ n, limit = some n → 1 ≤ n) :
    FirstOf s (sort.body s a.useLazy a.useNbest a.docids a.reverse limit) (beginSort s a limit) := by
  unfold sort.body beginSort
  by_cases h0 : s.numDocs = 0
  · rw [if_pos h0, if_pos h0]; rfl
  rw [if_neg h0, if_neg h0]
  dsimp only
  by_cases h1 : SMap.isEmpty (SSet.ofList a.docids) = true
  · rw [if_pos h1, if_pos h1]; rfl
  rw [if_neg h1, if_neg h1]
  have hr : reached limit 0 = false := by
    cases limit with
    | none => rfl
    | some n => have := hl n rfl; simp [reached]; omega
  cases hn : (chooseNbest limit (SSet.ofList a.docids).len || a.useNbest) with
  | true =>
    rw [if_pos rfl]
    have he : sortWith s (chooseLazy (SSet.ofList a.docids).len s.numDocs || a.useLazy) true (SSet.ofList a.docids) a.reverse limit =
        nbestDocs s (SSet.ofList a.docids) a.reverse limit := by
      unfold sortWith nbestDocs
      rw [if_pos rfl]
      rfl
    rw [he]
    cases nbestDocs s (SSet.ofList a.docids) a.reverse limit with
    | error e => rfl
    | ok l =>
      cases l with
      | nil => rfl
      | cons d t => exact ⟨.values t, rfl, trivial, rfl⟩
  | false =>
    rw [if_neg (by decide)]
    unfold sortWith
    rw [if_neg (by decide)]
    cases hz : ((chooseLazy (SSet.ofList a.docids).len s.numDocs || a.useLazy) && !a.reverse) with
    | true =>
      rw [if_pos rfl, if_pos rfl, values_eq]
      rcases nextWalk_spec s.fwd (SSet.ofList a.docids) limit 0 none s.fwd.keys [] rfl with ⟨h2, h3⟩ | ⟨d, rest, v, h2, h3, -⟩
      · rw [h2, h3]; rfl
      · rw [h2, h3, emit_cons]
        exact ⟨_, rfl, rfl, rfl⟩
    | false =>
      simp only [Bool.false_eq_true, if_false]
      by_cases hk : keysOk (List.map (fun d => (s.rev.get? d).getD PyValue.negOne) (SMap.keys (SSet.ofList a.docids))) = true
      · rw [if_pos hk, if_pos hk]
        rcases nextScan_spec s.rev limit 0 none ((SMap.keys (SSet.ofList a.docids)).insertionSort
          (fun x y => keyLe (fun d => (s.rev.get? d).getD PyValue.negOne) a.reverse x y)) with ⟨h2, h3⟩ | ⟨d, t, r, h2, h3, h4, -⟩
        · rw [h3]
          show FirstOf s (.ok (emit limit 0 (List.filter _ _))) _
          rw [h2]; rfl
        · rw [h3]
          show FirstOf s (.ok (emit limit 0 (List.filter _ _))) _
          rw [h2, emit_cons]
          refine ⟨_, rfl, trivial, ?_⟩
          rw [← h4]; rfl
      · rw [if_neg hk, if_neg hk]; rfl

/-- the first `next()` -/
theorem next_start (s : Field D V) (w : Wild D) (a : SortArgs D) :
    FirstOf s (s.sort a.useLazy a.useNbest a.docids a.reverse a.limit) (next s w (.start a)) := by
  unfold sort next
  dsimp only
  cases hl : a.limit with
  | none => exact beginSort_first s a none (by simp)
  | some n =>
    dsimp only
    by_cases hn : n < 1
    · rw [if_pos hn, if_pos hn]; rfl
    · rw [if_neg hn, if_neg hn]
      exact beginSort_first s a _ (by intro k hk; cases hk; omega)

theorem trace_calls (hist pre : List (Op D V)) (a : SortArgs D) (es : List (Event D V)) :
    trace hist (.start a) (pre.map .call ++ es) = trace (hist ++ pre) (.start a) es := by
  induction pre generalizing hist with
  | nil => simp
  | cons op pre ih =>
    rw [List.map_cons, List.cons_append, trace]
    show trace (hist ++ [op]) (.start a) _ = _
    rw [ih, List.append_assoc, List.singleton_append]

/-! ### documents that stay the same -/

section steady
variable (U : D → Bool) (m : D → Option V) (ks : List V)

/-- the documents in `U` with the values `vs` -/
def ublocks (ids : SSet D) (vs : List V) : List D :=
  vs.flatMap (fun v => ids.keys.filter (fun d => U d && decide (m d = some v)))

/-- the documents in `U` that are still to come -/
def remU : Gen D V → List D
  | .values rest => rest.filter U
  | .scan rest _ _ _ => rest.filter (fun d => U d && (m d).isSome)
  | .walk ids rest key _ _ _ _ => rest.filter U ++ ublocks U m ids (ks.filter (fun v => decide (key < v)))
  | _ => []

/-- the BTrees the generator uses agree with `m` on the documents in `U` -/
def Good (h : List (Op D V)) : Gen D V → Prop
  | .start _ => False
  | .values _ => True
  | .scan _ _ _ old => ∀ d, U d = true → (old.getD (run h).rev).get? d = m d
  | .walk _ _ _ _ _ dirty old => dirty = false ∧ (old.getD (run h).fwd).keys = ks ∧
      ∀ d v, U d = true → (d ∈ (((old.getD (run h).fwd).get? v).getD SMap.empty).keys ↔ m d = some v)
  | .done => True

/-- the generator stops at its limit after `c` more docids -/
def LimitHit (c : Nat) : Gen D V → Prop
  | .scan _ l n _ => ∃ k, l = some k ∧ k ≤ n + c
  | .walk _ _ _ l n _ _ => ∃ k, l = some k ∧ k ≤ n + c
  | _ => False

variable {U m ks}

theorem reached_iff (l : Option Nat) (n : Nat) : reached l n = true ↔ ∃ k, l = some k ∧ k ≤ n := by
  cases l <;> simp [reached]

theorem block_filter {set ids : SSet D} {v : V} (h : ∀ d, U d = true → (d ∈ set.keys ↔ m d = some v)) :
    (SSet.inter ids set).keys.filter U = ids.keys.filter (fun d => U d && decide (m d = some v)) := by
  apply List.Perm.eq_of_pairwise (le := (· < ·)) (fun a b _ _ h1 h2 => absurd h1 (lt_asymm h2))
  · exact (SMap.keys_sorted _).filter _
  · exact (SMap.keys_sorted _).filter _
  · rw [List.perm_ext_iff_of_nodup ((SMap.keys_nodup _).filter _) ((SMap.keys_nodup _).filter _)]
    intro d
    rw [List.mem_filter, List.mem_filter, SSet.mem_keys_inter]
    cases hU : U d with
    | false => simp
    | true => simp [h d hU]

theorem blocks_filter {fwd : SMap V (SSet D)} {ids : SSet D}
    (h : ∀ d v, U d = true → (d ∈ ((fwd.get? v).getD SMap.empty).keys ↔ m d = some v)) (vs : List V) :
    (blocks fwd ids vs).filter U = ublocks U m ids vs := by
  unfold blocks ublocks
  rw [List.filter_flatMap]
  apply List.flatMap_congr
  intro v _
  exact block_filter (fun d hd => h d v hd)

/-- one `next()` -/
theorem next_good {h : List (Op D V)} (w : Wild D) {g : Gen D V} (hg : Good U m ks h g) :
    (next (run h) w g = (.stop, .done) ∧ (LimitHit 0 g ∨ remU U m ks g = [])) ∨
    ∃ d g', next (run h) w g = (.value d, g') ∧ remU U m ks g = [d].filter U ++ remU U m ks g' ∧ Good U m ks h g' ∧
      ∀ c, LimitHit c g' → LimitHit (c + 1) g := by
  cases g with
  | start a => exact hg.elim
  | done => exact Or.inl ⟨rfl, Or.inr rfl⟩
  | values rest =>
    cases rest with
    | nil => exact Or.inl ⟨rfl, Or.inr rfl⟩
    | cons d t =>
      refine Or.inr ⟨d, .values t, rfl, ?_, trivial, fun c hc => hc.elim⟩
      simp only [remU, ← List.filter_append, List.singleton_append]
  | scan rest l n old =>
    simp only [next]
    cases hr : reached l n with
    | true => exact Or.inl ⟨rfl, Or.inl ((reached_iff l n).1 hr)⟩
    | false =>
      simp only [Bool.false_eq_true, if_false]
      have hg : ∀ d, U d = true → (old.getD (run h).rev).get? d = m d := hg
      have hcont : ∀ d, (U d && (m d).isSome) = (U d && (old.getD (run h).rev).contains d) := by
        intro d
        cases hU : U d with
        | false => rfl
        | true => rw [← hg d hU]; rfl
      rcases nextScan_spec (old.getD (run h).rev) l n old rest with ⟨h1, h2⟩ | ⟨d, t, r, -, h2, -, q, h4, h5⟩
      · refine Or.inl ⟨h2, Or.inr ?_⟩
        simp only [remU]
        rw [List.filter_eq_nil_iff] at h1 ⊢
        intro d hd
        rw [hcont]
        simp [h1 d hd]
      · refine Or.inr ⟨d, _, h2, ?_, hg, ?_⟩
        · simp only [remU]
          have hd : (old.getD (run h).rev).contains d = true := by
            rcases nextScan_spec (old.getD (run h).rev) l n old rest with ⟨h1, h2'⟩ | ⟨d', t', r', e1, e2, -, -⟩
            · rw [h2'] at h2; cases h2
            · rw [e2] at h2
              cases h2
              have : d ∈ rest.filter (old.getD (run h).rev).contains := by rw [e1]; simp
              exact (List.mem_filter.1 this).2
          rw [h4, List.filter_append, List.filter_eq_nil_iff.2, List.nil_append, ← List.singleton_append, List.filter_append]
          · congr 1
            rw [List.filter_cons, List.filter_cons, hcont, hd, Bool.and_true]; rfl
          · intro x hx
            rw [hcont, h5 x hx]; simp
        · rintro c ⟨k, hk, hle⟩
          exact ⟨k, hk, by omega⟩
  | walk ids rest key l n dirty old =>
    obtain ⟨rfl, hk, hm⟩ := hg
    simp only [next]
    cases hr : reached l n with
    | true => exact Or.inl ⟨rfl, Or.inl ((reached_iff l n).1 hr)⟩
    | false =>
      simp only [Bool.false_eq_true, if_false]
      cases rest with
      | cons d rest =>
        refine Or.inr ⟨d, _, rfl, ?_, ⟨rfl, hk, hm⟩, ?_⟩
        · simp only [remU]
          rw [← List.append_assoc, ← List.filter_append, List.singleton_append]
        · rintro c ⟨k, hk, hle⟩
          exact ⟨k, hk, by omega⟩
      | nil =>
        obtain ⟨pre, hpre⟩ := filter_lt_suffix (old.getD (run h).fwd).keys_sorted key
        simp only [remU, List.filter_nil, List.nil_append]
        rcases nextWalk_spec (old.getD (run h).fwd) ids l n old _ pre hpre with ⟨h1, h2⟩ | ⟨d, rest, v, h1, h2, -⟩
        · refine Or.inl ⟨h2, Or.inr ?_⟩
          rw [← blocks_filter hm, ← hk, h1]; rfl
        · refine Or.inr ⟨d, _, h1, ?_, ⟨rfl, hk, hm⟩, ?_⟩
          · rw [← blocks_filter hm, ← hk, h2, blocks_filter_cons, blocks_filter hm]
          · rintro c ⟨k, hk, hle⟩
            exact ⟨k, hk, by omega⟩
where
  blocks_filter_cons {d : D} {r b : List D} : (d :: (r ++ b)).filter U = [d].filter U ++ (r.filter U ++ b.filter U) := by
    rw [← List.filter_append, ← List.filter_append, List.singleton_append]

/-- a call between -/
theorem onCall_good {h : List (Op D V)} {g : Gen D V} (hg : Good U m ks h g) (op : Op D V)
    (hU : ∀ d, U d = true → current (h ++ [op]) d = m d)
    (hk : (∃ ids rest key l n dirty, g = .walk ids rest key l n dirty none) → (run (h ++ [op])).fwd.keys = ks) :
    Good U m ks (h ++ [op]) (g.onCall (run h) op) ∧ remU U m ks (g.onCall (run h) op) = remU U m ks g ∧
      ∀ c, LimitHit c (g.onCall (run h) op) → LimitHit c g := by
  cases g with
  | start a => exact hg.elim
  | done => exact ⟨trivial, rfl, fun c hc => hc⟩
  | values rest => exact ⟨trivial, rfl, fun c hc => hc⟩
  | scan rest l n old =>
    cases old with
    | some t => exact ⟨hg, rfl, fun c hc => hc⟩
    | none =>
      have h2 : ∀ d, U d = true → (run (h ++ [op])).rev.get? d = m d := by
        intro d hd
        rw [(run_spec (h ++ [op])).2, hU d hd]
      cases op with
      | clear => exact ⟨hg, rfl, fun c hc => hc⟩
      | index d v => exact ⟨h2, rfl, fun c hc => hc⟩
      | unindex d => exact ⟨h2, rfl, fun c hc => hc⟩
  | walk ids rest key l n dirty old =>
    cases old with
    | some t => exact ⟨hg, rfl, fun c hc => hc⟩
    | none =>
      obtain ⟨rfl, hk0, hm⟩ := hg
      have hk1 := hk ⟨_, _, _, _, _, _, rfl⟩
      have h2 : ∀ d v, U d = true → (d ∈ (((run (h ++ [op])).fwd.get? v).getD SMap.empty).keys ↔ m d = some v) := by
        intro d v hd
        obtain ⟨hi, hr⟩ := run_spec (h ++ [op])
        rw [← hU d hd, ← hr, ← hi.agree]
        cases hf : (run (h ++ [op])).fwd.get? v with
        | none => simp [SMap.keys, SMap.empty]
        | some set => simp
      have hst : run (h ++ [op]) = step (run h) op := by simp [run]
      have hd : decide ((run h).fwd.keys ≠ (step (run h) op).fwd.keys) = false := by
        rw [← hst, hk1]
        simpa using hk0
      cases op with
      | clear => exact ⟨⟨rfl, hk0, hm⟩, rfl, fun c hc => hc⟩
      | index d v =>
        refine ⟨⟨?_, hk1, h2⟩, rfl, fun c hc => hc⟩
        rw [hd]; rfl
      | unindex d =>
        refine ⟨⟨?_, hk1, h2⟩, rfl, fun c hc => hc⟩
        rw [hd]; rfl

/-- the documents in `U` come out in order, each once, and all of them unless the limit ends the generator -/
theorem trace_good (h : List (Op D V)) (es : List (Event D V)) (g : Gen D V) (hg : Good U m ks h g)
    (hU : ∀ ops, ops <+: calls es → ∀ d, U d = true → current (h ++ ops) d = m d)
    (hk : (∃ ids rest key l n dirty, g = .walk ids rest key l n dirty none) →
      ∀ ops, ops <+: calls es → (run (h ++ ops)).fwd.keys = ks) :
    (yields (trace h g es)).filter U <+: remU U m ks g ∧ (∀ x e, (x, Out.raised e) ∉ trace h g es) ∧
    (Ended (trace h g es) → LimitHit (yields (trace h g es)).length g ∨ (yields (trace h g es)).filter U = remU U m ks g) := by
  induction es generalizing h g with
  | nil => exact ⟨by simp [trace, yields], by simp [trace], fun ⟨x, hx⟩ => by simp [trace] at hx⟩
  | cons e es ih =>
    cases e with
    | call op =>
      rw [trace]
      obtain ⟨g1, g2, g3⟩ := onCall_good hg op (hU [op] (by simp [calls])) (fun hw => hk hw [op] (by simp [calls]))
      obtain ⟨i1, i2, i3⟩ := ih (h ++ [op]) _ g1
        (fun ops ho d hd => by
          rw [List.append_assoc, List.singleton_append]
          exact hU (op :: ops) (by simpa [calls] using ho) d hd)
        (fun hw ops ho => by
          rw [List.append_assoc, List.singleton_append]
          refine hk ?_ (op :: ops) (by simpa [calls] using ho)
          obtain ⟨ids, rest, key, l, n, dirty, he⟩ := hw
          cases g with
          | start a => cases he
          | done => cases he
          | values r => cases he
          | scan r l n old => cases old <;> cases op <;> cases he
          | walk ids r key l n dirty old =>
            cases old with
            | none => exact ⟨_, _, _, _, _, _, rfl⟩
            | some t => cases he)
      rw [g2] at i1 i3
      exact ⟨i1, i2, fun he => (i3 he).imp (g3 _) id⟩
    | next w =>
      rw [trace]
      have hU' : ∀ ops, ops <+: calls es → ∀ d, U d = true → current (h ++ ops) d = m d := hU
      rcases next_good w hg with ⟨n1, n2⟩ | ⟨d, g', n1, n2, n3, n4⟩
      · rw [n1]
        dsimp only
        obtain ⟨i1, i2, -⟩ := ih h .done trivial hU' (fun ⟨_, _, _, _, _, _, he⟩ => by cases he)
        have hnil : (yields (trace h (.done : Gen D V) es)).filter U = [] := by
          simpa [remU] using i1
        refine ⟨?_, ?_, fun _ => ?_⟩
        · rw [yields, hnil]; simp
        · intro x e hx
          rcases List.mem_cons.1 hx with hx | hx
          · cases hx
          · exact i2 x e hx
        · rw [yields, hnil]
          rcases n2 with n2 | n2
          · left
            have : ∀ c, LimitHit 0 g → LimitHit c g := by
              intro c hc
              cases g with
              | scan r l n old => obtain ⟨k, e, hle⟩ := hc; exact ⟨k, e, by omega⟩
              | walk ids r key l n dirty old => obtain ⟨k, e, hle⟩ := hc; exact ⟨k, e, by omega⟩
              | start a => exact hc.elim
              | done => exact hc.elim
              | values r => exact hc.elim
            exact this _ n2
          · exact Or.inr n2.symm
      · rw [n1]
        dsimp only
        obtain ⟨i1, i2, i3⟩ := ih h g' n3 hU' (fun hw => by
          apply hk
          obtain ⟨ids, rest, key, l, n, dirty, he⟩ := hw
          subst he
          cases g with
          | start a => exact hg.elim
          | done => cases n1
          | values r => cases r <;> cases n1
          | scan r l n old =>
            simp only [next] at n1
            split at n1
            · cases n1
            · rcases nextScan_spec (old.getD (run h).rev) l n old r with ⟨-, e⟩ | ⟨_, _, _, -, e, -⟩ <;> rw [e] at n1 <;> cases n1
          | walk ids r key l n dirty old =>
            cases old with
            | none => exact ⟨_, _, _, _, _, _, rfl⟩
            | some t =>
              obtain ⟨rfl, -, -⟩ := hg
              simp only [next] at n1
              split at n1
              · cases n1
              · cases r with
                | cons x r => cases n1
                | nil =>
                  simp only [Bool.false_eq_true, if_false] at n1
                  obtain ⟨pre, hpre⟩ := filter_lt_suffix ((some t).getD (run h).fwd).keys_sorted key
                  rcases nextWalk_spec ((some t).getD (run h).fwd) ids l n (some t) _ pre hpre with ⟨-, e⟩ | ⟨_, _, _, e, -⟩ <;>
                    rw [e] at n1 <;> cases n1)
        refine ⟨?_, ?_, ?_⟩
        · rw [yields, ← List.singleton_append, List.filter_append, n2]
          exact (List.prefix_append_right_inj _).2 i1
        · intro x e hx
          rcases List.mem_cons.1 hx with hx | hx
          · cases hx
          · exact i2 x e hx
        · rintro ⟨x, hx⟩
          rcases List.mem_cons.1 hx with hx | hx
          · cases hx
          · rw [yields, List.length_cons]
            rcases i3 ⟨x, hx⟩ with i3 | i3
            · exact Or.inl (n4 _ i3)
            · right
              rw [← List.singleton_append, List.filter_append, n2, i3]

/-- the whole list the generator starts with -/
def fullList (s : Field D V) (a : SortArgs D) (nb : Bool) : List D :=
  if a.reverse then if nb then (listing s (SSet.ofList a.docids)).reverse else listingDesc s (SSet.ofList a.docids)
  else listing s (SSet.ofList a.docids)

theorem cutN_nil_iff {α : Type} (limit : Option Nat) (hl : ∀ n, limit = some n → 1 ≤ n) (L : List α) : cutN limit L = [] ↔ L = [] := by
  cases limit with
  | none => rfl
  | some n =>
    have := hl n rfl
    simp only [cutN, List.take_eq_nil_iff]
    constructor
    · rintro (h | h)
      · omega
      · exact h
    · exact Or.inr

variable (U) in
theorem start_good (h : List (Op D V)) (w : Wild D) (a : SortArgs D) (hl : ∀ n, a.limit = some n → 1 ≤ n)
    (hr : a.useNbest = true → a.reverse = true → a.limit ≠ none) (hs : Sortable (current h) a.docids) (nb : Bool)
    (hnb : nb = (chooseNbest (a.limit.map Int.toNat) (SSet.ofList a.docids).len || a.useNbest)) :
    (next (run h) w (.start a) = (.stop, .done) ∧ fullList (run h) a nb = []) ∨
    (∃ d t, nb = true ∧ cutN (a.limit.map Int.toNat) (fullList (run h) a nb) = d :: t ∧
      next (run h) w (.start a) = (.value d, .values t)) ∨
    (∃ d g, nb = false ∧ next (run h) w (.start a) = (.value d, g) ∧
      (fullList (run h) a nb).filter U = [d].filter U ++ remU U (current h) (run h).fwd.keys g ∧
      Good U (current h) (run h).fwd.keys h g ∧
      (∀ c, LimitHit c g → ∃ k, a.limit.map Int.toNat = some k ∧ k ≤ c + 1) ∧
      ((∃ ids rest key l n dirty, g = .walk ids rest key l n dirty none) →
        a.reverse = false ∧ (chooseLazy (SSet.ofList a.docids).len (run h).numDocs || a.useLazy) = true)) := by
  obtain ⟨hi, hrev⟩ := run_spec h
  obtain ⟨hk, ho⟩ := sortable_facts hrev hs
  have hl' := limit_pos hl
  have hstart : next (run h) w (.start a) = beginSort (run h) a (a.limit.map Int.toNat) := by
    unfold next
    dsimp only
    cases hlim : a.limit with
    | none => rfl
    | some n =>
      dsimp only
      rw [if_neg (by have := hl n hlim; omega)]; rfl
  rw [hstart]
  unfold beginSort
  have hnil : (run h).numDocs = 0 ∨ SMap.isEmpty (SSet.ofList a.docids) = true → fullList (run h) a nb = [] := by
    intro hx
    unfold fullList
    rw [listing_nil_of hi hx, listingDesc_nil_of hi hx]
    split
    · split <;> rfl
    · rfl
  by_cases h0 : (run h).numDocs = 0
  · rw [if_pos h0]; exact Or.inl ⟨rfl, hnil (Or.inl h0)⟩
  rw [if_neg h0]
  dsimp only
  by_cases h1 : SMap.isEmpty (SSet.ofList a.docids) = true
  · rw [if_pos h1]; exact Or.inl ⟨rfl, hnil (Or.inr h1)⟩
  rw [if_neg h1, ← hnb]
  cases hnb' : nb with
  | true =>
    rw [if_pos rfl]
    rw [hnb'] at hnb
    have hdocs : nbestDocs (run h) (SSet.ofList a.docids) a.reverse (a.limit.map Int.toNat) =
        .ok (cutN (a.limit.map Int.toNat) (fullList (run h) a true)) := by
      have he : nbestDocs (run h) (SSet.ofList a.docids) a.reverse (a.limit.map Int.toNat) =
          sortWith (run h) false true (SSet.ofList a.docids) a.reverse (a.limit.map Int.toNat) := by
        unfold sortWith nbestDocs
        rw [if_pos rfl]; rfl
      rw [he]
      unfold fullList
      cases hrv : a.reverse with
      | false => exact nbest_asc_ok _ _ _ _ hl' ho
      | true =>
        cases hlim : a.limit with
        | none =>
          rw [hlim] at hnb
          simp only [Option.map_none, chooseNbest, Bool.false_or] at hnb
          exact absurd hlim (hr hnb.symm hrv)
        | some n => exact nbest_desc_ok _ _ _ _ ho
    rw [hdocs]
    dsimp only
    cases hc : cutN (a.limit.map Int.toNat) (fullList (run h) a true) with
    | nil => exact Or.inl ⟨rfl, (cutN_nil_iff _ hl' _).1 hc⟩
    | cons d t => exact Or.inr (Or.inl ⟨d, t, rfl, rfl, rfl⟩)
  | false =>
    rw [if_neg (by decide)]
    have hagree : ∀ d v, U d = true → (d ∈ ((((none : Option (SMap V (SSet D))).getD (run h).fwd).get? v).getD SMap.empty).keys ↔
        current h d = some v) := by
      intro d v _
      rw [← hrev, ← hi.agree]
      show d ∈ (((run h).fwd.get? v).getD SMap.empty).keys ↔ _
      cases hf : (run h).fwd.get? v with
      | none => simp [SMap.keys, SMap.empty]
      | some set => simp
    cases hz : ((chooseLazy (SSet.ofList a.docids).len (run h).numDocs || a.useLazy) && !a.reverse) with
    | true =>
      rw [if_pos rfl]
      obtain ⟨hz1, hz2⟩ := Bool.and_eq_true_iff.1 hz
      have hz2 : a.reverse = false := by simpa using hz2
      have hfull : fullList (run h) a false = blocks (run h).fwd (SSet.ofList a.docids) (run h).fwd.keys := by
        unfold fullList
        rw [hz2, ← values_eq, lazy_eq hi]; rfl
      rw [hfull]
      rcases nextWalk_spec (run h).fwd (SSet.ofList a.docids) (a.limit.map Int.toNat) 0 none (run h).fwd.keys [] rfl with
        ⟨h2, h3⟩ | ⟨d, rest, v, h2, h3, -⟩
      · exact Or.inl ⟨h3, h2⟩
      · refine Or.inr (Or.inr ⟨d, _, rfl, h2, ?_, ⟨rfl, rfl, hagree⟩, ?_, fun _ => ⟨hz2, hz1⟩⟩)
        · rw [h3, next_good.blocks_filter_cons, blocks_filter (fwd := (run h).fwd) hagree]; rfl
        · rintro c ⟨k, hk1, hk2⟩; exact ⟨k, hk1, by omega⟩
    | false =>
      simp only [Bool.false_eq_true, if_false]
      unfold fullKeys at hk
      rw [if_pos hk]
      set S := (SMap.keys (SSet.ofList a.docids)).insertionSort
          (fun x y => keyLe (fun d => ((run h).rev.get? d).getD PyValue.negOne) a.reverse x y = true) with hS
      have hfull : fullList (run h) a false = S.filter (run h).rev.contains := by
        unfold fullList
        rw [hS]
        cases a.reverse with
        | true => rfl
        | false => exact (full_eq (run h) _).symm
      rw [hfull]
      rcases nextScan_spec (run h).rev (a.limit.map Int.toNat) 0 none S with ⟨h2, h3⟩ | ⟨d, t, r, h2, h3, h4, -⟩
      · exact Or.inl ⟨h3, h2⟩
      · refine Or.inr (Or.inr ⟨d, _, trivial, h3, ?_, fun d _ => hrev d, ?_, ?_⟩)
        · rw [h2, ← h4, ← List.singleton_append, List.filter_append, List.filter_filter]
          congr 1
          simp only [remU]
          apply List.filter_congr
          intro x _
          rw [← hrev]; rfl
        · rintro c ⟨k, hk1, hk2⟩; exact ⟨k, hk1, by omega⟩
        · rintro ⟨_, _, _, _, _, _, he⟩; cases he

end steady

/-- the n-best docids are fixed at the first `next()` -/
theorem trace_values (h : List (Op D V)) (es : List (Event D V)) (l : List D) :
    (trace h (.values l) es).map (·.2) = (List.range (nexts es)).map (expected (.ok l)) := by
  induction es generalizing h l with
  | nil => rfl
  | cons e es ih =>
    cases e with
    | call op => exact ih _ l
    | next w =>
      rw [trace, nexts, List.range_succ_eq_map, List.map_cons, List.map_cons, List.map_map]
      cases l with
      | nil =>
        have hd : ∀ h : List (Op D V), (trace h (.done : Gen D V) es).map (·.2) = (List.range (nexts es)).map (fun _ => Out.stop) := by
          clear ih
          induction es with
          | nil => intro h; rfl
          | cons e es ih =>
            intro h
            cases e with
            | call op => exact ih _
            | next w =>
              rw [trace, nexts, List.range_succ_eq_map, List.map_cons, List.map_cons, List.map_map]
              exact congrArg₂ _ rfl (ih h)
        exact congrArg₂ _ rfl (hd h)
      | cons d t =>
        refine congrArg₂ _ rfl ((ih h t).trans ?_)
        apply List.map_congr_left
        intro i _
        simp [expected]

theorem yields_map (t : List (List (Op D V) × Out D)) :
    yields t = (t.map (·.2)).filterMap (fun o => match o with | .value d => some d | _ => none) := by
  induction t with
  | nil => rfl
  | cons x t ih =>
    obtain ⟨h, o⟩ := x
    cases o <;> simp [yields, ih]

theorem values_ended (h : List (Op D V)) (es : List (Event D V)) (l : List D) :
    yields (trace h (.values l) es) <+: l ∧ (Ended (trace h (.values l) es) → yields (trace h (.values l) es) = l) ∧
    ∀ x e, (x, Out.raised e) ∉ trace h (.values l) es := by
  induction es generalizing h l with
  | nil => exact ⟨by simp [trace, yields], fun ⟨x, hx⟩ => by simp [trace] at hx, by simp [trace]⟩
  | cons e es ih =>
    cases e with
    | call op => exact ih _ l
    | next w =>
      rw [trace]
      cases l with
      | nil =>
        have hd : ∀ h : List (Op D V), yields (trace h (.done : Gen D V) es) = [] ∧
            ∀ x e, (x, Out.raised e) ∉ trace h (.done : Gen D V) es := by
          clear ih
          induction es with
          | nil => intro h; exact ⟨rfl, by simp [trace]⟩
          | cons e es ih =>
            intro h
            cases e with
            | call op => exact ih _
            | next w =>
              rw [trace]
              obtain ⟨i1, i2⟩ := ih h
              refine ⟨i1, ?_⟩
              intro x e hx
              rcases List.mem_cons.1 hx with hx | hx
              · cases hx
              · exact i2 x e hx
        obtain ⟨i1, i2⟩ := hd h
        have i1' : yields ((h, (Out.stop : Out D)) :: trace h (.done : Gen D V) es) = [] := i1
        refine ⟨?_, fun _ => i1', ?_⟩
        · show yields ((h, (Out.stop : Out D)) :: trace h (.done : Gen D V) es) <+: []
          rw [i1']; exact List.prefix_rfl
        · intro x e hx
          rcases List.mem_cons.1 hx with hx | hx
          · cases hx
          · exact i2 x e hx
      | cons d t =>
        obtain ⟨i1, i2, i3⟩ := ih h t
        show d :: yields (trace h (.values t) es) <+: d :: t ∧ (Ended ((h, .value d) :: trace h (.values t) es) →
          d :: yields (trace h (.values t) es) = d :: t) ∧ ∀ x e, (x, Out.raised e) ∉ (h, .value d) :: trace h (.values t) es
        refine ⟨List.cons_prefix_cons.2 ⟨rfl, i1⟩, ?_, ?_⟩
        · rintro ⟨x, hx⟩
          rcases List.mem_cons.1 hx with hx | hx
          · cases hx
          · rw [i2 ⟨x, hx⟩]
        · intro x e hx
          rcases List.mem_cons.1 hx with hx | hx
          · cases hx
          · exact i3 x e hx

/-! ### whatever happens -/

/-- `c` docids were yielded -/
def Bound (a : SortArgs D) (c : Nat) : Gen D V → Prop
  | .start b => b = a ∧ c = 0
  | .values rest => (∀ d ∈ rest, d ∈ a.docids) ∧ ∀ k, a.limit.map Int.toNat = some k → c + rest.length ≤ k
  | .scan rest l n _ => (∀ d ∈ rest, d ∈ a.docids) ∧ l = a.limit.map Int.toNat ∧ n = c ∧ ∀ k, a.limit.map Int.toNat = some k → c ≤ k
  | .walk ids rest _ l n _ _ => ids = SSet.ofList a.docids ∧ (∀ d ∈ rest, d ∈ a.docids) ∧ l = a.limit.map Int.toNat ∧ n = c ∧
      ∀ k, a.limit.map Int.toNat = some k → c ≤ k
  | .done => ∀ k, a.limit.map Int.toNat = some k → c ≤ k

/-- the generator gives a docid, or ends -/
def StepOk (a : SortArgs D) (c : Nat) (r : Out D × Gen D V) : Prop :=
  (∃ d, r.1 = .value d ∧ d ∈ a.docids ∧ Bound a (c + 1) r.2) ∨ ((∀ d, r.1 ≠ .value d) ∧ r.2 = .done)

theorem nextWalk_bound {a : SortArgs D} {c : Nat} (fwd : SMap V (SSet D)) (old : Option (SMap V (SSet D))) (vs : List V)
    (hc : ∀ k, a.limit.map Int.toNat = some k → c + 1 ≤ k) :
    StepOk a c (nextWalk fwd (SSet.ofList a.docids) (a.limit.map Int.toNat) c old vs) := by
  induction vs with
  | nil => exact Or.inr ⟨by simp [nextWalk], rfl⟩
  | cons v vs ih =>
    rw [nextWalk]
    split
    · exact ih
    · rename_i d rest he
      have hm : ∀ x ∈ d :: rest, x ∈ a.docids := by
        intro x hx
        rw [← he, SSet.mem_keys_inter, mem_ofList] at hx
        exact hx.1
      exact Or.inl ⟨d, rfl, hm d (by simp), rfl, fun x hx => hm x (by simp [hx]), rfl, rfl, hc⟩

theorem nextWild_bound {a : SortArgs D} {c : Nat} (e : Option PyErr) (key : V) (old : Option (SMap V (SSet D))) (sets : List (SSet D))
    (hc : ∀ k, a.limit.map Int.toNat = some k → c + 1 ≤ k) :
    StepOk a c (nextWild e (SSet.ofList a.docids) key (a.limit.map Int.toNat) c old sets) := by
  induction sets with
  | nil => exact Or.inr ⟨by cases e <;> simp [nextWild], rfl⟩
  | cons v vs ih =>
    rw [nextWild]
    split
    · exact ih
    · rename_i d rest he
      have hm : ∀ x ∈ d :: rest, x ∈ a.docids := by
        intro x hx
        rw [← he, SSet.mem_keys_inter, mem_ofList] at hx
        exact hx.1
      exact Or.inl ⟨d, rfl, hm d (by simp), rfl, fun x hx => hm x (by simp [hx]), rfl, rfl, hc⟩

theorem nextScan_bound {a : SortArgs D} {c : Nat} (rev : SMap D V) (old : Option (SMap D V)) (rest : List D)
    (hr : ∀ d ∈ rest, d ∈ a.docids) (hc : ∀ k, a.limit.map Int.toNat = some k → c + 1 ≤ k) :
    StepOk a c (nextScan rev (a.limit.map Int.toNat) c old rest) := by
  rcases nextScan_spec rev (a.limit.map Int.toNat) c old rest with ⟨-, h⟩ | ⟨d, t, r, -, h, -, q, hq, -⟩
  · rw [h]; exact Or.inr ⟨by simp, rfl⟩
  · rw [h]
    subst hq
    exact Or.inl ⟨d, rfl, hr d (by simp), fun x hx => hr x (by simp [hx]), rfl, rfl, hc⟩

theorem nbestDocs_bound (s : Field D V) (docids : List D) (rv : Bool) (limit : Option Nat) (hl : ∀ n, limit = some n → 1 ≤ n)
    {l : List D} (h : nbestDocs s (SSet.ofList docids) rv limit = .ok l) :
    (∀ d ∈ l, d ∈ docids) ∧ ∀ k, limit = some k → l.length ≤ k := by
  have he : nbestDocs s (SSet.ofList docids) rv limit = sortWith s false true (SSet.ofList docids) rv limit := by
    unfold sortWith nbestDocs
    rw [if_pos rfl]; rfl
  rw [he] at h
  have hmem : ∀ d ∈ listing s (SSet.ofList docids), d ∈ docids := by
    intro d hd
    rw [mem_listing, mem_ofList] at hd
    exact hd.1
  cases hok : allOk tupleOk (pairsOf s (SSet.ofList docids)) with
  | false =>
    cases rv with
    | false => rw [nbest_asc_err s _ _ _ hl hok] at h; cases h
    | true => rw [nbest_desc_err s _ _ _ hok] at h; cases h
  | true =>
    cases rv with
    | false =>
      rw [nbest_asc_ok s _ _ _ hl hok] at h
      cases h
      cases limit with
      | none => exact ⟨hmem, by simp⟩
      | some n =>
        refine ⟨fun d hd => hmem d (List.mem_of_mem_take hd), ?_⟩
        intro k hk
        cases hk
        simp [cutN]
    | true =>
      cases limit with
      | none =>
        unfold sortWith at h
        simp at h
      | some n =>
        rw [nbest_desc_ok s _ _ _ hok] at h
        cases h
        refine ⟨fun d hd => hmem d (by simpa using List.mem_of_mem_take hd), ?_⟩
        intro k hk
        cases hk
        simp [cutN]

theorem next_bound {a : SortArgs D} {c : Nat} (s : Field D V) (w : Wild D) {g : Gen D V} (hg : Bound a c g) :
    StepOk a c (next s w g) := by
  cases g with
  | done => exact Or.inr ⟨by simp [next], rfl⟩
  | values rest =>
    cases rest with
    | nil => exact Or.inr ⟨by simp [next, nextValue], rfl⟩
    | cons d t =>
      obtain ⟨h1, h2⟩ := hg
      refine Or.inl ⟨d, rfl, h1 d (by simp), fun x hx => h1 x (by simp [hx]), ?_⟩
      intro k hk
      have := h2 k hk
      rw [List.length_cons] at this
      omega
  | scan rest l n old =>
    obtain ⟨h1, rfl, rfl, h2⟩ := hg
    simp only [next]
    cases hr : reached (a.limit.map Int.toNat) n with
    | true => exact Or.inr ⟨by simp, rfl⟩
    | false =>
      simp only [Bool.false_eq_true, if_false]
      apply nextScan_bound _ _ _ h1
      intro k hk
      rw [hk] at hr
      have : n < k := by simpa [reached] using hr
      omega
  | walk ids rest key l n dirty old =>
    obtain ⟨rfl, h1, rfl, rfl, h2⟩ := hg
    simp only [next]
    cases hr : reached (a.limit.map Int.toNat) n with
    | true => exact Or.inr ⟨by simp, rfl⟩
    | false =>
      simp only [Bool.false_eq_true, if_false]
      have hc : ∀ k, a.limit.map Int.toNat = some k → n + 1 ≤ k := by
        intro k hk
        rw [hk] at hr
        have : n < k := by simpa [reached] using hr
        omega
      cases rest with
      | cons d rest => exact Or.inl ⟨d, rfl, h1 d (by simp), rfl, fun x hx => h1 x (by simp [hx]), rfl, rfl, hc⟩
      | nil =>
        simp only
        split
        · exact nextWild_bound _ _ _ _ hc
        · exact nextWalk_bound _ _ _ hc
  | start b =>
    obtain ⟨rfl, rfl⟩ := hg
    have hbegin : (∀ n, b.limit = some n → 1 ≤ n) → StepOk b 0 (beginSort s b (b.limit.map Int.toNat)) := by
      intro hl
      have hl' := limit_pos hl
      have hc : ∀ k, b.limit.map Int.toNat = some k → 0 + 1 ≤ k := fun k hk => by simpa using hl' k hk
      have hend : ∀ {o : Out D}, (∀ d, o ≠ .value d) → StepOk b 0 (o, (.done : Gen D V)) := fun ho => Or.inr ⟨ho, rfl⟩
      unfold beginSort
      split
      · exact hend (by simp)
      · dsimp only
        split
        · exact hend (by simp)
        · split
          · split
            · exact hend (by simp)
            · rename_i l hl2
              obtain ⟨h1, h2⟩ := nbestDocs_bound s b.docids b.reverse _ hl' hl2
              cases l with
              | nil => exact hend (by simp)
              | cons d t =>
                refine Or.inl ⟨d, rfl, h1 d (by simp), fun x hx => h1 x (by simp [hx]), ?_⟩
                intro k hk
                have := h2 k hk
                rw [List.length_cons] at this
                omega
          · split
            · exact nextWalk_bound _ _ _ hc
            · split
              · apply nextScan_bound _ _ _ _ hc
                intro d hd
                rw [List.mem_insertionSort, mem_ofList] at hd
                exact hd
              · exact hend (by simp)
    simp only [next]
    cases hlim : b.limit with
    | none =>
      rw [hlim] at hbegin
      exact hbegin (by simp)
    | some n =>
      dsimp only
      split
      · exact Or.inr ⟨by simp, rfl⟩
      · rename_i hn
        rw [hlim] at hbegin
        exact hbegin (by intro k hk; cases hk; omega)

theorem onCall_bound {a : SortArgs D} {c : Nat} (s : Field D V) (op : Op D V) {g : Gen D V} (hg : Bound a c g) :
    Bound a c (g.onCall s op) := by
  cases g with
  | start b => exact hg
  | done => exact hg
  | values r => exact hg
  | scan r l n old => cases old <;> cases op <;> exact hg
  | walk ids r key l n dirty old => cases old <;> cases op <;> exact hg

theorem trace_done (h : List (Op D V)) (es : List (Event D V)) : ∀ x ∈ trace h (.done : Gen D V) es, x.2 = .stop := by
  induction es generalizing h with
  | nil => simp [trace]
  | cons e es ih =>
    cases e with
    | call op => exact ih _
    | next w =>
      rw [trace]
      intro x hx
      rcases List.mem_cons.1 hx with rfl | hx
      · rfl
      · exact ih h x hx

theorem yields_stops {t : List (List (Op D V) × Out D)} (h : ∀ x ∈ t, x.2 = .stop) : yields t = [] := by
  induction t with
  | nil => rfl
  | cons x t ih =>
    obtain ⟨p, o⟩ := x
    have : o = .stop := h (p, o) (by simp)
    subst this
    exact ih (fun x hx => h x (by simp [hx]))

theorem trace_bound {a : SortArgs D} (h : List (Op D V)) (es : List (Event D V)) (c : Nat) (g : Gen D V) (hg : Bound a c g)
    (hc : ∀ k, a.limit.map Int.toNat = some k → c ≤ k) :
    (∀ d ∈ yields (trace h g es), d ∈ a.docids) ∧
    (∀ k, a.limit.map Int.toNat = some k → c + (yields (trace h g es)).length ≤ k) ∧
    ∀ (i j : Nat) (x y : List (Op D V) × Out D), i < j → (trace h g es)[i]? = some x → (∀ d, x.2 ≠ .value d) →
      (trace h g es)[j]? = some y → y.2 = .stop := by
  induction es generalizing h c g with
  | nil => exact ⟨by simp [trace, yields], by simpa [trace, yields] using hc, by simp [trace]⟩
  | cons e es ih =>
    cases e with
    | call op => exact ih _ _ _ (onCall_bound _ _ hg) hc
    | next w =>
      rw [trace]
      rcases next_bound (run h) w hg with ⟨d, h1, h2, h3⟩ | ⟨h1, h2⟩
      · rw [h1]
        have hc' : ∀ k, a.limit.map Int.toNat = some k → c + 1 ≤ k := by
          intro k hk
          cases hg' : (next (run h) w g).2 with
          | start b => rw [hg'] at h3; obtain ⟨-, h3⟩ := h3; omega
          | done => rw [hg'] at h3; exact h3 k hk
          | values r => rw [hg'] at h3; have := h3.2 k hk; omega
          | scan r l n old => rw [hg'] at h3; exact h3.2.2.2 k hk
          | walk ids r key l n dirty old => rw [hg'] at h3; exact h3.2.2.2.2 k hk
        obtain ⟨i1, i2, i3⟩ := ih h _ _ h3 hc'
        refine ⟨?_, ?_, ?_⟩
        · intro x hx
          rcases List.mem_cons.1 hx with rfl | hx
          · exact h2
          · exact i1 x hx
        · intro k hk
          have := i2 k hk
          rw [yields, List.length_cons]
          omega
        · intro i j x y hij hx hnv hy
          cases j with
          | zero => omega
          | succ j =>
            cases i with
            | zero => simp only [List.getElem?_cons_zero, Option.some.injEq] at hx; subst hx; exact absurd rfl (hnv d)
            | succ i => exact i3 i j x y (by omega) (by simpa using hx) hnv (by simpa using hy)
      · have hy : yields ((h, (next (run h) w g).1) :: trace h (next (run h) w g).2 es) = [] := by
          rw [h2]
          have := yields_stops (trace_done h es (D := D) (V := V))
          cases ho : (next (run h) w g).1 with
          | value d => exact absurd ho (h1 d)
          | stop => rw [yields, this]
          | raised e => rw [yields, this]
        refine ⟨by rw [hy]; simp, by rw [hy]; simpa using hc, ?_⟩
        intro i j x y hij hx hnv hy
        cases j with
        | zero => omega
        | succ j =>
          rw [h2] at hy
          exact trace_done h es y (List.mem_of_getElem? (by simpa using hy))

/-! ### the full sort -/

theorem trace_scan (h : List (Op D V)) (es : List (Event D V)) (hcl : Op.clear ∉ calls es) (rest : List D) (l : Option Nat) (n : Nat) :
    let t := trace h (.scan rest l n none : Gen D V) es
    (yields t).Sublist rest ∧ (∀ x d, (x, Out.value d) ∈ t → (current x d).isSome) ∧
    ∀ d ∈ rest, (∀ ops, ops <+: calls es → (current (h ++ ops) d).isSome) → Ended t →
      d ∈ yields t ∨ ∃ k, l = some k ∧ k ≤ n + (yields t).length := by
  induction es generalizing h rest n with
  | nil => exact ⟨by simp [trace, yields], by simp [trace], fun d _ _ ⟨x, hx⟩ => by simp [trace] at hx⟩
  | cons e es ih =>
    cases e with
    | call op =>
      have hop : op ≠ .clear := fun he => hcl (by simp [calls, he])
      have hcl' : Op.clear ∉ calls es := fun he => hcl (by simp [calls, he])
      have hon : (Gen.scan rest l n none : Gen D V).onCall (run h) op = .scan rest l n none := by
        cases op with
        | clear => exact absurd rfl hop
        | _ => rfl
      dsimp only
      rw [trace, hon]
      obtain ⟨i1, i2, i3⟩ := ih (h ++ [op]) hcl' rest n
      refine ⟨i1, i2, fun d hd hx => i3 d hd ?_⟩
      intro ops ho
      rw [List.append_assoc, List.singleton_append]
      exact hx (op :: ops) (by simpa [calls] using ho)
    | next w =>
      dsimp only
      have hcl' : Op.clear ∉ calls es := hcl
      rw [trace]
      simp only [next]
      cases hr : reached l n with
      | true =>
        simp only [if_true]
        have hy := yields_stops (trace_done h es (D := D) (V := V))
        rw [yields, hy]
        refine ⟨by simp, ?_, fun d _ _ _ => Or.inr ?_⟩
        · intro x d hx
          rcases List.mem_cons.1 hx with hx | hx
          · cases hx
          · have := trace_done h es _ hx; cases this
        · obtain ⟨k, hk1, hk2⟩ := (reached_iff l n).1 hr
          exact ⟨k, hk1, by omega⟩
      | false =>
        simp only [Bool.false_eq_true, if_false]
        rcases nextScan_spec ((none : Option (SMap D V)).getD (run h).rev) l n none rest with ⟨h1, h2⟩ | ⟨d, t, r, h1, h2, h3, q, h4, h5⟩
        · rw [h2]
          dsimp only
          have hy := yields_stops (trace_done h es (D := D) (V := V))
          rw [yields, hy]
          refine ⟨by simp, ?_, ?_⟩
          · intro x d hx
            rcases List.mem_cons.1 hx with hx | hx
            · cases hx
            · have := trace_done h es _ hx; cases this
          · intro d hd hx _
            have h6 := hx [] (by simp)
            rw [List.append_nil, ← (run_spec h).2] at h6
            rw [List.filter_eq_nil_iff] at h1
            exact absurd h6 (h1 d hd)
        · rw [h2]
          dsimp only
          obtain ⟨i1, i2, i3⟩ := ih h hcl' r (n + 1)
          have hd : (run h).rev.contains d = true := by
            have : d ∈ rest.filter ((none : Option (SMap D V)).getD (run h).rev).contains := by rw [h1]; simp
            exact (List.mem_filter.1 this).2
          refine ⟨?_, ?_, ?_⟩
          · rw [yields, h4]
            exact (List.Sublist.cons_cons d i1).trans (List.sublist_append_right q _)
          · intro x y hx
            rcases List.mem_cons.1 hx with hx | hx
            · cases hx
              rw [← (run_spec h).2]; exact hd
            · exact i2 x y hx
          · intro y hy hx he
            rw [yields, List.length_cons]
            have he' : Ended (trace h (.scan r l (n + 1) none : Gen D V) es) := by
              obtain ⟨x, hx⟩ := he
              rcases List.mem_cons.1 hx with hx | hx
              · cases hx
              · exact ⟨x, hx⟩
            rw [h4] at hy
            rcases List.mem_append.1 hy with hy | hy
            · have h6 := hx [] (by simp)
              rw [List.append_nil, ← (run_spec h).2] at h6
              have h7 : (run h).rev.contains y = false := h5 y hy
              have h8 : (run h).rev.contains y = true := h6
              rw [h7] at h8; cases h8
            · rcases List.mem_cons.1 hy with rfl | hy
              · exact Or.inl (by simp)
              · rcases i3 y hy hx he' with h6 | ⟨k, h6, h7⟩
                · exact Or.inl (by simp [h6])
                · exact Or.inr ⟨k, h6, by omega⟩

end Verif.Field
