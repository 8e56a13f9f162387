import Verif.Proofs.SortGen
import Verif.Props.Field

/-!
# C79: consuming `sort()` while the index changes

`trace hist g events` lists what each `next()` did, with the history of the index at that time.
-/

set_option autoImplicit false

namespace Verif

open Field Spec Spec.Field

variable {D V : Type} [LinearOrder D] [PyValue V]

/-- C79: calling `sort` does nothing: calls made before the first `next()` count (`pre`).  If nothing changes from then on, the
generator gives the docids of the whole sort one by one and then ends; an exception comes with the first `next()`. -/
theorem C79_undisturbed (hist pre : List (Op D V)) (a : SortArgs D) (ws : List (Wild D)) :
    trace hist (.start a) (pre.map .call ++ ws.map .next) =
      (List.range ws.length).map (fun i => (hist ++ pre,
        expected ((run (hist ++ pre)).sort a.useLazy a.useNbest a.docids a.reverse a.limit) i)) := by
  rw [trace_calls]
  generalize hist ++ pre = h
  cases ws with
  | nil => rfl
  | cons w ws =>
    rw [List.map_cons, trace, List.length_cons, List.range_succ_eq_map, List.map_cons, List.map_map]
    have hf := next_start (run h) w a
    cases hs : (run h).sort a.useLazy a.useNbest a.docids a.reverse a.limit with
    | error e =>
      rw [hs] at hf
      have hf : next (run h) w (.start a) = (.raised e, .done) := hf
      rw [hf, trace_rem h ws .done trivial]
      simp [expected, rem, Function.comp_def]
    | ok l =>
      rw [hs] at hf
      cases l with
      | nil =>
        have hf : next (run h) w (.start a) = (.stop, .done) := hf
        rw [hf, trace_rem h ws .done trivial]
        simp [expected, rem, Function.comp_def]
      | cons d t =>
        obtain ⟨g, h1, h2, h3⟩ := hf
        rw [h1, trace_rem h ws g h2, h3]
        simp [expected, Function.comp_def]

/-- C79: whatever happens between, the generator gives only docids that were asked for, at most `limit` of them, and after it has
ended (or raised an exception) it only ends -/
theorem C79_within (hist : List (Op D V)) (a : SortArgs D) (es : List (Event D V)) :
    (∀ d ∈ yields (trace hist (.start a) es), d ∈ a.docids) ∧
    (∀ n, a.limit = some n → 1 ≤ n → ((yields (trace hist (.start a) es)).length : Int) ≤ n) ∧
    ∀ (i j : Nat) x y, i < j → (trace hist (.start a) es)[i]? = some x → (∀ d, x.2 ≠ .value d) →
      (trace hist (.start a) es)[j]? = some y → y.2 = .stop := by
  obtain ⟨h1, h2, h3⟩ := trace_bound hist es 0 (.start a) (a := a) ⟨rfl, rfl⟩ (by simp)
  refine ⟨h1, ?_, h3⟩
  intro n hn h1n
  have := h2 n.toNat (by rw [hn]; rfl)
  omega

theorem len_ofList (l : List D) : CountIs (fun d => d ∈ l) (SSet.ofList l).len :=
  ⟨(SSet.ofList l).keys, SMap.keys_nodup _, fun d => mem_ofList l d, SMap.len_keys _⟩

theorem picks_iff (a : SortArgs D) (hl : ∀ n, a.limit = some n → 1 ≤ n) :
    (chooseNbest (a.limit.map Int.toNat) (SSet.ofList a.docids).len || a.useNbest) = true ↔ PicksBest a := by
  rw [Bool.or_eq_true, or_comm]
  unfold PicksBest
  apply or_congr Iff.rfl
  constructor
  · intro h
    cases hlim : a.limit with
    | none => rw [hlim] at h; simp [chooseNbest] at h
    | some n =>
      rw [hlim] at h
      simp only [Option.map_some, chooseNbest, decide_eq_true_eq] at h
      have := hl n hlim
      exact ⟨n, _, rfl, len_ofList _, by omega⟩
  · rintro ⟨n, k, hn, hk, hlt⟩
    rw [C02_count_unique _ _ _ (len_ofList _) hk, hn]
    have := hl n hn
    simp only [Option.map_some, chooseNbest, decide_eq_true_eq]
    omega

theorem walks_iff (hist : List (Op D V)) (a : SortArgs D) :
    (a.reverse = false ∧ (chooseLazy (SSet.ofList a.docids).len (run hist).numDocs || a.useLazy) = true) ↔
      WalksIndex (current hist) a := by
  unfold WalksIndex
  apply and_congr Iff.rfl
  rw [Bool.or_eq_true, or_comm]
  apply or_congr Iff.rfl
  obtain ⟨n, hn, hc⟩ := C02_document_count hist
  have hn : (run hist).numDocs = n := hn
  rw [hn]
  simp only [chooseLazy, decide_eq_true_eq]
  constructor
  · intro h
    exact ⟨_, n, len_ofList _, hc, by omega⟩
  · rintro ⟨k, t, hk, ht, hlt⟩
    rw [C02_count_unique _ _ _ (len_ofList _) hk, C02_count_unique _ _ _ hc ht]
    omega

theorem keys_same {hist : List (Op D V)} {es : List (Event D V)} (h : SameValues hist es) {ops : List (Op D V)}
    (ho : ops <+: calls es) : (run (hist ++ ops)).fwd.keys = (run hist).fwd.keys := by
  have key : ∀ (x : List (Op D V)) v, v ∈ (run x).fwd.keys ↔ ∃ d, current x d = some v := by
    intro x v
    obtain ⟨hi, hr⟩ := run_spec x
    rw [SMap.mem_keys_iff]
    constructor
    · rintro ⟨set, hs⟩
      obtain ⟨d, hd⟩ := hi.nonempty v set hs
      exact ⟨d, by rw [← hr]; exact (hi.agree v d).1 ⟨set, hs, hd⟩⟩
    · rintro ⟨d, hd⟩
      rw [← hr] at hd
      obtain ⟨set, hs, -⟩ := (hi.agree v d).2 hd
      exact ⟨set, hs⟩
  apply List.Perm.eq_of_pairwise (le := (· < ·)) (fun a b _ _ h1 h2 => absurd h1 (lt_asymm h2)) (SMap.keys_sorted _) (SMap.keys_sorted _)
  rw [List.perm_ext_iff_of_nodup (SMap.keys_nodup _) (SMap.keys_nodup _)]
  intro v
  rw [key, key]
  exact h ops ho v

/-- what the documents that stay the same see of a sort, in either direction -/
theorem steady_yields (hist : List (Op D V)) (a : SortArgs D) (w : Wild D) (es : List (Event D V)) (hl : ∀ n, a.limit = some n → 1 ≤ n)
    (hr : a.useNbest = true → a.reverse = true → a.limit ≠ none) (hs : Sortable (current hist) a.docids)
    (hv : PicksBest a ∨ ¬ WalksIndex (current hist) a ∨ SameValues hist es) (nb : Bool)
    (hnb : nb = (chooseNbest (a.limit.map Int.toNat) (SSet.ofList a.docids).len || a.useNbest)) (U : D → Bool)
    (hU : ∀ d, U d = true → Unchanged hist es d) :
    let t := trace hist (.start a) (.next w :: es)
    (yields t).filter U <+: (fullList (run hist) a nb).filter U ∧ (∀ x e, (x, Out.raised e) ∉ t) ∧
    (Ended t → (∀ n, a.limit = some n → ((yields t).length : Int) < n) → (yields t).filter U = (fullList (run hist) a nb).filter U) := by
  dsimp only
  rw [trace]
  rcases start_good U hist w a hl hr hs nb hnb with ⟨h1, h2⟩ | ⟨d, t, rfl, h2, h3⟩ | ⟨d, g, rfl, h2, h3, h4, h5, h6⟩
  · rw [h1, h2]
    dsimp only
    have hy := yields_stops (trace_done hist es (D := D) (V := V))
    rw [yields, hy]
    refine ⟨by simp, ?_, fun _ _ => rfl⟩
    intro x e hx
    rcases List.mem_cons.1 hx with hx | hx
    · cases hx
    · have := trace_done hist es _ hx; cases this
  · rw [h3]
    dsimp only
    obtain ⟨i1, i2, i3⟩ := values_ended hist es t
    rw [yields]
    have hpre : cutN (a.limit.map Int.toNat) (fullList (run hist) a true) <+: fullList (run hist) a true := by
      cases a.limit with
      | none => exact List.prefix_rfl
      | some n => exact List.take_prefix _ _
    refine ⟨?_, ?_, ?_⟩
    · have : d :: yields (trace hist (.values t) es) <+: fullList (run hist) a true := by
        refine List.IsPrefix.trans ?_ hpre
        rw [h2]
        exact List.cons_prefix_cons.2 ⟨rfl, i1⟩
      exact this.filter _
    · intro x e hx
      rcases List.mem_cons.1 hx with hx | hx
      · cases hx
      · exact i3 x e hx
    · rintro ⟨x, hx⟩ hlen
      have he : Ended (trace hist (.values t) es) := by
        rcases List.mem_cons.1 hx with hx | hx
        · cases hx
        · exact ⟨x, hx⟩
      rw [i2 he, ← h2] at hlen ⊢
      congr 1
      cases hlim : a.limit with
      | none => rfl
      | some n =>
        rw [hlim] at hlen
        have := hlen n rfl
        simp only [Option.map_some, cutN] at this ⊢
        rw [List.length_take] at this
        apply List.take_of_length_le
        omega
  · rw [h2]
    dsimp only
    have hgood := trace_good hist es g h4 (fun ops ho d hd => hU d hd ops ho) (fun hw ops ho => by
      rcases hv with hv | hv | hv
      · rw [← picks_iff a hl, ← hnb] at hv; cases hv
      · exact absurd ((walks_iff hist a).1 (h6 hw)) hv
      · exact keys_same hv ho)
    obtain ⟨i1, i2, i3⟩ := hgood
    rw [yields, h3]
    refine ⟨?_, ?_, ?_⟩
    · rw [← List.singleton_append, List.filter_append]
      exact (List.prefix_append_right_inj _).2 i1
    · intro x e hx
      rcases List.mem_cons.1 hx with hx | hx
      · cases hx
      · exact i2 x e hx
    · rintro ⟨x, hx⟩ hlen
      have he : Ended (trace hist g es) := by
        rcases List.mem_cons.1 hx with hx | hx
        · cases hx
        · exact ⟨x, hx⟩
      rcases i3 he with h7 | h7
      · obtain ⟨k, hk, hle⟩ := h5 _ h7
        cases hlim : a.limit with
        | none => rw [hlim] at hk; cases hk
        | some n =>
          rw [hlim] at hk
          have := hlen n hlim
          rw [List.length_cons] at this
          simp only [Option.map_some, Option.some.injEq] at hk
          omega
      · rw [← List.singleton_append, List.filter_append, h7]

open Classical in
/-- C79, ascending: the index changes in any way while the generator is used.  The documents whose value stays the same still come
out in the order of the sort, each at most once, and none of them is missing if the generator ends before its limit; no exception is
raised.  Missing: when `sort` goes through the values of the index, and the set of values changes meanwhile (what iterating over a
changed BTree gives is undefined). -/
theorem C79_steady_partial (hist : List (Op D V)) (a : SortArgs D) (w : Wild D) (es : List (Event D V)) (hrev : a.reverse = false)
    (hl : ∀ n, a.limit = some n → 1 ≤ n) (hs : Sortable (current hist) a.docids)
    (hv : PicksBest a ∨ ¬ WalksIndex (current hist) a ∨ SameValues hist es) :
    ∃ L, IsListing (steady hist es) a.docids L ∧
      let t := trace hist (.start a) (.next w :: es)
      (yields t).filter (fun d => Unchanged hist es d) <+: L ∧ (∀ x e, (x, Out.raised e) ∉ t) ∧
      (Ended t → (∀ n, a.limit = some n → ((yields t).length : Int) < n) →
        (yields t).filter (fun d => Unchanged hist es d) = L) := by
  obtain ⟨-, hr⟩ := run_spec hist
  refine ⟨(listing (run hist) (SSet.ofList a.docids)).filter (fun d => Unchanged hist es d), ⟨?_, ?_⟩, ?_⟩
  · intro d
    rw [List.mem_filter, mem_listing, mem_ofList, hr]
    unfold steady
    by_cases hu : Unchanged hist es d
    · simp [hu, Option.isSome_iff_exists]
    · simp [hu]
  · refine ((listing_sorted (run hist) (SSet.ofList a.docids)).filter _).imp ?_
    intro x y hxy vx vy hx hy
    unfold steady at hx hy
    split at hx
    · split at hy
      · exact hxy vx vy (by rw [hr]; exact hx) (by rw [hr]; exact hy)
      · cases hy
    · cases hx
  · have := steady_yields hist a w es hl (by rw [hrev]; simp) hs hv _ rfl (fun d => Unchanged hist es d) (fun d hd => by simpa using hd)
    unfold fullList at this
    rw [hrev] at this
    exact this

open Classical in
/-- C79, descending: the same, and there is no exception to it.  (Documents with equal values may come in either order, C07.) -/
theorem C79_steady_descending (hist : List (Op D V)) (a : SortArgs D) (w : Wild D) (es : List (Event D V)) (hrev : a.reverse = true)
    (hl : ∀ n, a.limit = some n → 1 ≤ n) (hnb : a.useNbest = true → a.limit ≠ none) (hs : Sortable (current hist) a.docids) :
    ∃ L, IsDescending (steady hist es) a.docids L ∧
      let t := trace hist (.start a) (.next w :: es)
      (yields t).filter (fun d => Unchanged hist es d) <+: L ∧ (∀ x e, (x, Out.raised e) ∉ t) ∧
      (Ended t → (∀ n, a.limit = some n → ((yields t).length : Int) < n) →
        (yields t).filter (fun d => Unchanged hist es d) = L) := by
  obtain ⟨-, hr⟩ := run_spec hist
  set nb := (chooseNbest (a.limit.map Int.toNat) (SSet.ofList a.docids).len || a.useNbest) with hnb'
  have hmem : ∀ d, d ∈ fullList (run hist) a nb ↔ d ∈ a.docids ∧ ∃ v, current hist d = some v := by
    intro d
    unfold fullList
    rw [hrev]
    cases nb with
    | true => simp only [if_true, List.mem_reverse, mem_listing, mem_ofList, hr]
    | false => simp only [if_true, Bool.false_eq_true, if_false, mem_listingDesc, mem_ofList, hr]
  have hnd : (fullList (run hist) a nb).Nodup := by
    unfold fullList
    rw [hrev]
    cases nb with
    | true => exact List.nodup_reverse.2 (listing_nodup _ _)
    | false => exact listingDesc_nodup _ _
  have hsort : (fullList (run hist) a nb).Pairwise (fun x y => ∀ vx vy, current hist x = some vx → current hist y = some vy → vy ≤ vx) := by
    unfold fullList
    rw [hrev]
    cases nb with
    | true =>
      show (listing (run hist) (SSet.ofList a.docids)).reverse.Pairwise _
      rw [List.pairwise_reverse]
      refine (listing_sorted (run hist) (SSet.ofList a.docids)).imp ?_
      intro x y h vy vx hy hx
      rcases h vx vy (by rw [hr]; exact hx) (by rw [hr]; exact hy) with h | h
      · exact le_of_lt h
      · exact le_of_eq h.1
    | false =>
      refine (listingDesc_sorted (run hist) (SSet.ofList a.docids)).imp ?_
      intro x y h vx vy hx hy
      rcases h vx vy (by rw [hr]; exact hx) (by rw [hr]; exact hy) with h | h
      · exact le_of_lt h
      · exact le_of_eq h.1.symm
  refine ⟨(fullList (run hist) a nb).filter (fun d => Unchanged hist es d), ⟨hnd.filter _, ?_, ?_⟩, ?_⟩
  · intro d
    rw [List.mem_filter, hmem]
    unfold steady
    by_cases hu : Unchanged hist es d
    · simp [hu, Option.isSome_iff_exists]
    · simp [hu]
  · refine (hsort.filter _).imp ?_
    intro x y hxy vx vy hx hy
    unfold steady at hx hy
    split at hx
    · split at hy
      · exact hxy vx vy hx hy
      · cases hy
    · cases hx
  · exact steady_yields hist a w es hl (fun h1 _ => hnb h1) hs (Or.inr (Or.inl (fun h => by have := h.1; rw [hrev] at this; cases this)))
      _ hnb' (fun d => Unchanged hist es d) (fun d hd => by simpa using hd)

theorem next_picks (s : Field D V) (w : Wild D) (a : SortArgs D) (hl : ∀ n, a.limit = some n → 1 ≤ n) (hp : PicksBest a) :
    (∃ o, (∀ d, o ≠ .value d) ∧ next s w (.start a) = (o, .done)) ∨ ∃ l, next s w (.start a) = nextValue l := by
  have hb : (∃ o, (∀ d, o ≠ .value d) ∧ beginSort s a (a.limit.map Int.toNat) = (o, .done)) ∨
      ∃ l, beginSort s a (a.limit.map Int.toNat) = nextValue l := by
    unfold beginSort
    split
    · exact Or.inl ⟨_, by simp, rfl⟩
    · dsimp only
      split
      · exact Or.inl ⟨_, by simp, rfl⟩
      · rw [if_pos ((picks_iff a hl).2 hp)]
        split
        · exact Or.inl ⟨_, by simp, rfl⟩
        · exact Or.inr ⟨_, rfl⟩
  unfold next
  dsimp only
  cases hlim : a.limit with
  | none => rw [hlim] at hb; exact hb
  | some n =>
    dsimp only
    rw [if_neg (by have := hl n hlim; omega)]
    rw [hlim] at hb; exact hb

/-- C79: when `sort` works with the `limit` best docids, they are chosen at the first `next()`, and later calls change nothing -/
theorem C79_best_fixed (hist : List (Op D V)) (a : SortArgs D) (w : Wild D) (es : List (Event D V)) (hl : ∀ n, a.limit = some n → 1 ≤ n)
    (hp : PicksBest a) :
    (trace hist (.start a) (.next w :: es)).map (·.2) = (List.range (nexts es + 1)).map
      (expected ((run hist).sort a.useLazy a.useNbest a.docids a.reverse a.limit)) := by
  rw [trace, List.range_succ_eq_map, List.map_cons, List.map_cons, List.map_map]
  have hf := next_start (run hist) w a
  have hdone : ∀ (r : Except PyErr (List D)), (∀ i, expected r (i + 1) = .stop) →
      (trace hist (.done : Gen D V) es).map (·.2) = (List.range (nexts es)).map (expected r ∘ Nat.succ) := by
    intro r hr
    have h1 : (trace hist (.values [] : Gen D V) es).map (·.2) = (trace hist (.done : Gen D V) es).map (·.2) := by
      clear hr
      generalize hist = h
      induction es generalizing h with
      | nil => rfl
      | cons e es ih =>
        cases e with
        | call op => exact ih _
        | next w => rfl
    rw [← h1, trace_values]
    apply List.map_congr_left
    intro i _
    rw [Function.comp, hr]
    simp [expected]
  cases hs : (run hist).sort a.useLazy a.useNbest a.docids a.reverse a.limit with
  | error e =>
    rw [hs] at hf
    have hf : next (run hist) w (.start a) = (.raised e, .done) := hf
    rw [hf]
    exact congrArg₂ _ rfl (hdone _ (fun i => by simp [expected]))
  | ok l =>
    rw [hs] at hf
    cases l with
    | nil =>
      have hf : next (run hist) w (.start a) = (.stop, .done) := hf
      rw [hf]
      exact congrArg₂ _ rfl (hdone _ (fun i => by simp [expected]))
    | cons d t =>
      obtain ⟨g, h1, h2, h3⟩ := hf
      have hg : g = .values t := by
        rcases next_picks (run hist) w a hl hp with ⟨o, ho, h⟩ | ⟨l, h⟩ <;> rw [h1] at h
        · exact absurd (Prod.mk.inj h).1.symm (ho d)
        · cases l with
          | nil => cases h
          | cons e r =>
            have := (Prod.mk.inj h).2
            subst this
            exact congrArg _ h3
      rw [h1, hg]
      refine congrArg₂ _ rfl ((trace_values hist es t).trans ?_)
      apply List.map_congr_left
      intro i _
      simp [expected]

/-- C79: in the other strategies but one (no `clear`), every docid is given once at most, is indexed when it is given, and is given if
it is indexed all the time and the generator ends before its limit.  They come in the order of the values at the first `next()`, with
`-1` for those that had none.  Missing: the n-best strategy and the walk through the index, and `clear` (`C79_fails`). -/
theorem C79_indexed_partial (hist : List (Op D V)) (a : SortArgs D) (w : Wild D) (es : List (Event D V))
    (hl : ∀ n, a.limit = some n → 1 ≤ n) (hp : ¬ PicksBest a) (hw : ¬ WalksIndex (current hist) a) (hcl : Op.clear ∉ calls es) :
    let t := trace hist (.start a) (.next w :: es)
    let key := fun d => (current hist d).getD PyValue.negOne
    (yields t).Nodup ∧ (∀ x d, (x, Out.value d) ∈ t → (current x d).isSome) ∧
    (yields t).Pairwise (fun x y => if a.reverse then key y ≤ key x else key x ≤ key y) ∧
    (Sortable (current hist) a.docids → Ended t → (∀ n, a.limit = some n → ((yields t).length : Int) < n) → ∀ d ∈ a.docids,
      (∀ ops, ops <+: calls es → (current (hist ++ ops) d).isSome) → d ∈ yields t) := by
  dsimp only
  obtain ⟨-, hr⟩ := run_spec hist
  set getValue := fun d => ((run hist).rev.get? d).getD (PyValue.negOne : V) with hgv
  have hkey : ∀ d, (current hist d).getD (PyValue.negOne : V) = getValue d := by intro d; rw [hgv, ← hr]
  set S := (SMap.keys (SSet.ofList a.docids)).insertionSort (fun x y => keyLe getValue a.reverse x y = true) with hS
  have hmem : ∀ d, d ∈ S ↔ d ∈ a.docids := by
    intro d
    rw [hS, List.mem_insertionSort, mem_ofList]
  have hnd : S.Nodup := (List.perm_insertionSort _ _).nodup_iff.2 (SMap.keys_nodup _)
  have hsorted : S.Pairwise (fun x y => if a.reverse then getValue y ≤ getValue x else getValue x ≤ getValue y) := by
    have hst := insertionSort_stable (keyLe getValue a.reverse)
      (by intro x y; unfold keyLe; cases a.reverse <;> simp [le_total])
      (by
        intro x y z; unfold keyLe
        cases a.reverse
        · simpa using fun h1 h2 => le_trans h1 h2
        · simpa using fun h1 h2 => le_trans h2 h1)
      (SMap.keys_sorted (SSet.ofList a.docids))
    refine hst.imp ?_
    intro x y h
    have h := h.1
    unfold keyLe at h
    cases hrev : a.reverse
    · rw [hrev] at h; simpa using h
    · rw [hrev] at h; simpa using h
  have hfirst : (∃ o, (∀ d, o ≠ .value d) ∧ next (run hist) w (.start a) = (o, .done) ∧
        (Sortable (current hist) a.docids → ∀ d ∈ a.docids, (current hist d).isSome → False)) ∨
      next (run hist) w (.start a) = nextScan (run hist).rev (a.limit.map Int.toNat) 0 none S := by
    have hstart : next (run hist) w (.start a) = beginSort (run hist) a (a.limit.map Int.toNat) := by
      unfold next
      dsimp only
      cases hlim : a.limit with
      | none => rfl
      | some n =>
        dsimp only
        rw [if_neg (by have := hl n hlim; omega)]; rfl
    rw [hstart]
    unfold beginSort
    have hempty : (run hist).numDocs = 0 ∨ SMap.isEmpty (SSet.ofList a.docids) = true →
        ∀ d ∈ a.docids, (current hist d).isSome → False := by
      intro hx d hd hsome
      have hl := listing_nil_of (run_spec hist).1 hx
      have : d ∈ listing (run hist) (SSet.ofList a.docids) := by
        rw [mem_listing, mem_ofList, hr]
        exact ⟨hd, Option.isSome_iff_exists.1 hsome⟩
      rw [hl] at this
      cases this
    by_cases h0 : (run hist).numDocs = 0
    · rw [if_pos h0]; exact Or.inl ⟨_, by simp, rfl, fun _ => hempty (Or.inl h0)⟩
    rw [if_neg h0]
    dsimp only
    by_cases h1 : SMap.isEmpty (SSet.ofList a.docids) = true
    · rw [if_pos h1]; exact Or.inl ⟨_, by simp, rfl, fun _ => hempty (Or.inr h1)⟩
    rw [if_neg h1, if_neg (by rw [picks_iff a hl]; exact hp), if_neg (by
      rw [Bool.and_eq_true]
      intro h2
      exact hw ((walks_iff hist a).1 ⟨by simpa using h2.2, h2.1⟩))]
    by_cases hk : keysOk ((SMap.keys (SSet.ofList a.docids)).map getValue) = true
    · rw [if_pos hk]; exact Or.inr rfl
    · rw [if_neg hk]
      refine Or.inl ⟨_, by simp, rfl, fun hsort => ?_⟩
      exact absurd (sortable_facts hr hsort).1 hk
  rw [trace]
  simp only [hkey]
  rcases hfirst with ⟨o, h1, h2, h3⟩ | h1
  · rw [h2]
    have hy := yields_stops (trace_done hist es (D := D) (V := V))
    have hy' : yields ((hist, o) :: trace hist (.done : Gen D V) es) = [] := by
      cases o with
      | value d => exact absurd rfl (h1 d)
      | stop => rw [yields, hy]
      | raised e => rw [yields, hy]
    dsimp only
    rw [hy']
    refine ⟨by simp, ?_, by simp, ?_⟩
    · intro x d hx
      rcases List.mem_cons.1 hx with hx | hx
      · exact absurd (Prod.mk.inj hx).2.symm (h1 d)
      · have := trace_done hist es _ hx; cases this
    · intro hsort _ _ d hd hx
      exact (h3 hsort d hd (by simpa using hx [] (by simp))).elim
  · rw [h1]
    rcases nextScan_spec (run hist).rev (a.limit.map Int.toNat) 0 none S with ⟨h2, h3⟩ | ⟨d, t, r, h2, h3, h4, q, h5, h6⟩
    · rw [h3]
      have hy := yields_stops (trace_done hist es (D := D) (V := V))
      dsimp only
      rw [yields, hy]
      refine ⟨by simp, ?_, by simp, ?_⟩
      · intro x d hx
        rcases List.mem_cons.1 hx with hx | hx
        · cases hx
        · have := trace_done hist es _ hx; cases this
      · intro _ _ _ d hd hx
        have h6 := hx [] (by simp)
        rw [List.append_nil, ← hr] at h6
        rw [List.filter_eq_nil_iff] at h2
        exact absurd h6 (h2 d ((hmem d).2 hd))
    · rw [h3]
      dsimp only
      obtain ⟨i1, i2, i3⟩ := trace_scan hist es hcl r (a.limit.map Int.toNat) (0 + 1)
      have hd : (run hist).rev.contains d = true := by
        have : d ∈ S.filter (run hist).rev.contains := by rw [h2]; simp
        exact (List.mem_filter.1 this).2
      rw [yields]
      have hsub : (d :: yields (trace hist (.scan r (a.limit.map Int.toNat) (0 + 1) none) es)).Sublist S := by
        rw [h5]
        exact (List.Sublist.cons_cons d i1).trans (List.sublist_append_right q _)
      refine ⟨hnd.sublist hsub, ?_, hsorted.sublist hsub, ?_⟩
      · intro x y hx
        rcases List.mem_cons.1 hx with hx | hx
        · cases hx
          rw [← hr]; exact hd
        · exact i2 x y hx
      · rintro - ⟨x, hx⟩ hlen y hy hxx
        have he : Ended (trace hist (.scan r (a.limit.map Int.toNat) (0 + 1) none) es) := by
          rcases List.mem_cons.1 hx with hx | hx
          · cases hx
          · exact ⟨x, hx⟩
        have hyS := (hmem y).2 hy
        rw [h5] at hyS
        rcases List.mem_append.1 hyS with hyq | hyr
        · have h7 := hxx [] (by simp)
          rw [List.append_nil, ← hr] at h7
          have h8 := h6 y hyq
          have h9 : (run hist).rev.contains y = true := h7
          rw [h8] at h9; cases h9
        · rcases List.mem_cons.1 hyr with rfl | hyr
          · simp
          · rcases i3 y hyr hxx he with h7 | ⟨k, hk, hle⟩
            · simp [h7]
            · cases hlim : a.limit with
              | none => rw [hlim] at hk; cases hk
              | some n =>
                rw [hlim] at hk hle
                have := hlen n hlim
                rw [hlim] at this
                rw [List.length_cons] at this
                simp only [Option.map_some, Option.some.injEq] at hk
                omega

/-- calls for the examples -/
def exIndexAt (d : Nat) (i : Int) : Op Nat ExV := .index d (toLex (1, i))

/-- `next()` with an iteration that stops at once if the keys of its BTree have changed -/
def exNext : Event Nat ExV := .next ⟨[], none⟩

/-- three documents, two with the same value -/
def exThree : List (Op Nat ExV) := [exIndexAt 1 5, exIndexAt 2 5, exIndexAt 3 9]

/-- a change between two calls of `next()`, then the generator runs to its end -/
def exBetween (op : Op Nat ExV) : List (Event Nat ExV) := [.call op, exNext, exNext, exNext, exNext]

theorem exThree_same : SameValues exThree (exBetween (exIndexAt 1 9)) := by
  intro ops hops v
  have h1 : ∀ d, current exThree d = if d = 3 then some (toLex (1, 9)) else if d = 2 then some (toLex (1, 5)) else
      if d = 1 then some (toLex (1, 5)) else none := fun d => rfl
  have h2 : ∀ d, current (exThree ++ [exIndexAt 1 9]) d = if d = 1 then some (toLex (1, 9)) else if d = 3 then some (toLex (1, 9)) else
      if d = 2 then some (toLex (1, 5)) else if d = 1 then some (toLex (1, 5)) else none := fun d => rfl
  have hc : calls (exBetween (exIndexAt 1 9)) = [exIndexAt 1 9] := rfl
  rw [hc, List.prefix_cons_iff] at hops
  rcases hops with rfl | ⟨t, rfl, ht⟩
  · rw [List.append_nil]
  · rw [List.prefix_nil.1 ht]
    constructor
    · rintro ⟨d, hd⟩
      rw [h2] at hd
      split_ifs at hd
      · exact ⟨3, by rw [h1, ← hd]; rfl⟩
      · exact ⟨3, by rw [h1, ← hd]; rfl⟩
      · exact ⟨2, by rw [h1, ← hd]; rfl⟩
    · rintro ⟨d, hd⟩
      rw [h1] at hd
      split_ifs at hd
      · exact ⟨3, by rw [h2, ← hd]; rfl⟩
      · exact ⟨2, by rw [h2, ← hd]; rfl⟩
      · exact ⟨2, by rw [h2, ← hd]; rfl⟩

/-- C79 fails: with `limit` much smaller than the number of docids, a docid unindexed meanwhile is still yielded; after `clear()`,
the sort through a list yields the docids of the cleared index; the walk through the index yields a docid twice when its value
changes to a larger one that another document has. -/
theorem C79_fails :
    (∃ x, (x, Out.value 2) ∈ trace exThree (.start ⟨false, false, [1, 2, 3, 4, 5, 6, 7, 8, 9], false, some 2⟩)
        (exNext :: exBetween (.unindex 2)) ∧ current x 2 = none) ∧
    (yields (trace exThree (.start ⟨false, false, [1, 2, 3], false, none⟩) (exNext :: exBetween .clear)) = [1, 2, 3] ∧
      ∀ d, current (exThree ++ [.clear]) d = none) ∧
    (SameValues exThree (exBetween (exIndexAt 1 9)) ∧
      yields (trace exThree (.start ⟨true, false, [1, 2, 3], false, none⟩) (exNext :: exBetween (exIndexAt 1 9))) = [1, 2, 1, 3]) := by
  refine ⟨⟨exThree ++ [.unindex 2], ?_, by decide +kernel⟩, ⟨by decide +kernel, fun d => rfl⟩, ?_, by decide +kernel⟩
  · have h : ((trace exThree (.start ⟨false, false, [1, 2, 3, 4, 5, 6, 7, 8, 9], false, some 2⟩)
        (exNext :: exBetween (.unindex 2)))[1]?).map (·.2) = some (.value 2) := by decide +kernel
    rw [Option.map_eq_some_iff] at h
    obtain ⟨⟨x, o⟩, h1, h2⟩ := h
    have hx : x = exThree ++ [.unindex 2] := by
      have h3 : (trace exThree (.start ⟨false, false, [1, 2, 3, 4, 5, 6, 7, 8, 9], false, some 2⟩)
        (exNext :: exBetween (.unindex 2)))[1]?.map (·.1) = some (exThree ++ [.unindex 2]) := rfl
      rw [h1] at h3
      exact Option.some.inj h3
    cases h2
    rw [← hx]
    exact List.mem_of_getElem? h1
  · exact exThree_same

/-! cases that meet the hypotheses -/

example : Sortable (current exThree) [3, 2, 1] := ⟨1, by decide⟩

/-- `C79_steady_partial`, in a walk through the index: the set of values stays the same -/
example : PicksBest (⟨true, false, [3, 2, 1], false, none⟩ : SortArgs Nat) ∨
    ¬ WalksIndex (current exThree) ⟨true, false, [3, 2, 1], false, none⟩ ∨ SameValues exThree (exBetween (exIndexAt 1 9)) :=
  Or.inr (Or.inr exThree_same)

/-- documents 2 and 3 do not change -/
example : Unchanged exThree (exBetween (exIndexAt 1 9)) 2 ∧ ¬ Unchanged exThree (exBetween (exIndexAt 1 9)) 1 := by
  constructor
  · intro ops hops
    have hc : calls (exBetween (exIndexAt 1 9)) = [exIndexAt 1 9] := rfl
    rw [hc, List.prefix_cons_iff] at hops
    rcases hops with rfl | ⟨t, rfl, ht⟩
    · rw [List.append_nil]
    · rw [List.prefix_nil.1 ht]; rfl
  · intro h
    have := h [exIndexAt 1 9] (List.prefix_refl _)
    revert this
    decide +kernel

example : Ended (trace exThree (.start ⟨true, false, [3, 2, 1], false, none⟩) (exNext :: exBetween (exIndexAt 1 9))) := by
  refine ⟨exThree ++ [exIndexAt 1 9], List.mem_of_getElem? (i := 4) ?_⟩
  rfl

/-- `C79_best_fixed` -/
example : PicksBest (⟨false, false, [1, 2, 3, 4, 5, 6, 7, 8, 9], false, some 2⟩ : SortArgs Nat) :=
  Or.inr ⟨2, 9, rfl, ⟨[1, 2, 3, 4, 5, 6, 7, 8, 9], by decide, by simp, rfl⟩, by decide⟩

/-- `C79_indexed_partial`: document 2 goes away before its turn -/
example : ¬ PicksBest (⟨false, false, [1, 2, 3], true, some 3⟩ : SortArgs Nat) ∧
    ¬ WalksIndex (current exThree) ⟨false, false, [1, 2, 3], true, some 3⟩ := by
  constructor
  · rw [← picks_iff _ (by simp)]; decide +kernel
  · intro h; cases h.1

example : yields (trace exThree (.start ⟨false, false, [1, 2, 3], true, some 3⟩) (exNext :: exBetween (.unindex 2))) = [3, 1] := by
  decide +kernel

end Verif
