import Verif.Proofs.NBest
import Verif.Spec.NBest

/-! # C25, C26, C27: `NBest` -/

set_option autoImplicit false

namespace Verif

open NBest Spec

variable {ι S : Type} [LinearOrder S]

/-- **C25.** Adding any sequence to a new `NBest(N)` succeeds and `getbest()` is the first `N` of
the sequence stably sorted by decreasing score. -/
theorem C25_nbest_exact (N : Nat) (hN : 1 ≤ N) (xs : List (ι × S)) :
    ∃ b0 b : NBest ι S, NBest.new (N : Int) = .ok b0 ∧ b0.addmany xs = .ok b ∧
      ∃ L, SortedByDecreasingScore xs L ∧ b.getbest = L.take N := by
  have h0 : Inv ({ capacity := N, scores := [], items := [] } : NBest ι S) := init_inv hN
  obtain ⟨b, hb, hi, hc, hp⟩ := addmany_ok h0 xs
  refine ⟨_, b, ?_, hb, (allAsc xs).reverse, ⟨?_, ?_, ?_⟩, ?_⟩
  · unfold NBest.new
    rw [if_neg (by omega)]
    simp
  · exact (List.reverse_perm _).trans (allAsc_perm xs)
  · rw [List.pairwise_reverse]; exact allAsc_sorted xs
  · exact allAsc_stable xs
  · have h1 : b.pairs = (allAsc xs).drop (xs.length - N) := by
      rw [hp]; exact foldl_addPairs N xs
    show b.pairs.reverse = _
    rw [h1, List.reverse_drop, (allAsc_perm xs).length_eq]
    by_cases h : xs.length ≤ N
    · have hl : (allAsc xs).reverse.length = xs.length := by
        rw [List.length_reverse, (allAsc_perm xs).length_eq]
      rw [List.take_of_length_le (by omega), List.take_of_length_le (by omega)]
    · congr 1; omega

/-- **C25.** The sorted order is unique, so C25 determines `getbest()` completely. -/
theorem C25_order_unique (xs L M : List (ι × S)) (hL : SortedByDecreasingScore xs L)
    (hM : SortedByDecreasingScore xs M) : L = M := by
  have key : ∀ (L M : List (ι × S)), L.Pairwise (fun a b => b.2 ≤ a.2) → M.Pairwise (fun a b => b.2 ≤ a.2) →
      (∀ s : S, L.filter (fun q => decide (q.2 = s)) = M.filter (fun q => decide (q.2 = s))) → L = M := by
    intro L
    induction L with
    | nil =>
      intro M _ _ h
      cases M with
      | nil => rfl
      | cons q t => have := h q.2; simp at this
    | cons p t ih =>
      intro M hL hM h
      cases M with
      | nil => have := h p.2; simp at this
      | cons q u =>
        have h1 := List.pairwise_cons.1 hL
        have h2 := List.pairwise_cons.1 hM
        have mem1 : p ∈ (q :: u) := by
          have hp : p ∈ (p :: t).filter (fun x => decide (x.2 = p.2)) := by simp
          rw [h p.2] at hp
          exact (List.mem_filter.1 hp).1
        have mem2 : q ∈ (p :: t) := by
          have hp : q ∈ (q :: u).filter (fun x => decide (x.2 = q.2)) := by simp
          rw [← h q.2] at hp
          exact (List.mem_filter.1 hp).1
        have e : p.2 = q.2 := by
          apply le_antisymm
          · rcases List.mem_cons.1 mem1 with rfl | hm
            · exact le_refl _
            · exact h2.1 p hm
          · rcases List.mem_cons.1 mem2 with rfl | hm
            · exact le_refl _
            · exact h1.1 q hm
        have hpq : p = q := by
          have := h p.2
          rw [List.filter_cons_of_pos (by simp), List.filter_cons_of_pos (by simp [e])] at this
          exact (List.cons.inj this).1
        subst hpq
        congr 1
        apply ih u h1.2 h2.2
        intro s
        have := h s
        by_cases hs : p.2 = s
        · rw [List.filter_cons_of_pos (by simp [hs]), List.filter_cons_of_pos (by simp [hs])] at this
          exact (List.cons.inj this).2
        · rw [List.filter_cons_of_neg (by simp [hs]), List.filter_cons_of_neg (by simp [hs])] at this
          exact this
  exact key L M hL.decreasing hM.decreasing (fun s => (hL.stable s).trans (hM.stable s).symm)

/-- non-vacuity of C25: ties, overflow and order of arrival -/
example : ((run 2 [.addmany [('a', 3), ('b', 5), ('c', 3), ('d', 5)]] : NBest Char Nat).getbest)
    = [('b', 5), ('d', 5)] := by decide

/-- **C26.** The size never exceeds the capacity, which never changes. -/
theorem C26_size (N : Nat) (hN : 1 ≤ N) (ops : List (Op ι S)) :
    (run N ops).len ≤ N ∧ (run N ops).capacity = N := by
  have h := run_inv hN ops
  exact ⟨le_trans h.1.le (le_of_eq h.2), h.2⟩

/-- **C26.** In every reachable state `pop_smallest` on an empty object raises `IndexError`;
otherwise it returns a pair of least score and removes exactly that pair. -/
theorem C26_pop (N : Nat) (hN : 1 ≤ N) (ops : List (Op ι S)) :
    ((run N ops).len = 0 → (run N ops).popSmallest = .error .IndexError) ∧
    ((run N ops).len ≠ 0 → ∃ p b', (run N ops).popSmallest = .ok (p, b') ∧
      (∀ q ∈ (run N ops).getbest, p.2 ≤ q.2) ∧ (run N ops).getbest = b'.getbest ++ [p]) := by
  have h := (run_inv hN ops).1
  have hlen := pairs_length h
  constructor
  · intro h0
    apply pop_empty h
    rw [← List.length_eq_zero_iff]; omega
  · intro h0
    cases hp : (run N ops).pairs with
    | nil => rw [hp] at hlen; simp at hlen; omega
    | cons p A =>
      obtain ⟨b', hb, hi', hc, hp'⟩ := pop_ok h hp
      have hz := (sorted_pairs_iff _ _ h.len).2 h.sorted
      change (run N ops).pairs.Pairwise _ at hz
      rw [hp, List.pairwise_cons] at hz
      refine ⟨p, b', hb, ?_, ?_⟩
      · intro q hq
        have hq : q ∈ (run N ops).pairs := List.mem_reverse.1 hq
        rw [hp] at hq
        rcases List.mem_cons.1 hq with rfl | hq
        · exact le_refl _
        · exact hz.1 q hq
      · show (run N ops).pairs.reverse = b'.pairs.reverse ++ [p]
        rw [hp, hp']; simp

/-- **C26.** `addmany` never raises in a reachable state and equals the repeated `add`. -/
theorem C26_addmany (N : Nat) (hN : 1 ≤ N) (ops : List (Op ι S)) (l : List (ι × S)) :
    ∃ b, (run N ops).addmany l = .ok b ∧
      l.foldlM (fun b p => b.add p.1 p.2) (run N ops) = .ok b := by
  have h := (run_inv hN ops).1
  obtain ⟨b, hb, hi, hc, hp⟩ := addmany_ok h l
  refine ⟨b, hb, ?_⟩
  have key : ∀ (l : List (ι × S)) (b0 : NBest ι S), Inv b0 →
      ∃ b1, l.foldlM (fun b p => b.add p.1 p.2) b0 = .ok b1 ∧ Inv b1 ∧ b1.capacity = b0.capacity ∧
        b1.pairs = l.foldl (addPairs b0.capacity) b0.pairs := by
    intro l
    induction l with
    | nil => intro b0 h0; exact ⟨b0, rfl, h0, rfl, rfl⟩
    | cons p t ih =>
      intro b0 h0
      obtain ⟨b1, e1, i1, c1, p1⟩ := add_ok h0 p.1 p.2
      obtain ⟨b2, e2, i2, c2, p2⟩ := ih b1 i1
      refine ⟨b2, ?_, i2, c2.trans c1, ?_⟩
      · rw [List.foldlM_cons, e1]; exact e2
      · rw [p2, p1, c1]; rfl
  obtain ⟨b1, e1, i1, c1, p1⟩ := key l _ h
  rw [e1]
  congr 1
  apply eq_of_pairs i1.len hi.len (c1.trans hc.symm)
  rw [p1, hp]

/-- **C26.** While additions never find the object full, nothing is lost: what was popped and what
is still held is together what was added (priority-queue behaviour). -/
theorem C26_queue (N : Nat) (hN : 1 ≤ N) (ops : List (Op ι S))
    (hfit : NeverOverflows (run N ([] : List (Op ι S))) ops) :
    (popped (run N []) ops ++ (run N ops).getbest).Perm (added ops) := by
  have key : ∀ (ops : List (Op ι S)) (b : NBest ι S), Inv b → NeverOverflows b ops →
      (popped b ops ++ (ops.foldl step b).pairs).Perm (b.pairs ++ added ops) := by
    intro ops
    induction ops with
    | nil => intro b _ _; simp [popped, added]
    | cons op t ih =>
      intro b hb hf
      cases op with
      | add i s =>
        obtain ⟨b', e, hi', hc, hp⟩ := add_ok hb i s
        have hst : b.step (.add i s) = b' := by simp only [step, e]
        simp only [NeverOverflows, hst] at hf
        simp only [popped, hst, List.foldl_cons, added]
        refine (ih b' hi' hf.2).trans ?_
        rw [hp]
        unfold addPairs
        rw [if_pos (by rw [pairs_length hb]; omega)]
        refine ((insAsc_perm (i, s) b.pairs).append_right _).trans ?_
        exact List.perm_middle.symm
      | addmany l =>
        obtain ⟨b', e, hi', hc, hp⟩ := addmany_ok hb l
        have hst : b.step (.addmany l) = b' := by simp only [step, e]
        simp only [NeverOverflows, hst] at hf
        simp only [popped, hst, List.foldl_cons, added]
        refine (ih b' hi' hf.2).trans ?_
        have hl := hf.1
        rw [← pairs_length hb] at hl
        have : ∀ (l : List (ι × S)) (A : List (ι × S)), A.length + l.length ≤ b.capacity →
            (l.foldl (addPairs b.capacity) A).Perm (A ++ l) := by
          intro l
          induction l with
          | nil => intro A _; simp
          | cons q u ihu =>
            intro A hA
            rw [List.length_cons] at hA
            rw [List.foldl_cons]
            have hq : addPairs b.capacity A q = insAsc q A := by
              unfold addPairs; rw [if_pos (by omega)]
            rw [hq]
            refine (ihu _ (by rw [insAsc_length]; omega)).trans ?_
            refine ((insAsc_perm q A).append_right _).trans ?_
            exact List.perm_middle.symm
        rw [hp]
        refine ((this l _ hl).append_right _).trans ?_
        rw [List.append_assoc]
      | pop =>
        simp only [NeverOverflows] at hf
        cases hp : b.pairs with
        | nil =>
          have e := pop_empty hb hp
          have hst : b.step .pop = b := by simp only [step, e]
          rw [hst] at hf
          simp only [popped, e, List.foldl_cons, added, hst]
          have := ih b hb hf
          rw [hp] at this
          exact this
        | cons p A =>
          obtain ⟨b', e, hi', hc, hp'⟩ := pop_ok hb hp
          have hst : b.step .pop = b' := by simp only [step, e]
          rw [hst] at hf
          simp only [popped, e, List.foldl_cons, added, hst]
          have := ih b' hi' hf
          rw [hp'] at this
          exact this.cons p
  have := key ops (run N []) (run_inv hN []).1 hfit
  have e : (run N ([] : List (Op ι S))).pairs = [] := rfl
  rw [e] at this
  refine List.Perm.trans (List.Perm.append_left _ ?_) this
  exact List.reverse_perm _

/-- **C26.** The constructor rejects capacities below 1. -/
theorem C26_new (N : Int) : (NBest.new N : Except PyErr (NBest ι S)) = .error .ValueError ↔ N < 1 := by
  unfold NBest.new
  constructor
  · intro h; by_contra hc; rw [if_neg hc] at h; cases h
  · intro h; rw [if_pos h]

/-- non-vacuity of C26 -/
example : NeverOverflows (run 2 ([] : List (Op Char Nat))) [.add 'a' 3, .addmany [('b', 1)], .pop, .add 'c' 9, .pop, .pop, .pop]
    ∧ popped (run 2 []) ([.add 'a' 3, .addmany [('b', 1)], .pop, .add 'c' 9, .pop, .pop, .pop] : List (Op Char Nat))
      = [('b', 1), ('a', 3), ('c', 9)] := by
  constructor
  · refine ⟨by decide, by decide, ?_⟩
    exact ⟨by decide, trivial⟩
  · decide

/-- **C27.** Adding `m` pairs in any reachable state makes at most `m * (floor(log2 N) + 2)` score
comparisons (so one `add` makes at most `1 + floor(log2 N) + 1`). -/
theorem C27_comparisons (N : Nat) (hN : 1 ≤ N) (ops : List (Op ι S)) (l : List (ι × S)) :
    ∃ b c, (run N ops).addmanyC l = .ok (b, c) ∧ c ≤ l.length * (1 + Nat.log2 N + 1) := by
  have h := run_inv hN ops
  obtain ⟨b, c, hb, _, _, _, hc⟩ := addmanyC_ok h.1 l
  refine ⟨b, c, hb, ?_⟩
  rw [h.2] at hc
  rw [show 1 + Nat.log2 N + 1 = Nat.log2 N + 2 by omega]
  exact hc

/-- **C27.** The bound is attained for every capacity: adding to a full object a score that beats
exactly one of the scores held takes exactly `floor(log2 N) + 2` comparisons. -/
theorem C27_attained (N : Nat) (hN : 1 ≤ N) (ops : List (Op ι S)) (hfull : (run N ops).len = N) (i : ι) (x : S)
    (L : List (ι × S)) (p : ι × S) (hg : (run N ops).getbest = L ++ [p]) (hp : p.2 < x) (hL : ∀ q ∈ L, x ≤ q.2) :
    ∃ b, (run N ops).addmanyC [(i, x)] = .ok (b, 1 + Nat.log2 N + 1) := by
  obtain ⟨hi, hc⟩ := run_inv hN ops
  obtain ⟨b, c, hb, -⟩ := C27_comparisons N hN ops [(i, x)]
  refine ⟨b, ?_⟩
  rw [hb]
  generalize run N ops = B at *
  have hz : (List.zip B.items B.scores).map (·.2) = B.scores := zip_map_snd _ _ hi.len
  have hr : List.zip B.items B.scores = p :: L.reverse := by
    have : (List.zip B.items B.scores).reverse = L ++ [p] := hg
    rw [← List.reverse_reverse (List.zip B.items B.scores), this]
    simp
  rw [hr] at hz
  have hlen : B.scores.length = N := hfull
  have hs : B.scores = p.2 :: (L.reverse).map (·.2) := by rw [← hz]; rfl
  have hcmp : (bisectLeft B.scores x).2 = Nat.log2 N + 1 := by
    unfold bisectLeft
    rw [bisectLoop_one B.scores x ?_ ?_ _ _ (by omega) (le_refl _) (le_refl _), hlen]
    · intro y hy; rw [hs] at hy; simp at hy; rw [← hy]; exact hp
    · intro k y hk hy
      rw [hs] at hy
      obtain ⟨k, rfl⟩ : ∃ j, k = j + 1 := ⟨k - 1, by omega⟩
      rw [List.getElem?_cons_succ] at hy
      obtain ⟨q, hq, rfl⟩ := List.mem_map.1 (List.mem_of_getElem? hy)
      exact hL q (List.mem_reverse.1 hq)
  have hstep : loopStep B.capacity { scores := B.scores, items := B.items, n := B.scores.length, cmps := 0 } (i, x)
      = .ok { scores := (B.scores.insertIdx (bisectLeft B.scores x).1 x).drop 1,
              items := (B.items.insertIdx (bisectLeft B.scores x).1 i).drop 1, n := B.scores.length,
              cmps := 0 + 1 + (bisectLeft B.scores x).2 } := by
    unfold loopStep
    simp only [hc, hlen, ge_iff_le, le_refl, if_true]
    split
    · rename_i e; rw [hs] at e; cases e
    · rename_i e
      rw [hs] at e
      cases e
      simp [not_le.2 hp, bind, Except.bind, pure, Except.pure]
  unfold addmanyC at hb
  rw [List.foldlM_cons, hstep] at hb
  simp only [List.foldlM_nil, bind, Except.bind, pure, Except.pure] at hb
  split at hb
  · cases hb
    rw [hcmp]
    congr 2
  · cases hb

/-- **C27.** Pairs that do not beat the lowest score held by a full object take one comparison each
and change nothing. -/
theorem C27_refused (N : Nat) (hN : 1 ≤ N) (ops : List (Op ι S)) (hfull : (run N ops).len = N) (l : List (ι × S))
    (h : ∀ p ∈ l, ∀ q ∈ (run N ops).getbest, p.2 ≤ q.2) :
    (run N ops).addmanyC l = .ok (run N ops, l.length) := by
  obtain ⟨hi, hc⟩ := run_inv hN ops
  generalize run N ops = B at *
  have hz : (List.zip B.items B.scores).map (·.2) = B.scores := zip_map_snd _ _ hi.len
  have hlen : B.scores.length = N := hfull
  have hmem : ∀ s ∈ B.scores, ∃ q ∈ B.getbest, q.2 = s := by
    intro s hs
    rw [← hz] at hs
    obtain ⟨q, hq, rfl⟩ := List.mem_map.1 hs
    exact ⟨q, List.mem_reverse.2 hq, rfl⟩
  have key : ∀ (l : List (ι × S)) (k : Nat), (∀ p ∈ l, ∀ q ∈ B.getbest, p.2 ≤ q.2) →
      l.foldlM (loopStep B.capacity) { scores := B.scores, items := B.items, n := B.scores.length, cmps := k }
        = .ok { scores := B.scores, items := B.items, n := B.scores.length, cmps := k + l.length } := by
    intro l
    induction l with
    | nil => intro k _; rfl
    | cons p t ih =>
      intro k h
      have hstep : loopStep B.capacity { scores := B.scores, items := B.items, n := B.scores.length, cmps := k } p
          = .ok { scores := B.scores, items := B.items, n := B.scores.length, cmps := k + 1 } := by
        unfold loopStep
        simp only [hc, hlen, ge_iff_le, le_refl, if_true]
        split
        · rename_i hs; rw [hs] at hlen; simp at hlen; omega
        · rename_i s t hs
          obtain ⟨q, hq, rfl⟩ := hmem s (by rw [hs]; simp)
          simp [h p (by simp) q hq, bind, Except.bind, pure, Except.pure]
      rw [List.foldlM_cons, hstep]
      show List.foldlM _ _ t = _
      rw [ih (k + 1) (fun p hp => h p (by simp [hp]))]
      rw [List.length_cons, Nat.add_assoc, Nat.add_comm 1]
  unfold addmanyC
  rw [key l 0 h]
  simp [bind, Except.bind, pure, Except.pure]

/-- non-vacuity of C27: a full object of capacity 4, a score beating one score, and scores beating none -/
example : (run 4 [.addmany [('a', 1), ('b', 3), ('c', 4), ('d', 6)]] : NBest Char Nat).len = 4
    ∧ ((run 4 [.addmany [('a', 1), ('b', 3), ('c', 4), ('d', 6)]] : NBest Char Nat).addmanyC [('e', 2)]).map (·.2) = .ok 4
    ∧ ((run 4 [.addmany [('a', 1), ('b', 3), ('c', 4), ('d', 6)]] : NBest Char Nat).addmanyC [('e', 1), ('f', 0)]).map (·.2) = .ok 2 := by
  decide

/-- the module's documented worst case `M * log2(N)` is not met: for `N = 2` three adds take more
than `3 * 1` comparisons -/
theorem C27_documented_bound_fails :
    ((run 2 ([] : List (Op Char Nat))).addmanyC [('a', 1), ('b', 3), ('c', 2)]).map (·.2) = .ok 4
      ∧ ¬ 4 ≤ 3 * Nat.log2 2 := by
  decide

end Verif
