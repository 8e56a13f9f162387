import Verif.Proofs.Cleared
import Verif.Proofs.RejectedText
import Verif.Props.TextScores
import Verif.Props.TxnText

/-!
# C53, C54, C55, C69 for histories with `clear`

An OkapiIndex does not reset its total document length when it is cleared (C55_okapi_fails).  This is all that is wrong with it, and
it is wrong by the lengths of the documents that were removed by `clear`.
-/

set_option autoImplicit false

namespace Verif

open Spec Text

variable {D R : Type} [LinearOrder D]

/-! ## C54 -/

/-- a history for the examples: an index is cleared twice -/
def exCleared : List (Text.Op Nat) :=
  [.index 1 (.str ['d', 'o', 'g', ' ', 'c', 'a', 't']), .clear, .index 2 (.str ['c', 'a', 't']), .index 2 (.str ['d', 'o', 'g']), .clear,
   .index 3 (.str ['b', 'i', 'g', ' ', 'd', 'o', 'g'])]

theorem exCleared_small : SmallLexicon exPipeline exCleared := by
  refine ⟨by intro n hn; exact absurd hn (by simp [lexCalls, exCleared]), ?_⟩
  have h : ∀ p ∈ (lexAfter exPipeline exCleared).wids.items, p.2 < 2 ^ 28 := by decide +kernel
  intro w
  unfold Lexicon.getWid
  cases hg : (lexAfter exPipeline exCleared).wids.get? w with
  | none => simp
  | some n => exact h (w, n) ((SMap.get?_eq_some_iff _ _ _).1 hg)

/-- the total length without a condition on `clear` -/
theorem total_leftover {K : Kind D R} (hK : Lawful K) (ht : K.hasTotal = true) (hw : WeightIsLength K) (pipeline : List Element)
    (ops : List (Text.Op D)) (hs : SmallLexicon pipeline ops) (he : LengthsExact K.arith pipeline ops) (s : TI D R)
    (hr : run K pipeline ops = .ok s) :
    ∃ l n, Listing pipeline ops l ∧ Leftover pipeline ops n ∧ lens K s.ix = wordTotal l ∧ s.ix.total = lens K s.ix + n := by
  have hlist : ∀ (ops : List (Text.Op D)) (s : TI D R), LengthsExact K.arith pipeline ops → Text.Inv K s.ix (docWids pipeline ops) →
      ∃ l, Listing pipeline ops l ∧ lens K s.ix = wordTotal l := by
    intro ops s he hi
    refine ⟨s.ix.docweight.items.map (fun p => (p.1, (docWords pipeline ops p.1).getD [])), ⟨?_, ?_⟩, ?_⟩
    · rw [List.map_map]
      exact SMap.keys_nodup s.ix.docweight
    · intro d ws
      rw [List.mem_map]
      constructor
      · rintro ⟨p, hp, e⟩
        obtain ⟨ws', hws, -⟩ := lens_nonneg hw he hi p hp
        cases e
        rw [hws]; rfl
      · intro hws
        have hget := hi.docweight d
        unfold docWids at hget
        rw [hws, Option.map_some, Option.map_some] at hget
        refine ⟨_, (SMap.get?_eq_some_iff _ _ _).1 hget, ?_⟩
        simp only [hws, Option.getD_some]
    · unfold lens sumVals wordTotal
      have : ∀ l : List (D × R), (∀ p ∈ l, ∃ ws, docWords pipeline ops p.1 = some ws ∧ K.arith.toInt p.2 = ws.length) →
          (l.map (fun p => K.arith.toInt p.2)).sum =
          (((l.map (fun p => (p.1, (docWords pipeline ops p.1).getD []))).map (fun p => p.2.length)).sum : Nat) := by
        intro l
        induction l with
        | nil => intro _; rfl
        | cons p l ih =>
          intro h
          obtain ⟨ws, hws, e⟩ := h p (by simp)
          rw [List.map_cons, List.sum_cons, ih (fun q hq => h q (by simp [hq])), e]
          simp [hws]
      exact this _ (lens_nonneg hw he hi)
  have htot : ∃ n, Leftover pipeline ops n ∧ s.ix.total = lens K s.ix + n := by
    induction ops using List.reverseRecOn generalizing s with
    | nil => cases hr; exact ⟨0, .start, rfl⟩
    | append_singleton ops op ih =>
      obtain ⟨s0, e, hl, hi⟩ := run_ok hK pipeline ops (small_prefix hs)
      have he' : LengthsExact K.arith pipeline ops := fun d t h => he d t (List.mem_append_left _ h)
      obtain ⟨n, hn, hsum⟩ := ih (small_prefix hs) he' s0 e
      have hstep : step K pipeline s0 op = .ok s := by rw [run_snoc, e] at hr; exact hr
      by_cases hc : op = .clear
      · subst hc
        cases hstep
        obtain ⟨l, hl1, hl2⟩ := hlist ops s0 he' hi
        refine ⟨n + wordTotal l, .clear hn hl1, ?_⟩
        show s0.ix.total = (0 : Int) + ((n + wordTotal l : Nat) : Int)
        rw [hsum, hl2]; push_cast; omega
      · refine ⟨n, .other hn hc, ?_⟩
        have hd := total_step hK ht hw pipeline ops op hs he s0 s hl hi hstep hc
        omega
  obtain ⟨n, hn, ht'⟩ := htot
  obtain ⟨s', e, -, hi⟩ := run_ok hK pipeline ops hs
  obtain rfl : s' = s := Except.ok.inj (e.symm.trans hr)
  obtain ⟨l, hl1, hl2⟩ := hlist ops s' he hi
  exact ⟨l, n, hl1, hn, hl2, ht'⟩

/-- C54 for all histories: the total length an OkapiIndex uses for scoring is the sum of the lengths of the indexed documents and of
those removed by `clear` -/
theorem C54_cleared (A : Arith R) (P : Bm25 R) (hA : CountsCompare A) (pipeline : List Element) (ops : List (Text.Op D))
    (hs : SmallLexicon pipeline ops) (he : LengthsExact A pipeline ops) (s : TI D R) (hr : run (okapi A P) pipeline ops = .ok s) :
    ∃ l n, Listing pipeline ops l ∧ Leftover pipeline ops n ∧ s.ix.total = (wordTotal l + n : Nat) := by
  obtain ⟨l, n, h1, h2, h3, h4⟩ := total_leftover (okapi_lawful A P hA) rfl (okapi_weight A P) pipeline ops hs he s hr
  refine ⟨l, n, h1, h2, ?_⟩
  rw [h4, h3]; push_cast; rfl

example : (run exOkapi exPipeline exCleared).map (fun s => s.ix.total) = .ok (2 + (2 + 1)) := by decide

/-! ## C53 -/

omit [LinearOrder D] in
theorem listing_total [DecidableEq D] {pipeline : List Element} {ops : List (Text.Op D)} {l l' : List (D × List Word)}
    (h : Listing pipeline ops l) (h' : Listing pipeline ops l') : wordTotal l = wordTotal l' := by
  have hp : l.Perm l' := (List.perm_ext_iff_of_nodup (List.Nodup.of_map _ h.1) (List.Nodup.of_map _ h'.1)).2 (by
    rintro ⟨d, ws⟩
    rw [h.2, h'.2])
  exact (hp.map _).sum_eq

/-- the number of words removed by `clear` is determined by the history -/
theorem leftover_unique {pipeline : List Element} {ops : List (Text.Op D)} {n m : Nat} (h : Leftover pipeline ops n)
    (h' : Leftover pipeline ops m) : n = m := by
  induction ops using List.reverseRecOn generalizing n m with
  | nil =>
    have : ∀ {ops : List (Text.Op D)} {n : Nat}, Leftover pipeline ops n → ops = [] → n = 0 := by
      intro ops n h
      cases h with
      | start => intro _; rfl
      | clear _ _ => intro e; simp at e
      | other _ _ => intro e; simp at e
    rw [this h rfl, this h' rfl]
  | append_singleton ops op ih =>
    have : ∀ {ops' : List (Text.Op D)} {n : Nat}, Leftover pipeline ops' n → ops' = ops ++ [op] →
        (op = .clear ∧ ∃ k l, Leftover pipeline ops k ∧ Listing pipeline ops l ∧ n = k + wordTotal l) ∨
        (op ≠ .clear ∧ Leftover pipeline ops n) := by
      intro ops' n h
      cases h with
      | start => intro e; simp at e
      | clear h0 hl =>
        intro e
        obtain ⟨e1, e2⟩ := List.append_inj' e rfl
        subst e1
        exact .inl ⟨(List.cons.inj e2).1.symm, _, _, h0, hl, rfl⟩
      | other h0 hne =>
        intro e
        obtain ⟨e1, e2⟩ := List.append_inj' e rfl
        subst e1
        exact .inr ⟨(List.cons.inj e2).1 ▸ hne, h0⟩
    rcases this h rfl with ⟨e1, k, l, hk, hl, rfl⟩ | ⟨e1, h1⟩ <;> rcases this h' rfl with ⟨e2, k', l', hk', hl', rfl⟩ | ⟨e2, h2⟩
    · rw [ih hk hk', listing_total hl hl']
    · exact absurd e1 e2
    · exact absurd e2 e1
    · exact ih h1 h2

/-- C53 for histories with `clear`, also for OkapiIndex: with equal lexicons, all answers, scores included, depend only on the texts
currently assigned to the docids and, for OkapiIndex, on the number of words removed by `clear`.  (Missing: that they depend only on
the texts, which is false, `C53_okapi_fails`.) -/
theorem C53_cleared_partial {A : Arith R} {Pos : R → Prop} {K : Kind D R} (hA : Positive A Pos) (hK : Ranked A Pos K)
    (pipeline : List Element) (ops ops' : List (Text.Op D)) (hs : SmallLexicon pipeline ops) (hs' : SmallLexicon pipeline ops')
    (hlex : lexAfter pipeline ops = lexAfter pipeline ops') (hcur : ∀ d, currentText ops d = currentText ops' d)
    (he : K.hasTotal = true → (∃ n, Leftover pipeline ops n ∧ Leftover pipeline ops' n) ∧
      ∀ d t, Text.Op.index d t ∈ ops ++ ops' → Spec.Txn.CountsExact A pipeline t)
    (s s' : TI D R) (hr : run K pipeline ops = .ok s) (hr' : run K pipeline ops' = .ok s') : SameAnswers K pipeline s s' := by
  have ha := hK.arith
  subst ha
  have hL := hK.lawful hA
  obtain ⟨t, e, hl, hi⟩ := run_ok hL pipeline ops hs
  obtain rfl : t = s := Except.ok.inj (e.symm.trans hr)
  obtain ⟨t', e', hl', hi'⟩ := run_ok hL pipeline ops' hs'
  obtain rfl : t' = s' := Except.ok.inj (e'.symm.trans hr')
  have hW : docWids pipeline ops' = docWids pipeline ops := by
    funext d
    unfold docWids docWords
    rw [hcur d, hlex]
  rw [hW] at hi'
  have hdw : t.ix.docwords = t'.ix.docwords := by
    ext1 d
    rw [hi.docwords, hi'.docwords]
  have hwt : t.ix.docweight = t'.ix.docweight := by
    ext1 d
    rw [hi.docweight, hi'.docweight]
  refine AlikeTI.answers hK.reads ⟨by rw [hl, hl', hlex], ?_⟩ pipeline
  refine info_alike hi.toP.info hi'.toP.info (fun _ _ => NearW.refl _ _) (fun _ _ => NearW.refl _ _) ?_ hdw hwt ?_ hi.wordCount
    hi'.wordCount ?_
  · intro d ws hws
    unfold docWids docWords at hws
    cases hc : currentText ops d with
    | none => rw [hc] at hws; cases hws
    | some tx =>
      obtain ⟨d', hd'⟩ := source_seen (pipeline := pipeline) hc
      rw [hc] at hws
      cases hws
      exact hK.counted.exact (pipeline := pipeline) (t := tx) (by simp)
        (fun ht => (he ht).2 d' tx (List.mem_append_left _ hd'))
  · rw [hi.documentCount, hi'.documentCount, hdw]
  · cases ht : K.hasTotal with
    | false =>
      rw [HTI.run_total_zero hL ht pipeline ops hs _ hr, HTI.run_total_zero hL ht pipeline ops' hs' _ hr']
    | true =>
      obtain ⟨⟨n, hn, hn'⟩, h3⟩ := he ht
      have hW : WeightIsLength K := fun wids => (hK.counted ht wids).2
      obtain ⟨-, m, -, hm, -, h4⟩ := total_leftover hL ht hW pipeline ops hs (fun d t h => (h3 d t (List.mem_append_left _ h)).2) _ hr
      obtain ⟨-, m', -, hm', -, h5⟩ := total_leftover hL ht hW pipeline ops' hs' (fun d t h => (h3 d t (List.mem_append_right _ h)).2) _ hr'
      rw [h4, h5, leftover_unique hm hn, leftover_unique hm' hn']
      unfold lens
      rw [hwt]

example : ∃ n, Leftover exPipeline exCleared n ∧ Leftover exPipeline (exCleared ++ [.unindex 5]) n := by
  have hs := exCleared_small
  obtain ⟨s, e, -⟩ := run_ok exOkapi_lawful exPipeline exCleared hs
  have : LengthsExact exArith exPipeline exCleared := by
    intro d t h
    simp only [exCleared, List.mem_cons, List.not_mem_nil, or_false, Text.Op.index.injEq, reduceCtorEq, false_or] at h
    rcases h with ⟨rfl, rfl⟩ | ⟨rfl, rfl⟩ | ⟨rfl, rfl⟩ | ⟨rfl, rfl⟩ <;> decide
  obtain ⟨-, n, -, hn, -⟩ := total_leftover exOkapi_lawful rfl (okapi_weight _ _) exPipeline exCleared hs this s e
  exact ⟨n, hn, .other hn (by simp)⟩

/-! ## C55 -/

/-- C55 for every class of index, also OkapiIndex: after `clear()` all calls do what they do on a new index with the same lexicon,
except that the total length is more by what it was at `clear()` -/
theorem C55_after_partial (K : Kind D R) (hK : Lawful K) (pipeline : List Element) (ops more : List (Text.Op D))
    (hs : SmallLexicon pipeline (ops ++ .clear :: more)) :
    ∃ s0 s, run K pipeline ops = .ok s0 ∧ run K pipeline (lexiconOnly ops ++ more) = .ok s ∧
      run K pipeline (ops ++ .clear :: more) = .ok { s with ix := { s.ix with total := s.ix.total + s0.ix.total } } := by
  obtain ⟨s0, h0, hl0, -⟩ := run_ok hK pipeline ops (small_front hs)
  obtain ⟨s1, h1, -, -⟩ := run_ok hK pipeline _ hs
  have hnew : run K pipeline (lexiconOnly ops) = .ok { lex := lexAfter pipeline ops, ix := Text.new } := by
    unfold run lexiconOnly lexAfter Lexicon.run
    rw [List.foldlM_map]
    generalize lexCalls ops = calls
    generalize Lexicon.new = lex
    induction calls generalizing lex with
    | nil => rfl
    | cons c calls ih => exact ih (lex.step pipeline c)
  have hshift : ∀ (more : List (Text.Op D)) (s : TI D R), more.foldlM (step K pipeline) (s.shift s0.ix.total) =
      (more.foldlM (step K pipeline) s).map (TI.shift s0.ix.total) := by
    intro more
    induction more with
    | nil => intro s; rfl
    | cons op more ih =>
      intro s
      rw [List.foldlM_cons, List.foldlM_cons, step_shift]
      cases step K pipeline s op with
      | error e => rfl
      | ok s' => exact ih s'
  have hrun : run K pipeline (ops ++ .clear :: more) = (run K pipeline (lexiconOnly ops ++ more)).map (TI.shift s0.ix.total) := by
    have e1 : run K pipeline (ops ++ .clear :: more) = more.foldlM (step K pipeline) { s0 with ix := Text.clear s0.ix } := by
      unfold run at h0 ⊢
      rw [List.foldlM_append, h0]; rfl
    have e2 : run K pipeline (lexiconOnly ops ++ more) =
        more.foldlM (step K pipeline) { lex := lexAfter pipeline ops, ix := Text.new } := by
      unfold run at hnew ⊢
      rw [List.foldlM_append, hnew]; rfl
    rw [e1, e2, ← hshift, ← hl0]
    congr 1
    unfold TI.shift Text.shift Text.clear Text.new
    simp
  rw [h1] at hrun
  cases hs2 : run K pipeline (lexiconOnly ops ++ more) with
  | error e => rw [hs2] at hrun; cases hrun
  | ok s =>
    rw [hs2] at hrun
    refine ⟨s0, s, h0, rfl, ?_⟩
    rw [h1, hrun]; rfl

example : exCleared = exCleared.take 1 ++ .clear :: exCleared.drop 2 ∧ SmallLexicon exPipeline exCleared := ⟨rfl, exCleared_small⟩

/-! ## C69 -/

/-- C69 for OkapiIndex and all histories: the scores are those of the formula with a mean length to which the documents removed by
`clear` contribute their lengths, but not their number -/
theorem C69_okapi_cleared (P : Bm25 ℝ) (hP : Bm25Params P) (isSpace : Char → Bool) (upper : Word → Word)
    (odd : Word → Except PyErr (Word → Bool)) (pipeline : List Element) (ops : List (Text.Op D)) (hs : SmallLexicon pipeline ops)
    (s : TI D ℝ) (hr : run (okapi realArith P) pipeline ops = .ok s) :
    ∃ l n, Listing pipeline ops l ∧ Leftover pipeline ops n ∧
      ∀ q t ign, QueryParser.parseQuery isSpace upper (Lexicon.parseTerms pipeline) q = .ok (t, ign) → GlobsFine pipeline ops t →
        ∃ r, t.execute realArith.toWArith (searcher (okapi realArith P) odd pipeline s) = .ok r ∧
          Scored (textLeaves pipeline ops)
            (leafRate pipeline ops (okapiRate pipeline ops P (((wordTotal l + n : Nat) : ℝ) / (l.length : ℝ)))) t r := by
  have hK := ranked_okapi (D := D) hP
  obtain ⟨l, n, h1, h2, h3⟩ := C54_cleared realArith P (by
    intro m n h
    have h : decide ((m : ℝ) ≠ n) = false := h
    show (m : ℝ) = n
    simpa using h) pipeline ops hs (real_lengths pipeline ops) s hr
  refine ⟨l, n, h1, h2, ?_⟩
  have hlen : numDocs ops = l.length := by
    unfold numDocs
    have : {d | ∃ t, currentText ops d = some t} = (((l.map (·.1)).toFinset : Finset D) : Set D) := by
      ext d
      simp only [Set.mem_ofPred_eq, List.coe_toFinset, List.mem_map, Prod.exists, exists_and_right, exists_eq_right]
      constructor
      · rintro ⟨t, ht⟩
        exact ⟨wordsOf pipeline t, (h1.2 d _).2 (by unfold docWords; rw [ht]; rfl)⟩
      · rintro ⟨ws, hws⟩
        have := (h1.2 d ws).1 hws
        unfold docWords at this
        obtain ⟨t, ht, -⟩ := Option.map_eq_some_iff.1 this
        exact ⟨t, ht⟩
    rw [this, Set.ncard_coe_finset, List.toFinset_card_of_nodup h1.1, List.length_map]
  have hmean : ((wordTotal l + n : Nat) : ℝ) / (l.length : ℝ) = s.ix.total / (numDocs ops : ℝ) := by
    rw [hlen, h3, Int.cast_natCast]
  rw [hmean]
  intro q t ign hq hg
  obtain ⟨r, e, ha, hv⟩ := query_scores hK isSpace upper odd hs hr (okapi_ratedBy hP hs hr) q t ign hq hg
  exact ⟨r, e, scored_of ha hv⟩

example : Bm25Params defaultBm25 ∧ ∃ s, run (okapi realArith defaultBm25) exPipeline exCleared = .ok s :=
  ⟨defaultBm25_ok, by
    obtain ⟨s, e, -⟩ := run_ok (okapi_lawful (D := Nat) realArith defaultBm25 (by
      intro m n h
      have h : decide ((m : ℝ) ≠ n) = false := h
      show (m : ℝ) = n
      simpa using h)) exPipeline exCleared exCleared_small
    exact ⟨s, e⟩⟩

end Verif
