import Verif.Proofs.TextIx
import Verif.Spec.Text
import Mathlib.Data.List.Induction
import Mathlib.Algebra.BigOperators.Group.List.Basic
import Mathlib.Algebra.Order.BigOperators.Group.List

/-! # Histories of calls on a text index -/

set_option autoImplicit false

namespace Verif.Text

open Spec

variable {D R : Type} [LinearOrder D] {K : Kind D R}

/-- the word ids of the documents -/
def docWids (pipeline : List Element) (ops : List (Op D)) : D → Option (List Int) :=
  fun d => (docWords pipeline ops d).map (fun ws => ws.map (lexAfter pipeline ops).getWid)

theorem currentText_snoc (ops : List (Op D)) (op : Op D) : currentText (ops ++ [op]) = textStep (currentText ops) op := by
  unfold currentText; rw [List.foldl_append]; rfl

theorem lexCalls_snoc (ops : List (Op D)) (op : Op D) : lexCalls (ops ++ [op]) = lexCalls ops ++ lexCalls [op] := by
  unfold lexCalls; rw [List.filterMap_append]

theorem run_append (pipeline : List Element) (a b : List Lexicon.Op) :
    Lexicon.run pipeline (a ++ b) = Lexicon.runFrom pipeline (Lexicon.run pipeline a) b := by
  unfold Lexicon.run Lexicon.runFrom; rw [List.foldl_append]

theorem lexAfter_snoc (pipeline : List Element) (ops : List (Op D)) (op : Op D) :
    lexAfter pipeline (ops ++ [op]) = Lexicon.runFrom pipeline (lexAfter pipeline ops) (lexCalls [op]) := by
  unfold lexAfter; rw [lexCalls_snoc, run_append]

theorem getWid_zero {s : Lexicon} {w : Word} (h : s.wids.get? w = none) : s.getWid w = 0 := by
  unfold Lexicon.getWid; rw [h]; rfl

theorem small_prefix {pipeline : List Element} {ops : List (Op D)} {op : Op D} (h : SmallLexicon pipeline (ops ++ [op])) :
    SmallLexicon pipeline ops := by
  refine ⟨?_, ?_⟩
  · intro n hn
    refine h.1 n ?_
    rw [lexCalls_snoc]; exact List.mem_append_left _ hn
  · intro w
    cases hw : (lexAfter pipeline ops).wids.get? w with
    | none => rw [getWid_zero hw]; decide
    | some n =>
      have := h.2 w
      rw [lexAfter_snoc, Lexicon.getWid_eq (Lexicon.runFrom_le pipeline _ _ w n hw)] at this
      rw [Lexicon.getWid_eq hw]; exact this

theorem source_seen {pipeline : List Element} {ops : List (Op D)} {d : D} {t : TextArg} (h : currentText ops d = some t) :
    ∃ d', Op.index d' t ∈ ops := by
  induction ops using List.reverseRecOn with
  | nil => simp [currentText] at h
  | append_singleton ops op ih =>
    rw [currentText_snoc] at h
    have lift : (∃ d', Op.index d' t ∈ ops) → ∃ d', Op.index d' t ∈ ops ++ [op] := by
      rintro ⟨d', hd⟩; exact ⟨d', List.mem_append_left _ hd⟩
    cases op with
    | index d' t' =>
      unfold textStep at h
      by_cases hd : d = d'
      · simp [hd] at h; subst h; exact ⟨d', by simp⟩
      · simp [hd] at h; exact lift (ih h)
    | unindex d' =>
      unfold textStep at h
      by_cases hd : d = d'
      · simp [hd] at h
      · simp [hd] at h; exact lift (ih h)
    | clear => simp [textStep] at h
    | lexicon o => exact lift (ih h)

/-- every word of an indexed document is known to the lexicon -/
theorem doc_known {pipeline : List Element} {ops : List (Op D)} {d : D} {ws : List Word} (h : docWords pipeline ops d = some ws)
    {w : Word} (hw : w ∈ ws) : w ∈ seen pipeline (lexCalls ops) := by
  unfold docWords at h
  rw [Option.map_eq_some_iff] at h
  obtain ⟨t, ht, rfl⟩ := h
  obtain ⟨d', hd⟩ := source_seen (pipeline := pipeline) ht
  unfold seen
  rw [List.mem_flatMap]
  refine ⟨.source t, ?_, hw⟩
  unfold lexCalls
  rw [List.mem_filterMap]
  exact ⟨_, hd, rfl⟩

theorem doc_wid {pipeline : List Element} {ops : List (Op D)} {d : D} {ws : List Word} (h : docWords pipeline ops d = some ws)
    {w : Word} (hw : w ∈ ws) : ∃ n, (lexAfter pipeline ops).wids.get? w = some n :=
  (SMap.contains_iff _ _).1 ((Lexicon.run_domain pipeline _ w).2 (doc_known h hw))

theorem wid_valid {pipeline : List Element} {ops : List (Op D)} (hs : SmallLexicon pipeline ops) (w : Word) :
    WidCode.Valid ((lexAfter pipeline ops).getWid w) := by
  refine ⟨?_, by have := hs.2 w; omega⟩
  have hz := Lexicon.run_noZero pipeline (lexCalls ops) hs.1
  have : ∀ ops : List Lexicon.Op, NonNegReloads ops → ∀ w n, (Lexicon.run pipeline ops).wids.get? w = some n → 0 ≤ n := by
    intro ops
    induction ops using List.reverseRecOn with
    | nil => intro _ w n h; simp [Lexicon.run, Lexicon.runFrom, Lexicon.new] at h
    | append_singleton ops op ih =>
      intro hn w n h
      have hn' : NonNegReloads ops := fun m hm => hn m (List.mem_append_left _ hm)
      rw [run_append] at h
      have hc : 0 ≤ (Lexicon.run pipeline ops).count := (Lexicon.run_noZero pipeline ops hn').1
      have key : ∀ (ws : List Word) (s : Lexicon), 0 ≤ s.count → (∀ w n, s.wids.get? w = some n → 0 ≤ n) →
          ∀ w n, (s.createAll ws).1.wids.get? w = some n → 0 ≤ n := by
        intro ws
        induction ws with
        | nil => intro s _ h w n e; exact h w n e
        | cons a ws ih =>
          intro s hc h w n e
          refine ih (s.getWordIdCreate a).1 ?_ ?_ w n e
          · cases ha : s.wids.get? a with
            | some m => rw [Lexicon.getWordIdCreate_some ha]; exact hc
            | none =>
              rw [Lexicon.getWordIdCreate_none ha]
              have := Lexicon.newWid_gt s
              show 0 ≤ s.newWid; omega
          · intro w n e
            cases ha : s.wids.get? a with
            | some m => rw [Lexicon.getWordIdCreate_some ha] at e; exact h w n e
            | none =>
              rw [Lexicon.getWordIdCreate_none ha] at e
              have hgt := Lexicon.newWid_gt s
              change (s.wids.set a s.newWid).get? w = some n at e
              rw [SMap.get?_set] at e
              split at e
              · cases e; omega
              · exact h w n e
      cases op with
      | source t => exact key _ _ hc (ih hn') w n h
      | reload m => exact ih hn' w n h
  cases hw : (lexAfter pipeline ops).wids.get? w with
  | none => rw [getWid_zero hw]
  | some n => rw [Lexicon.getWid_eq hw]; exact this _ hs.1 w n hw

/-- word ids of documents do not change when the lexicon grows -/
theorem docWids_stable {pipeline : List Element} {ops : List (Op D)} (l : List Lexicon.Op) {d : D} {ws : List Word}
    (h : docWords pipeline ops d = some ws) :
    ws.map (Lexicon.runFrom pipeline (lexAfter pipeline ops) l).getWid = ws.map (lexAfter pipeline ops).getWid := by
  refine List.map_congr_left (fun w hw => ?_)
  obtain ⟨n, hn⟩ := doc_wid h hw
  rw [Lexicon.getWid_eq hn, Lexicon.getWid_eq (Lexicon.runFrom_le pipeline _ l w n hn)]

theorem run_snoc (pipeline : List Element) (ops : List (Op D)) (op : Op D) :
    run K pipeline (ops ++ [op]) = run K pipeline ops >>= fun s => step K pipeline s op := by
  unfold run
  rw [List.foldlM_append]
  congr 1
  funext s
  rw [List.foldlM_cons]
  cases step K pipeline s op <;> rfl

theorem source_wids (pipeline : List Element) (s : Lexicon) (t : TextArg) :
    (s.sourceToWordIds pipeline t).2 = (wordsOf pipeline t).map (s.sourceToWordIds pipeline t).1.getWid := by
  have h : (wordsOf pipeline t).map (fun w => (s.sourceToWordIds pipeline t).1.wids.get? w) =
      (s.sourceToWordIds pipeline t).2.map some := by
    have := Lexicon.createAll_get s (Lexicon.runPipeline pipeline (Lexicon.sourceText t))
    rw [Lexicon.runPipeline_eq, Lexicon.sourceText_eq] at this
    unfold Lexicon.sourceToWordIds
    rw [Lexicon.runPipeline_eq, Lexicon.sourceText_eq]
    exact this
  have h2 := congrArg (List.map (fun o : Option Int => o.getD 0)) h
  rw [List.map_map, List.map_map] at h2
  have e : ((fun o : Option Int => o.getD 0) ∘ some) = id := rfl
  rw [e, List.map_id] at h2
  rw [← h2]; rfl

/-- effect of a call on the index -/
theorem step_ok (hK : Lawful K) (pipeline : List Element) (ops : List (Op D)) (op : Op D) (s : TI D R)
    (hs : SmallLexicon pipeline (ops ++ [op])) (hl : s.lex = lexAfter pipeline ops) (hi : Inv K s.ix (docWids pipeline ops)) :
    ∃ s', step K pipeline s op = .ok s' ∧ s'.lex = lexAfter pipeline (ops ++ [op]) ∧
      Inv K s'.ix (docWids pipeline (ops ++ [op])) ∧
      s'.ix.total = s.ix.total + (match op with
        | .index d t => if K.hasTotal then ((wordsOf pipeline t).length : Int) - lenOf K (docWids pipeline ops) d else 0
        | .unindex d => if K.hasTotal then - lenOf K (docWids pipeline ops) d else 0
        | _ => 0) := by
  cases op with
  | index d t =>
    have hlex : (s.lex.sourceToWordIds pipeline t).1 = lexAfter pipeline (ops ++ [.index d t]) := by
      rw [lexAfter_snoc, hl]; rfl
    have hwids := source_wids pipeline s.lex t
    rw [hlex] at hwids
    obtain ⟨s', e, h1, h2⟩ := indexDoc_ok hK hi d (s.lex.sourceToWordIds pipeline t).2 (by
      intro w hw
      rw [hwids, List.mem_map] at hw
      obtain ⟨v, -, rfl⟩ := hw
      exact wid_valid hs v)
    refine ⟨{ lex := (s.lex.sourceToWordIds pipeline t).1, ix := s' }, ?_, hlex, ?_, ?_⟩
    · show (indexDoc K d (s.lex.sourceToWordIds pipeline t).2 s.ix >>= fun ix => _) = _
      rw [e]; rfl
    · have : setDoc (docWids pipeline ops) d (some (s.lex.sourceToWordIds pipeline t).2) =
          docWids pipeline (ops ++ [.index d t]) := by
        funext d'
        unfold setDoc
        by_cases hd : d' = d
        · rw [if_pos hd]
          conv_rhs => unfold docWids docWords
          rw [currentText_snoc, hwids]
          simp [textStep, hd]
        · rw [if_neg hd]
          have hdw : docWords pipeline (ops ++ [.index d t]) d' = docWords pipeline ops d' := by
            unfold docWords; rw [currentText_snoc]; simp [textStep, hd]
          unfold docWids
          rw [hdw]
          cases hws : docWords pipeline ops d' with
          | none => rfl
          | some ws =>
            rw [Option.map_some, Option.map_some, lexAfter_snoc, docWids_stable _ hws]
      rw [← this]; exact h1
    · show s'.total = _
      rw [h2]
      have : ((s.lex.sourceToWordIds pipeline t).2.length : Int) = (wordsOf pipeline t).length := by
        rw [hwids, List.length_map]
      rw [this]
  | unindex d =>
    obtain ⟨s', e, h1, h2⟩ := unindexDoc_ok hK hi d
    have hlex : lexAfter pipeline (ops ++ [.unindex d]) = lexAfter pipeline ops := by rw [lexAfter_snoc]; rfl
    refine ⟨{ s with ix := s' }, ?_, by rw [hlex]; exact hl, ?_, ?_⟩
    · show (unindexDoc K d s.ix >>= fun ix => _) = _
      rw [e]; rfl
    · have : setDoc (docWids pipeline ops) d none = docWids pipeline (ops ++ [.unindex d]) := by
        funext d'
        unfold setDoc docWids docWords
        rw [hlex, currentText_snoc]
        by_cases hd : d' = d <;> simp [textStep, hd]
      rw [← this]; exact h1
    · show s'.total = _
      rw [h2]
      cases K.hasTotal
      · simp
      · simp; omega
  | clear =>
    have hlex : lexAfter pipeline (ops ++ [.clear]) = lexAfter pipeline ops := by rw [lexAfter_snoc]; rfl
    refine ⟨_, rfl, by rw [hlex]; exact hl, ?_, by simp [clear]⟩
    have : docWids pipeline (ops ++ [.clear]) = fun _ => none := by
      funext d'
      unfold docWids docWords
      rw [currentText_snoc]; rfl
    rw [this]; exact inv_clear K s.ix
  | lexicon o =>
    have hlex : lexAfter pipeline (ops ++ [.lexicon o]) = Lexicon.step pipeline (lexAfter pipeline ops) o := by
      rw [lexAfter_snoc]; rfl
    refine ⟨_, rfl, by rw [hlex, hl], ?_, by simp⟩
    have : docWids pipeline (ops ++ [.lexicon o]) = docWids pipeline ops := by
      funext d'
      have hdw : docWords pipeline (ops ++ [.lexicon o]) d' = docWords pipeline ops d' := by
        unfold docWords; rw [currentText_snoc]; rfl
      unfold docWids
      rw [hdw]
      cases hws : docWords pipeline ops d' with
      | none => rfl
      | some ws =>
        rw [Option.map_some, Option.map_some, lexAfter_snoc, docWids_stable _ hws]
    rw [this]; exact hi

/-- every history succeeds and ends in a state that holds the current documents -/
theorem run_ok (hK : Lawful K) (pipeline : List Element) (ops : List (Op D)) (hs : SmallLexicon pipeline ops) :
    ∃ s, run K pipeline ops = .ok s ∧ s.lex = lexAfter pipeline ops ∧ Inv K s.ix (docWids pipeline ops) := by
  induction ops using List.reverseRecOn with
  | nil => exact ⟨_, rfl, rfl, inv_new K⟩
  | append_singleton ops op ih =>
    obtain ⟨s, e, hl, hi⟩ := ih (small_prefix hs)
    obtain ⟨s', e', hl', hi', -⟩ := step_ok hK pipeline ops op s hs hl hi
    refine ⟨s', ?_, hl', hi'⟩
    rw [run_snoc, e]; exact e'

/-! ## total length -/

/-- sum over the documents -/
def sumVals (f : R → Int) (m : SMap D R) : Int := (m.items.map (fun p => f p.2)).sum

theorem sum_setL (f : R → Int) (k : D) (v : R) (l : List (D × R)) (hs : l.Pairwise (fun a b => a.1 < b.1)) :
    ((SMap.setL k v l).map (fun p => f p.2)).sum =
      (l.map (fun p => f p.2)).sum + f v - (match SMap.getL l k with | some o => f o | none => 0) := by
  induction l with
  | nil => simp [SMap.setL]
  | cons p l ih =>
    rw [List.pairwise_cons] at hs
    unfold SMap.setL
    rw [SMap.getL_cons]
    split
    · rename_i hlt
      have h1 : p.1 ≠ k := fun e => by rw [e] at hlt; exact lt_irrefl _ hlt
      rw [if_neg h1, SMap.getL_eq_none (by
        intro q hq e
        have := hs.1 q hq
        rw [e] at this
        exact lt_asymm this hlt)]
      simp; omega
    · split
      · rename_i he
        rw [if_pos he.symm]; simp; omega
      · rename_i hn hne
        rw [if_neg (Ne.symm hne), List.map_cons, List.sum_cons, ih hs.2]
        simp; omega

theorem sumVals_set (f : R → Int) (m : SMap D R) (k : D) (v : R) :
    sumVals f (m.set k v) = sumVals f m + f v - (match m.get? k with | some o => f o | none => 0) :=
  sum_setL f k v m.items m.sorted

theorem sum_delL (f : R → Int) (k : D) (l : List (D × R)) (hs : l.Pairwise (fun a b => a.1 < b.1)) :
    ((l.filter (fun p => decide (p.1 ≠ k))).map (fun p => f p.2)).sum =
      (l.map (fun p => f p.2)).sum - (match SMap.getL l k with | some o => f o | none => 0) := by
  induction l with
  | nil => simp
  | cons p l ih =>
    rw [List.pairwise_cons] at hs
    rw [SMap.getL_cons]
    by_cases h : p.1 = k
    · have hnone : SMap.getL l k = none := SMap.getL_eq_none (by
        intro q hq e
        have := hs.1 q hq
        rw [e, h] at this
        exact lt_irrefl _ this)
      have := ih hs.2
      rw [hnone] at this
      simp only [h, ne_eq, not_true_eq_false, decide_false, Bool.false_eq_true, not_false_eq_true, List.filter_cons_of_neg, if_true]
      simp only [ne_eq] at this
      rw [this]; simp
    · have := ih hs.2
      simp only [ne_eq] at this
      simp only [h, ne_eq, not_false_eq_true, decide_true, List.filter_cons_of_pos, List.map_cons, List.sum_cons, if_false, this]
      omega

theorem sumVals_del (f : R → Int) (m : SMap D R) (k : D) :
    sumVals f (m.del k) = sumVals f m - (match m.get? k with | some o => f o | none => 0) :=
  sum_delL f k m.items m.sorted

theorem docweight_eq {s s' : Ix D R} {W : D → Option (List Int)} (h : Inv K s W) (h' : Inv K s' W) : s.docweight = s'.docweight := by
  ext d : 1; rw [h.docweight, h'.docweight]

/-- sum of the lengths kept in the index -/
def lens (K : Kind D R) (s : Ix D R) : Int := sumVals K.arith.toInt s.docweight

theorem lens_set {s s' : Ix D R} {W : D → Option (List Int)} {P P' : D → Int → Option R} (h : InvP K s W P) {d : D} {o : Option (List Int)}
    (h' : InvP K s' (setDoc W d o) P') :
    lens K s' = lens K s - lenOf K W d + lenOf K (setDoc W d o) d := by
  have hold : (match s.docweight.get? d with | some v => K.arith.toInt v | none => 0) = lenOf K W d := by
    rw [h.docweight]; unfold lenOf; cases W d <;> rfl
  cases o with
  | some ws =>
    have : s'.docweight = s.docweight.set d (K.arith.store (fr K ws).2) := by
      ext d' : 1
      rw [h'.docweight, SMap.get?_set, h.docweight]
      unfold setDoc; by_cases hd : d' = d <;> simp [hd]
    unfold lens
    rw [this, sumVals_set, hold]
    simp [lenOf, setDoc]; omega
  | none =>
    have : s'.docweight = s.docweight.del d := by
      ext d' : 1
      rw [h'.docweight, SMap.get?_del, h.docweight]
      unfold setDoc; by_cases hd : d' = d <;> simp [hd]
    unfold lens
    rw [this, sumVals_del, hold]
    simp [lenOf, setDoc]

/-- the weight of a document is its number of words -/
def WeightIsLength (K : Kind D R) : Prop := ∀ wids, (fr K wids).2 = K.arith.ofNat wids.length

theorem lenOf_exact (hw : WeightIsLength K) {pipeline : List Element} {ops : List (Op D)} (he : LengthsExact K.arith pipeline ops)
    (d : D) : lenOf K (docWids pipeline ops) d = ((docWords pipeline ops d).map (fun ws => (ws.length : Int))).getD 0 := by
  unfold lenOf docWids docWords
  cases ht : currentText ops d with
  | none => rfl
  | some t =>
    obtain ⟨d', hd⟩ := source_seen (pipeline := pipeline) ht
    simp only [Option.map_some, Option.getD_some]
    rw [hw, List.length_map]
    exact he d' t hd

theorem lens_nonneg {K : Kind D R} (hw : WeightIsLength K) {pipeline : List Element} {ops : List (Op D)}
    (he : LengthsExact K.arith pipeline ops) {s : Ix D R} (hi : Inv K s (docWids pipeline ops)) :
    ∀ p ∈ s.docweight.items, ∃ ws, docWords pipeline ops p.1 = some ws ∧ K.arith.toInt p.2 = ws.length := by
  intro p hp
  have hg := (s.docweight.get?_eq_some_iff p.1 p.2).2 hp
  rw [hi.docweight] at hg
  unfold docWids at hg
  cases hws : docWords pipeline ops p.1 with
  | none => rw [hws] at hg; cases hg
  | some ws =>
    refine ⟨ws, rfl, ?_⟩
    have h := lenOf_exact hw he p.1
    rw [hws] at hg h
    unfold lenOf docWids at h
    rw [hws] at h
    simp only [Option.map_some, Option.some.injEq, Option.getD_some] at hg h
    rw [← hg]; exact h

/-- the total length is at least the sum of the lengths kept, and equal to it when the index was never cleared -/
theorem total_ok (hK : Lawful K) (ht : K.hasTotal = true) (hw : WeightIsLength K) (pipeline : List Element) (ops : List (Op D))
    (hs : SmallLexicon pipeline ops) (he : LengthsExact K.arith pipeline ops) (s : TI D R) (hr : run K pipeline ops = .ok s) :
    lens K s.ix ≤ s.ix.total ∧ (NoClear ops → s.ix.total = lens K s.ix) := by
  induction ops using List.reverseRecOn generalizing s with
  | nil => cases hr; exact ⟨le_refl _, fun _ => rfl⟩
  | append_singleton ops op ih =>
    obtain ⟨s0, e, hl, hi⟩ := run_ok hK pipeline ops (small_prefix hs)
    have he' : LengthsExact K.arith pipeline ops := fun d t h => he d t (List.mem_append_left _ h)
    obtain ⟨ih1, ih2⟩ := ih (small_prefix hs) he' s0 e
    obtain ⟨s', e', hl', hi', htot⟩ := step_ok hK pipeline ops op s0 hs hl hi
    have : s' = s := by
      rw [run_snoc, e] at hr
      exact Except.ok.inj (e'.symm.trans hr)
    subst this
    have ih2' : NoClear (ops ++ [op]) → s0.ix.total = lens K s0.ix := fun h => ih2 (fun hc => h (List.mem_append_left _ hc))
    rw [ht] at htot
    cases op with
    | index d t =>
      have hset : ∃ wids, docWids pipeline (ops ++ [.index d t]) = setDoc (docWids pipeline ops) d (some wids) ∧
          wids.length = (wordsOf pipeline t).length := by
        refine ⟨(wordsOf pipeline t).map (lexAfter pipeline (ops ++ [.index d t])).getWid, ?_, by simp⟩
        funext d'
        unfold setDoc
        by_cases hd : d' = d
        · rw [if_pos hd]
          unfold docWids docWords
          rw [currentText_snoc]
          simp [textStep, hd]
        · rw [if_neg hd]
          have hdw : docWords pipeline (ops ++ [.index d t]) d' = docWords pipeline ops d' := by
            unfold docWords; rw [currentText_snoc]; simp [textStep, hd]
          unfold docWids
          rw [hdw]
          cases hws : docWords pipeline ops d' with
          | none => rfl
          | some ws => rw [Option.map_some, Option.map_some, lexAfter_snoc, docWids_stable _ hws]
      obtain ⟨wids, hset, hlen⟩ := hset
      rw [hset] at hi'
      have h1 := lens_set hi.toP hi'.toP
      have h2 : lenOf K (setDoc (docWids pipeline ops) d (some wids)) d = (wordsOf pipeline t).length := by
        unfold lenOf setDoc
        simp only [if_true]
        rw [hw, hlen]
        exact he d t (by simp)
      simp only [if_true] at htot
      refine ⟨by omega, fun h => by have := ih2' h; omega⟩
    | unindex d =>
      have hset : docWids pipeline (ops ++ [.unindex d]) = setDoc (docWids pipeline ops) d none := by
        funext d'
        unfold setDoc docWids docWords
        rw [lexAfter_snoc, currentText_snoc]
        by_cases hd : d' = d
        · simp [textStep, hd]
        · simp [textStep, hd]; rfl
      rw [hset] at hi'
      have h1 := lens_set hi.toP hi'.toP
      have h2 : lenOf K (setDoc (docWids pipeline ops) d none) d = 0 := by simp [lenOf, setDoc]
      simp only [if_true] at htot
      refine ⟨by omega, fun h => by have := ih2' h; omega⟩
    | clear =>
      cases e'
      simp only [] at htot
      refine ⟨?_, fun h => absurd (by simp) h⟩
      have hnn : 0 ≤ lens K s0.ix := by
        unfold lens sumVals
        refine List.sum_nonneg ?_
        intro x hx
        obtain ⟨p, hp, rfl⟩ := List.mem_map.1 hx
        obtain ⟨ws, -, e⟩ := lens_nonneg hw he' hi p hp
        rw [e]; omega
      have : lens K (clear s0.ix) = 0 := rfl
      show lens K (clear s0.ix) ≤ s0.ix.total
      rw [this]
      omega
    | lexicon o =>
      cases e'
      exact ⟨ih1, ih2'⟩

end Verif.Text
