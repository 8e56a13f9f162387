import Verif.Proofs.Html
import Verif.Spec.Common
import Mathlib.Data.List.TakeWhile

/-!
# Properties C39 - C45: lexicon, globs, splitters

The specifications are in `Verif.Spec.Lexicon` and `Verif.Spec.Html`.
-/

set_option autoImplicit false

namespace Verif

open Lexicon Spec

/-- word characters of the examples -/
def exIsW (c : Char) : Bool := c.isAlphanum || c = '_'

/-- lower-casing of the examples -/
def exLowerWord (w : Word) : Word := w.map Char.toLower

/-- pipeline of the examples: the default one of text/textindex.py:42-44 -/
def exPipeline : List Element := [Splitter.element exIsW, caseNormalizer exLowerWord, stopWordRemover isStop]

/-- a history used in the examples: `"The Cat, a cab"`, then the counter is set back to 0, then `["dog", "cat catch"]`, then
`None` -/
def lexOps : List Lexicon.Op :=
  [.source (.str ['T', 'h', 'e', ' ', 'C', 'a', 't', ',', ' ', 'a', ' ', 'c', 'a', 'b']), .reload 0,
   .source (.list [['d', 'o', 'g'], ['c', 'a', 't', ' ', 'c', 'a', 't', 'c', 'h']]), .source .none]

theorem lexOps_nonneg : NonNegReloads lexOps := by
  intro n h
  simp only [lexOps, List.mem_cons, Lexicon.Op.reload.injEq, List.not_mem_nil, or_false, false_or, reduceCtorEq] at h
  omega

example : seen exPipeline lexOps =
    [['c', 'a', 't'], ['c', 'a', 'b'], ['d', 'o', 'g'], ['c', 'a', 't'], ['c', 'a', 't', 'c', 'h']] := by decide

/-! ## C39 -/

/-- C39: the words with an id are exactly those seen, no id is 0 (the id of unknown words), and words and ids correspond one to
one; `get_word` of anything else is a `KeyError` -/
theorem C39_bijection (pipeline : List Element) (ops : List Lexicon.Op) (hn : NonNegReloads ops) :
    let s := run pipeline ops
    (∀ w, w ∈ seen pipeline ops → s.getWid w ≠ 0 ∧ s.getWord (s.getWid w) = .ok w) ∧
    (∀ w, w ∉ seen pipeline ops → s.getWid w = 0) ∧
    (∀ w w', w ∈ seen pipeline ops → w' ∈ seen pipeline ops → s.getWid w = s.getWid w' → w = w') ∧
    (∀ n w, s.getWord n = .ok w → w ∈ seen pipeline ops ∧ s.getWid w = n) ∧
    (∀ n, (∀ w, w ∈ seen pipeline ops → s.getWid w ≠ n) → s.getWord n = .error .KeyError) := by
  intro s
  have hi : Inv s := run_inv pipeline ops
  have hz : NoZero s := run_noZero pipeline ops hn
  have hd : ∀ w, s.wids.contains w = true ↔ w ∈ seen pipeline ops := run_domain pipeline ops
  have hget : ∀ w, w ∈ seen pipeline ops → ∃ n, s.wids.get? w = some n := fun w h => (SMap.contains_iff _ _).1 ((hd w).2 h)
  have hword : ∀ w n, s.wids.get? w = some n → s.getWord n = .ok w := by
    intro w n h
    unfold getWord
    rw [(hi w n).1 h]
  have hword' : ∀ n w, s.getWord n = .ok w → s.wids.get? w = some n := by
    intro n w h
    unfold getWord at h
    split at h
    · cases h
    · rename_i w' e
      cases h
      exact (hi w n).2 e
  refine ⟨?_, ?_, ?_, ?_, ?_⟩
  · intro w h
    obtain ⟨n, e⟩ := hget w h
    rw [getWid_eq e]
    refine ⟨?_, hword w n e⟩
    rintro rfl
    have := (hi w 0).1 e
    rw [hz.2] at this; cases this
  · intro w h
    have : s.wids.get? w = none := by
      rw [← SMap.contains_eq_false]
      by_contra hc
      exact h ((hd w).1 (by simpa using hc))
    unfold getWid; rw [this]; rfl
  · intro w w' h h' e
    obtain ⟨n, hn⟩ := hget w h
    obtain ⟨n', hn'⟩ := hget w' h'
    rw [getWid_eq hn, getWid_eq hn'] at e
    subst e
    have e1 := (hi w n).1 hn
    have e2 := (hi w' n).1 hn'
    rw [e1] at e2
    cases e2; rfl
  · intro n w h
    have e := hword' n w h
    exact ⟨(hd w).1 (SMap.contains_of_get? e), getWid_eq e⟩
  · intro n h
    unfold getWord
    split
    · rfl
    · rename_i w e
      have e' := (hi w n).2 e
      exact absurd (getWid_eq e') (h w ((hd w).1 (SMap.contains_of_get? e')))

example : let s := run exPipeline lexOps
    s.getWid ['c', 'a', 't'] = 1 ∧ s.getWid ['c', 'a', 'b'] = 2 ∧ s.getWid ['d', 'o', 'g'] = 3 ∧
    s.getWid ['c', 'a', 't', 'c', 'h'] = 4 ∧ s.getWord 3 = .ok ['d', 'o', 'g'] ∧ s.getWid ['t', 'h', 'e'] = 0 := by decide

/-- C39: an id once assigned never changes -/
theorem C39_stable (pipeline : List Element) (ops later : List Lexicon.Op) (w : Word) (h : w ∈ seen pipeline ops) :
    (run pipeline (ops ++ later)).getWid w = (run pipeline ops).getWid w := by
  obtain ⟨n, e⟩ := (SMap.contains_iff _ _).1 ((run_domain pipeline ops w).2 h)
  have : run pipeline (ops ++ later) = runFrom pipeline (run pipeline ops) later := by
    unfold run runFrom; rw [List.foldl_append]
  rw [this, getWid_eq e, getWid_eq (runFrom_le pipeline _ later w n e)]

/-- C39: `sourceToWordIds` returns the ids of the words of the text, in order -/
theorem C39_source (pipeline : List Element) (s : Lexicon) (t : TextArg) :
    let r := s.sourceToWordIds pipeline t
    r.2 = (pipelined pipeline (textOf t)).map r.1.getWid := by
  intro r
  have hr : r = s.createAll (pipelined pipeline (textOf t)) := by
    show s.createAll (runPipeline pipeline (sourceText t)) = _
    rw [runPipeline_eq, sourceText_eq]
  have h : (pipelined pipeline (textOf t)).map (fun w => r.1.wids.get? w) = r.2.map some := by
    rw [hr]
    exact createAll_get s (pipelined pipeline (textOf t))
  have h' := congrArg (List.map (fun o => Option.getD o 0)) h
  rw [List.map_map, List.map_map] at h'
  have e : ((fun o : Option Int => o.getD 0) ∘ some) = id := rfl
  rw [e, List.map_id] at h'
  exact h'.symm

/-! ## C40 -/

/-- C40: whatever values the counter takes between calls, different words never get the same id -/
theorem C40_injective (pipeline : List Element) (ops : List Lexicon.Op) (w w' : Word) (h : w ∈ seen pipeline ops)
    (h' : w' ∈ seen pipeline ops) (e : (run pipeline ops).getWid w = (run pipeline ops).getWid w') : w = w' := by
  have hi := run_inv pipeline ops
  obtain ⟨n, hn⟩ := (SMap.contains_iff _ _).1 ((run_domain pipeline ops w).2 h)
  obtain ⟨n', hn'⟩ := (SMap.contains_iff _ _).1 ((run_domain pipeline ops w').2 h')
  rw [getWid_eq hn, getWid_eq hn'] at e
  subst e
  have e1 := (hi w n).1 hn
  have e2 := (hi w' n).1 hn'
  rw [e1] at e2
  cases e2; rfl

/-- C40: with counter values that are not negative, no word gets the id 0 -/
theorem C40_nonzero (pipeline : List Element) (ops : List Lexicon.Op) (hn : NonNegReloads ops) (w : Word)
    (h : w ∈ seen pipeline ops) : (run pipeline ops).getWid w ≠ 0 :=
  ((C39_bijection pipeline ops hn).1 w h).1

/-- C40: allocation terminates in every state: the loop stops at the first free number above the counter, after at most as many
steps as there are words -/
theorem C40_terminates (s : Lexicon) :
    ∃ k : Nat, k ≤ s.words.len ∧ s.newWid = s.count + 1 + k ∧ (∀ i : Nat, i < k → s.words.contains (s.count + 1 + i) = true) ∧
      s.words.contains s.newWid = false := by
  have key : ∀ fuel c, ∃ k : Nat, k ≤ fuel ∧ bump s.words fuel c = c + k ∧
      (∀ i : Nat, i < k → s.words.contains (c + i) = true) := by
    intro fuel
    induction fuel with
    | zero => intro c; exact ⟨0, Nat.le_refl _, by simp [bump], by intro i hi; omega⟩
    | succ n ih =>
      intro c
      by_cases hc : s.words.contains c = true
      · obtain ⟨k, h1, h2, h3⟩ := ih (c + 1)
        refine ⟨k + 1, by omega, ?_, ?_⟩
        · unfold bump
          rw [if_pos hc, h2]
          push_cast; omega
        · intro i hi
          rcases i with _ | i
          · simpa using hc
          · have := h3 i (by omega)
            have e : c + ((i + 1 : Nat) : Int) = c + 1 + (i : Int) := by push_cast; omega
            rw [e]; exact this
      · refine ⟨0, by omega, ?_, by intro i hi; omega⟩
        unfold bump
        rw [if_neg hc]; simp
  obtain ⟨k, h1, h2, h3⟩ := key (s.words.len + 1) (s.count + 1)
  refine ⟨k, ?_, h2, h3, bump_free _ _⟩
  by_contra hk
  have hk : k = s.words.len + 1 := by omega
  -- then `len + 1` different keys are taken
  have hsub : ((List.range k).map (fun i : Nat => s.count + 1 + (i : Int))) ⊆ s.words.keys := by
    intro x hx
    rw [List.mem_map] at hx
    obtain ⟨i, hi, rfl⟩ := hx
    exact (SMap.contains_iff_mem _ _).1 (h3 i (List.mem_range.1 hi))
  have hnd : ((List.range k).map (fun i : Nat => s.count + 1 + (i : Int))).Nodup := by
    refine (List.nodup_map_iff_inj_on List.nodup_range).2 ?_
    intro a _ b _ e
    have e : s.count + 1 + (a : Int) = s.count + 1 + (b : Int) := e
    omega
  have := (List.subperm_of_subset hnd hsub).length_le
  rw [SMap.len_keys, List.length_map, List.length_range] at this
  omega

/-- the hypothesis about negative counters is needed: after a counter value of -1 a word gets the id of unknown words -/
theorem C40_negative_counter :
    (run exPipeline [.reload (-1), .source (.str ['d', 'o', 'g'])]).wids.get? ['d', 'o', 'g'] = some 0 := by decide

/-! ## C41 -/

/-- C41: `wordCount()` is the number of distinct words seen -/
theorem C41_word_count (pipeline : List Element) (ops : List Lexicon.Op) (hn : NoReloads ops) :
    ∃ n : Nat, (run pipeline ops).wordCount = n ∧ CountIs (fun w => w ∈ seen pipeline ops) n := by
  have hi := run_inv pipeline ops
  have he := run_exact pipeline ops hn
  refine ⟨(run pipeline ops).words.len, he.1.symm, (run pipeline ops).wids.keys, SMap.keys_nodup _, ?_, ?_⟩
  · intro w
    rw [← SMap.contains_iff_mem, run_domain]
  · -- the two maps have the same size
    have h1 : (run pipeline ops).wids.values.Nodup := by
      have hs := (run pipeline ops).wids.keys_nodup
      unfold SMap.values
      refine (List.nodup_map_iff_inj_on ?_).2 ?_
      · exact List.Nodup.of_map _ hs
      · intro a ha b hb e
        have ea := (hi a.1 a.2).1 ((SMap.get?_eq_some_iff _ _ _).2 ha)
        have eb := (hi b.1 b.2).1 ((SMap.get?_eq_some_iff _ _ _).2 hb)
        rw [e, eb] at ea
        have : a.1 = b.1 := (Option.some.inj ea).symm
        exact Prod.ext this e
    have h2 : ∀ n, n ∈ (run pipeline ops).wids.values ↔ n ∈ (run pipeline ops).words.keys := by
      intro n
      unfold SMap.values
      rw [List.mem_map, SMap.mem_keys_iff]
      constructor
      · rintro ⟨p, hp, rfl⟩
        exact ⟨p.1, (hi p.1 p.2).1 ((SMap.get?_eq_some_iff _ _ _).2 hp)⟩
      · rintro ⟨w, h⟩
        exact ⟨(w, n), (SMap.get?_eq_some_iff _ _ _).1 ((hi w n).2 h), rfl⟩
    have h3 := ((List.perm_ext_iff_of_nodup h1 (SMap.keys_nodup _)).2 h2).length_eq
    rw [SMap.len_keys] at h3
    rw [← h3]
    simp [SMap.keys, SMap.values]

example : (run exPipeline [lexOps[0], lexOps[2], lexOps[0]]).wordCount = 4 := by decide

/-! ## C42 -/

/-- C42: the ids `sourceToWordIds` returned for a text are those `termToWordIds` gives for it, then and later -/
theorem C42_agree (pipeline : List Element) (s : Lexicon) (t : TextArg) (ht : t ≠ .none) (later : List Lexicon.Op) :
    (runFrom pipeline (s.sourceToWordIds pipeline t).1 later).termToWordIds pipeline t =
      .ok (s.sourceToWordIds pipeline t).2 := by
  have h : (pipelined pipeline (textOf t)).map (fun w => (s.sourceToWordIds pipeline t).1.wids.get? w) =
      (s.sourceToWordIds pipeline t).2.map some := by
    have := createAll_get s (runPipeline pipeline (sourceText t))
    rw [runPipeline_eq, sourceText_eq] at this
    unfold sourceToWordIds
    rw [runPipeline_eq, sourceText_eq]
    exact this
  have e : termToWordIds pipeline (runFrom pipeline (s.sourceToWordIds pipeline t).1 later) t =
      .ok ((pipelined pipeline (textOf t)).map
        (runFrom pipeline (s.sourceToWordIds pipeline t).1 later).getWid) := by
    unfold termToWordIds
    cases t with
    | none => exact absurd rfl ht
    | str w => simp only [text2list, runPipeline_eq]; rfl
    | list l => simp only [text2list, runPipeline_eq]; rfl
  rw [e]
  congr 1
  generalize (s.sourceToWordIds pipeline t).1 = s' at h ⊢
  generalize (s.sourceToWordIds pipeline t).2 = ids at h ⊢
  generalize pipelined pipeline (textOf t) = ws at h ⊢
  induction ws generalizing ids with
  | nil =>
    rcases ids with _ | ⟨i, ids⟩
    · rfl
    · cases h
  | cons w ws ih =>
    rcases ids with _ | ⟨i, ids⟩
    · cases h
    · injection h with h1 h2
      rw [List.map_cons, getWid_eq (runFrom_le pipeline s' later w i h1), ih ids h2]

example : (run exPipeline lexOps).termToWordIds exPipeline (.str ['D', 'o', 'g', ' ', 'p', 'i', 'g', ' ', 'c', 'a', 't']) =
    .ok [3, 0, 1] := by decide

/-- C42: `termToWordIds` gives 0 for the words never seen, and only for them.  (It returns no new lexicon: it changes nothing.) -/
theorem C42_unknown (pipeline : List Element) (ops : List Lexicon.Op) (hn : NonNegReloads ops) (t : TextArg) (ht : t ≠ .none) :
    ∃ ids, (run pipeline ops).termToWordIds pipeline t = .ok ids ∧
      List.Forall₂ (fun w i => i = 0 ↔ w ∉ seen pipeline ops) (pipelined pipeline (textOf t)) ids := by
  refine ⟨(pipelined pipeline (textOf t)).map (run pipeline ops).getWid, ?_, ?_⟩
  · unfold termToWordIds
    cases t with
    | none => exact absurd rfl ht
    | str w => simp only [text2list, runPipeline_eq]; rfl
    | list l => simp only [text2list, runPipeline_eq]; rfl
  · have hb := C39_bijection pipeline ops hn
    rw [List.forall₂_map_right_iff, List.forall₂_same]
    intro w _
    by_cases h : w ∈ seen pipeline ops
    · exact ⟨fun e => absurd e (hb.1 w h).1, fun h' => absurd h h'⟩
    · exact ⟨fun _ => h, fun _ => hb.2.1 w h⟩

/-! ## C43 -/

/-- C43, for words without newlines and prefixes without regular expression metacharacters other than `.`: for a pattern
`pre ++ pat` with `pat` beginning at the first glob character, and a non-empty `pre`, the ids returned are exactly those of the
words seen that match, each once, in word order -/
theorem C43_glob_partial (odd : Word → Except PyErr (Word → Bool)) (pipeline : List Element) (ops : List Lexicon.Op)
    (hnl : ∀ w ∈ seen pipeline ops, '\n' ∉ w) (pre pat : Word) (c : Char) (hpre : ∀ x ∈ pre, x ∉ specialChars) (hne : pre ≠ [])
    (hc : c = '*' ∨ c = '?') :
    ∃ ws : List Word, ws.Pairwise (· < ·) ∧ (∀ w, w ∈ ws ↔ w ∈ seen pipeline ops ∧ GlobMatch (pre ++ c :: pat) w) ∧
      (run pipeline ops).globToWordIds odd (pre ++ c :: pat) = .ok (ws.map (run pipeline ops).getWid) := by
  have hglob : ∀ x ∈ pre, isGlobChar x = false := by
    intro x hx
    have := hpre x hx
    unfold isGlobChar
    rw [Bool.or_eq_false_iff]
    constructor
    · simp only [decide_eq_false_iff_not]; rintro rfl; exact this (by decide)
    · simp only [decide_eq_false_iff_not]; rintro rfl; exact this (by decide)
  have hcg : isGlobChar c = true := by rcases hc with rfl | rfl <;> decide
  have e := globToWordIds_eq odd (run pipeline ops) (pre ++ c :: pat) pre (c :: pat) rfl hglob ⟨c, pat, rfl, hcg⟩ hne
  have hs := ((run pipeline ops).wids.range (some pre) none).sorted
  have hmem : ∀ p, p ∈ ((run pipeline ops).wids.range (some pre) none).items ↔ p ∈ (run pipeline ops).wids.items ∧ pre ≤ p.1 := by
    intro p
    unfold SMap.range SMap.filter
    rw [List.mem_filter]
    simp
  rw [e, compile_ok odd pre (c :: pat) hpre]
  simp only [Except.map]
  rw [globLoop_ok _ pre _ hs (fun p h => ((hmem p).1 h).2)]
  refine ⟨(((run pipeline ops).wids.range (some pre) none).items.filter (fun p =>
      pre.isPrefixOf p.1 && preMatch (reMatch ((c :: pat).map toPat)) true pre p.1)).map (·.1), ?_, ?_, ?_⟩
  · rw [List.pairwise_map]
    exact hs.filter _
  · intro w
    have hre : ∀ w ∈ seen pipeline ops, (pre.isPrefixOf w = true ∧ preMatch (reMatch ((c :: pat).map toPat)) true pre w = true) ↔
        GlobMatch (pre ++ c :: pat) w := by
      intro w hw
      have hw := hnl w hw
      rw [← reMatch_iff _ _ hw, List.map_append]
      have : pre.map toPat = pre.map Pat.lit := List.map_congr_left (fun x hx => toPat_lit (hglob x hx))
      rw [this, reMatch_lits, List.isPrefixOf_iff_prefix]
      constructor
      · rintro ⟨⟨t, rfl⟩, h⟩
        rw [preMatch_prefix _ _ _ _ hpre (fun h => hw (List.mem_append_left _ h))] at h
        exact ⟨t, rfl, h⟩
      · rintro ⟨t, rfl, h⟩
        exact ⟨⟨t, rfl⟩, by rw [preMatch_prefix _ _ _ _ hpre (fun h => hw (List.mem_append_left _ h))]; exact h⟩
    simp only [List.mem_map, List.mem_filter, hmem, Bool.and_eq_true]
    constructor
    · rintro ⟨p, ⟨⟨hp, -⟩, hm⟩, rfl⟩
      have hw : p.1 ∈ seen pipeline ops :=
        (run_domain pipeline ops p.1).1 (SMap.contains_of_get? ((SMap.get?_eq_some_iff _ _ _).2 hp))
      exact ⟨hw, (hre _ hw).1 hm⟩
    · rintro ⟨hw, hm⟩
      obtain ⟨n, hn⟩ := (SMap.contains_iff _ _).1 ((run_domain pipeline ops w).2 hw)
      have hm := (hre w hw).2 hm
      exact ⟨(w, n), ⟨⟨(SMap.get?_eq_some_iff _ _ _).1 hn, le_of_prefix (List.isPrefixOf_iff_prefix.1 hm.1)⟩, hm⟩, rfl⟩
  · congr 1
    rw [List.map_map]
    refine List.map_congr_left ?_
    intro p hp
    rw [List.mem_filter, hmem] at hp
    exact (getWid_eq ((SMap.get?_eq_some_iff _ _ _).2 hp.1.1)).symm

example : (run exPipeline lexOps).globToWordIds (fun _ => .ok (fun _ => false)) ['c', 'a', 't', '*'] = .ok [1, 4] ∧
    (run exPipeline lexOps).globToWordIds (fun _ => .ok (fun _ => false)) ['c', 'a', '?'] = .ok [2, 1] ∧
    (run exPipeline lexOps).globToWordIds (fun _ => .ok (fun _ => false)) ['c', '*', 't', '?', 'h'] = .ok [4] := by decide

/-- the property C43 in full: the ids of exactly the words seen that match the pattern, each once, in word order -/
def GlobFinds (odd : Word → Except PyErr (Word → Bool)) (pipeline : List Element) (ops : List Lexicon.Op) (p : Word) : Prop :=
  ∃ ws : List Word, ws.Pairwise (· < ·) ∧ (∀ w, w ∈ ws ↔ w ∈ seen pipeline ops ∧ GlobMatch p w) ∧
    (run pipeline ops).globToWordIds odd p = .ok (ws.map (run pipeline ops).getWid)

/-- C43 in full is false of the code, for lexicons without a pipeline (`Lexicon()`: the words are the texts): the word `a$b` matches
`a$*`, the word `^a` matches `^a*` and the word `a(newline)b` matches `a*`, but none of the three is found; whatever `odd` is -/
theorem C43_fails (odd : Word → Except PyErr (Word → Bool)) :
    (¬ GlobFinds odd [] [.source (.list [['a', '$', 'b']])] ['a', '$', '*'] ∧ GlobMatch ['a', '$', '*'] ['a', '$', 'b']) ∧
    (¬ GlobFinds odd [] [.source (.list [['^', 'a']])] ['^', 'a', '*'] ∧ GlobMatch ['^', 'a', '*'] ['^', 'a']) ∧
    (¬ GlobFinds odd [] [.source (.list [['a', '\n', 'b']])] ['a', '*'] ∧ GlobMatch ['a', '*'] ['a', '\n', 'b']) := by
  have key : ∀ (w p : Word), w ∈ seen [] [.source (.list [w])] → GlobMatch p w →
      (run [] [.source (.list [w])]).globToWordIds odd p = .ok [] → ¬ GlobFinds odd [] [.source (.list [w])] p := by
    rintro w p hw hm e ⟨ws, -, h2, h3⟩
    rw [e] at h3
    have : ws = [] := by
      injection h3 with h3
      exact (List.map_eq_nil_iff.1 h3.symm)
    have := (h2 w).2 ⟨hw, hm⟩
    simp_all
  have m1 : GlobMatch ['a', '$', '*'] ['a', '$', 'b'] := .char _ _ _ (by decide) (by decide)
    (.char _ _ _ (by decide) (by decide) (.star [] ['b'] [] .nil))
  have m2 : GlobMatch ['^', 'a', '*'] ['^', 'a'] := .char _ _ _ (by decide) (by decide)
    (.char _ _ _ (by decide) (by decide) (.star [] [] [] .nil))
  have m3 : GlobMatch ['a', '*'] ['a', '\n', 'b'] := .char _ _ _ (by decide) (by decide) (.star [] ['\n', 'b'] [] .nil)
  exact ⟨⟨key _ _ (by decide) m1 rfl, m1⟩, ⟨key _ _ (by decide) m2 rfl, m2⟩, ⟨key _ _ (by decide) m3 rfl, m3⟩⟩

/-- C43: a pattern without glob characters gives the id of that word, or nothing -/
theorem C43_plain (odd : Word → Except PyErr (Word → Bool)) (pipeline : List Element) (ops : List Lexicon.Op)
    (hn : NonNegReloads ops) (w : Word) (hw : '*' ∉ w ∧ '?' ∉ w) :
    (w ∈ seen pipeline ops → (run pipeline ops).globToWordIds odd w = .ok [(run pipeline ops).getWid w]) ∧
    (w ∉ seen pipeline ops → (run pipeline ops).globToWordIds odd w = .ok []) := by
  have hglob : ∀ x ∈ w, (!isGlobChar x) = true := by
    intro x hx
    unfold isGlobChar
    simp only [Bool.not_eq_true', Bool.or_eq_false_iff, decide_eq_false_iff_not]
    exact ⟨fun e => hw.1 (e ▸ hx), fun e => hw.2 (e ▸ hx)⟩
  have h1 : w.takeWhile (fun c => !isGlobChar c) = w := List.takeWhile_eq_self_iff.2 hglob
  have h2 : w.dropWhile (fun c => !isGlobChar c) = [] := List.dropWhile_eq_nil_iff.2 hglob
  have hb := C39_bijection pipeline ops hn
  unfold globToWordIds
  simp only [h1, h2]
  constructor
  · intro h
    simp [(hb.1 w h).1]
  · intro h
    simp [hb.2.1 w h]

/-- C43: a pattern that starts with a glob character raises `QueryError` -/
theorem C43_leading (odd : Word → Except PyErr (Word → Bool)) (s : Lexicon) (c : Char) (pat : Word) (hc : c = '*' ∨ c = '?') :
    s.globToWordIds odd (c :: pat) = .error .GlobQueryError := by
  have hcg : isGlobChar c = true := by rcases hc with rfl | rfl <;> decide
  unfold globToWordIds
  simp [hcg]

theorem findall_patterns (isW : Char → Bool) (hW : ∀ c ∈ metaChars, isW c = false) (s p : Word)
    (hp : p ∈ Splitter.findall isW (fun c => isW c || isGlobChar c) s) :
    p.takeWhile (fun c => !isGlobChar c) ≠ [] ∧ ∀ x ∈ p.takeWhile (fun c => !isGlobChar c), x ∉ metaChars := by
  have hr := Splitter.findall_runs isW (fun c => isW c || isGlobChar c) s
  have : ∃ c w, p = c :: w ∧ isW c = true ∧ ∀ x ∈ w, (isW x || isGlobChar x) = true := by
    revert hp
    generalize Splitter.findall isW (fun c => isW c || isGlobChar c) s = ws at hr
    intro hp
    induction hr with
    | done => cases hp
    | word sep c w rest ws _ hc hw _ _ ih =>
      rcases List.mem_cons.1 hp with rfl | hp
      · exact ⟨c, w, rfl, hc, hw⟩
      · exact ih hp
  obtain ⟨c, w, rfl, hc, hw⟩ := this
  have hcg : isGlobChar c = false := by
    by_contra h
    have h : isGlobChar c = true := by simpa using h
    unfold isGlobChar at h
    rw [Bool.or_eq_true] at h
    rcases h with h | h
    · rw [of_decide_eq_true h, hW _ (by decide)] at hc; cases hc
    · rw [of_decide_eq_true h, hW _ (by decide)] at hc; cases hc
  constructor
  · rw [List.takeWhile_cons]; simp [hcg]
  · intro x hx hm
    have h1 : isW x = false := hW x hm
    have h2 := List.all_eq_true.1 List.all_takeWhile x hx
    have h3 := (List.takeWhile_prefix _).subset hx
    rcases List.mem_cons.1 h3 with rfl | h3
    · rw [hc] at h1; cases h1
    · have := hw x h3
      rw [h1, Bool.false_or] at this
      rw [this] at h2
      cases h2

/-- C43: the patterns `Splitter.processGlob` produces never start with a glob character and, up to the first glob character, have
only word characters; so if no regular expression metacharacter is a word character they meet the conditions above -/
theorem C43_splitter_patterns (isW : Char → Bool) (hW : ∀ c ∈ metaChars, isW c = false) (l : List Word) (p : Word)
    (hp : p ∈ Splitter.processGlob isW l) :
    p.takeWhile (fun c => !isGlobChar c) ≠ [] ∧ ∀ x ∈ p.takeWhile (fun c => !isGlobChar c), x ∉ metaChars := by
  unfold Splitter.processGlob at hp
  rw [List.mem_flatMap] at hp
  obtain ⟨s, -, hp⟩ := hp
  exact findall_patterns isW hW s p hp

example : ∀ c ∈ metaChars, exIsW c = false := by decide

/-! ## C44 -/

/-- C44: the words of each text are its maximal runs of word characters, in order -/
theorem C44_process (isW : Char → Bool) (l : List Word) :
    ∃ wss : List (List Word), List.Forall₂ (Runs isW isW) l wss ∧ Splitter.process isW l = wss.flatten := by
  refine ⟨l.map (Splitter.findall isW isW), ?_, by unfold Splitter.process; rw [List.flatMap_def]⟩
  rw [List.forall₂_map_right_iff, List.forall₂_same]
  intro s _
  exact Splitter.findall_runs isW isW s

/-- C44: that determines the words -/
theorem C44_unique (isA isB : Char → Bool) (s : Word) (ws ws' : List Word) (h : Runs isA isB s ws) (h' : Runs isA isB s ws') :
    ws = ws' := Splitter.runs_unique isA isB h h'

/-- C44: the glob words start with a word character and go on with word characters, `*` and `?` -/
theorem C44_process_glob (isW : Char → Bool) (l : List Word) :
    ∃ wss : List (List Word), List.Forall₂ (Runs isW (fun c => isW c || c = '*' || c = '?')) l wss ∧
      Splitter.processGlob isW l = wss.flatten := by
  have e : (fun c => isW c || decide (c = '*') || decide (c = '?')) = (fun c => isW c || isGlobChar c) := by
    funext c; unfold isGlobChar; rw [Bool.or_assoc]
  rw [e]
  refine ⟨l.map (Splitter.findall isW (fun c => isW c || isGlobChar c)), ?_, by
    unfold Splitter.processGlob; rw [List.flatMap_def]⟩
  rw [List.forall₂_map_right_iff, List.forall₂_same]
  intro s _
  exact Splitter.findall_runs _ _ s

theorem _root_.Verif.Splitter.findall_glob_free (isW : Char → Bool) (s : Word) (hs : '*' ∉ s ∧ '?' ∉ s) :
    Splitter.findall isW (fun c => isW c || isGlobChar c) s = Splitter.findall isW isW s := by
  refine Splitter.runs_unique isW (fun c => isW c || isGlobChar c) (Splitter.findall_runs _ _ s) ?_
  have hr := Splitter.findall_runs isW isW s
  generalize Splitter.findall isW isW s = ws at hr
  induction hr with
  | done sep hsep => exact .done sep hsep
  | word sep c w rest ws h1 h2 h3 h4 _ ih =>
    simp only [List.mem_append, not_or] at hs
    refine .word sep c w rest ws h1 h2 (fun x hx => by simp [h3 x hx]) ?_ (ih ⟨hs.1.2, hs.2.2⟩)
    intro x hx
    have hm : x ∈ rest := List.mem_of_mem_head? hx
    simp only [h4 x hx, Bool.false_or]
    unfold isGlobChar
    rw [Bool.or_eq_false_iff]
    constructor
    · simp only [decide_eq_false_iff_not]; rintro rfl; exact hs.1.2 hm
    · simp only [decide_eq_false_iff_not]; rintro rfl; exact hs.2.2 hm

/-- C44: on texts without `*` and `?` the two methods agree -/
theorem C44_glob_free (isW : Char → Bool) (l : List Word) (h : ∀ s ∈ l, '*' ∉ s ∧ '?' ∉ s) :
    Splitter.processGlob isW l = Splitter.process isW l := by
  unfold Splitter.processGlob Splitter.process
  rw [List.flatMap_def, List.flatMap_def]
  exact congrArg List.flatten (List.map_congr_left fun s hs => Splitter.findall_glob_free isW s (h s hs))

/-- C44: splitting a word again gives it back -/
theorem C44_resplit (isW : Char → Bool) (l : List Word) (w : Word) (h : w ∈ Splitter.process isW l) :
    Splitter.process isW [w] = [w] := by
  unfold Splitter.process at h
  rw [List.mem_flatMap] at h
  obtain ⟨s, -, h⟩ := h
  have hr := Splitter.findall_runs isW isW s
  have : ∃ c t, w = c :: t ∧ isW c = true ∧ ∀ x ∈ t, isW x = true := by
    revert h
    generalize Splitter.findall isW isW s = ws at hr
    intro h
    induction hr with
    | done => cases h
    | word sep c t rest ws _ hc hw _ _ ih =>
      rcases List.mem_cons.1 h with rfl | h
      · exact ⟨c, t, rfl, hc, hw⟩
      · exact ih h
  obtain ⟨c, t, rfl, hc, ht⟩ := this
  have hr' : Runs isW isW (c :: t) [c :: t] := by
    have := Runs.word (isA := isW) (isB := isW) [] c t [] [] (by simp) hc ht (by simp) (.done [] (by simp))
    simpa using this
  show Splitter.findall isW isW (c :: t) ++ [] = _
  rw [List.append_nil]
  exact Splitter.runs_unique isW isW (Splitter.findall_runs _ _ _) hr'

example : Splitter.process exIsW [['f', 'o', 'o', ' ', '-', 'b', '*'], ['q']] = [['f', 'o', 'o'], ['b'], ['q']] ∧
    Splitter.processGlob exIsW [['f', 'o', 'o', ' ', '*', 'b', '*', '?', '-']] = [['f', 'o', 'o'], ['b', '*', '?']] := by decide

/-! ## C45 -/

/-- C45: a chunk is lower-cased, each piece of markup in it is replaced by a blank, and the words are the maximal runs of word
characters in what remains -/
theorem C45_process (isW : Char → Bool) (lower : Word → Word) (text : List Word) :
    ∃ wss : List (List Word), List.Forall₂ (fun chunk ws => ∃ t, Strip (lower chunk) t ∧ Runs isW isW t ws) text wss ∧
      Html.process isW lower text = wss.flatten := by
  refine ⟨text.map (Html.split lower (Splitter.findall isW isW)), ?_, by
    unfold Html.process Html.apply; rw [List.flatMap_def]⟩
  rw [List.forall₂_map_right_iff, List.forall₂_same]
  intro s _
  exact ⟨_, Html.sub_strip (lower s), Splitter.findall_runs isW isW _⟩

/-- C45: what remains is determined by the text -/
theorem C45_unique (s t t' : Word) (h : Strip s t) (h' : Strip s t') : t = t' := Html.strip_unique h h'

/-- C45: in a text with pieces of markup in it, the words are exactly those of the texts between them, whatever the markup
contains -/
theorem C45_document (isW : Char → Bool) (hblank : isW ' ' = false) (lower : Word → Word) (chunk first : Word)
    (rest : List (Word × Word)) (e : lower chunk = document first rest) (h1 : Plain first)
    (h2 : ∀ p ∈ rest, Markup p.1 ∧ Plain p.2) (ws : List Word) (wss : List (List Word)) (hw : Runs isW isW first ws)
    (hws : List.Forall₂ (fun p ws => Runs isW isW p.2 ws) rest wss) :
    Html.process isW lower [chunk] = ws ++ wss.flatten := by
  have hs := Html.strip_unique (Html.sub_strip (lower chunk)) (e ▸ Html.strip_document h1 h2)
  show Splitter.findall isW isW (Html.sub (lower chunk)) ++ [] = _
  rw [List.append_nil, hs]
  exact Splitter.runs_unique isW isW (Splitter.findall_runs _ _ _) (Html.runs_document hblank hblank hw hws)

/-- C45: the glob words are found in the same remaining text: they start with a word character and go on with word characters, `*`
and `?` -/
theorem C45_process_glob (isW : Char → Bool) (lower : Word → Word) (text : List Word) :
    ∃ wss : List (List Word), List.Forall₂ (fun chunk ws => ∃ t, Strip (lower chunk) t ∧
        Runs isW (fun c => isW c || c = '*' || c = '?') t ws) text wss ∧
      Html.processGlob isW lower text = wss.flatten := by
  have e : (fun c => isW c || decide (c = '*') || decide (c = '?')) = (fun c => isW c || isGlobChar c) := by
    funext c; unfold isGlobChar; rw [Bool.or_assoc]
  rw [e]
  refine ⟨text.map (Html.split lower (Splitter.findall isW (fun c => isW c || isGlobChar c))), ?_, by
    unfold Html.processGlob Html.apply; rw [List.flatMap_def]⟩
  rw [List.forall₂_map_right_iff, List.forall₂_same]
  intro s _
  exact ⟨_, Html.sub_strip (lower s), Splitter.findall_runs isW _ _⟩

/-- C45: so for the texts between the pieces of markup -/
theorem C45_document_glob (isW : Char → Bool) (hblank : isW ' ' = false) (lower : Word → Word) (chunk first : Word)
    (rest : List (Word × Word)) (e : lower chunk = document first rest) (h1 : Plain first)
    (h2 : ∀ p ∈ rest, Markup p.1 ∧ Plain p.2) (ws : List Word) (wss : List (List Word))
    (hw : Runs isW (fun c => isW c || c = '*' || c = '?') first ws)
    (hws : List.Forall₂ (fun p ws => Runs isW (fun c => isW c || c = '*' || c = '?') p.2 ws) rest wss) :
    Html.processGlob isW lower [chunk] = ws ++ wss.flatten := by
  have hs := Html.strip_unique (Html.sub_strip (lower chunk)) (e ▸ Html.strip_document h1 h2)
  have e : (fun c => isW c || decide (c = '*') || decide (c = '?')) = (fun c => isW c || isGlobChar c) := by
    funext c; unfold isGlobChar; rw [Bool.or_assoc]
  rw [e] at hw hws
  show Splitter.findall isW (fun c => isW c || isGlobChar c) (Html.sub (lower chunk)) ++ [] = _
  rw [List.append_nil, hs]
  exact Splitter.runs_unique isW _ (Splitter.findall_runs _ _ _)
    (Html.runs_document hblank (by show (isW ' ' || isGlobChar ' ') = false; rw [hblank]; rfl) hw hws)

/-- C45: on texts whose lower case has no `*` and `?` the two methods agree -/
theorem C45_glob_free (isW : Char → Bool) (lower : Word → Word) (text : List Word) (h : ∀ s ∈ text, '*' ∉ lower s ∧ '?' ∉ lower s) :
    Html.processGlob isW lower text = Html.process isW lower text := by
  unfold Html.processGlob Html.process Html.apply
  rw [List.flatMap_def, List.flatMap_def]
  refine congrArg List.flatten (List.map_congr_left fun s hs => ?_)
  exact Splitter.findall_glob_free isW _ ⟨fun hm => (h s hs).1 (Html.strip_mem (Html.sub_strip (lower s)) (by decide) hm),
    fun hm => (h s hs).2 (Html.strip_mem (Html.sub_strip (lower s)) (by decide) hm)⟩

example : Html.processGlob exIsW exLowerWord [['A', 'b', '*', '<', 'p', '*', '>', 'c', '?', '&', 'a', 'm', 'p', ';', '*', 'd']] =
    [['a', 'b', '*'], ['c', '?'], ['d']] := by decide

example : Html.process exIsW exLowerWord
    [['A', 'b', '<', 'p', ' ', 'x', '=', 'y', '>', 'c', '&', 'a', 'm', 'p', ';', 'd', '<', ' ', 'e', '&', 'f']] =
    [['a', 'b'], ['c'], ['d'], ['e'], ['f']] := by decide

example : Plain ['a', 'b'] ∧ Markup ['<', 'p', ' ', 'x', '>'] ∧ Markup ['&', 'l', 't', ';'] ∧
    document ['a', 'b'] [(['<', 'p', ' ', 'x', '>'], ['c']), (['&', 'l', 't', ';'], ['d'])] =
      ['a', 'b', '<', 'p', ' ', 'x', '>', 'c', '&', 'l', 't', ';', 'd'] := by
  refine ⟨by unfold Plain; decide, .tag ['p', ' ', 'x'] (by decide) (by decide), .entity ['l', 't'] (by decide) ?_, rfl⟩
  intro c hc
  unfold AsciiLetter
  revert c; decide

end Verif
