import Verif.Spec.Lexicon
import Verif.Proofs.Base
import Mathlib.Data.Finset.Card
import Mathlib.Data.Finset.Image
import Mathlib.Order.Interval.Finset.Nat
import Mathlib.Tactic.Linarith

set_option autoImplicit false

namespace Verif
namespace Lexicon

open Spec (pipelined textOf seen wordsOfOp NonNegReloads NoReloads GlobMatch)

theorem runPipeline_eq (pipeline : List Element) (l : List Word) : runPipeline pipeline l = pipelined pipeline l := by
  unfold runPipeline
  induction pipeline generalizing l with
  | nil => rfl
  | cons e es ih => exact ih (e.process l)

theorem sourceText_eq (t : TextArg) : sourceText t = textOf t := by cases t <;> rfl

/-! ### allocation -/

theorem le_bump (words : SMap Int Word) (fuel : Nat) (c : Int) : c ≤ bump words fuel c := by
  induction fuel generalizing c with
  | zero => exact Int.le_refl _
  | succ n ih =>
    unfold bump
    split
    · have := ih (c + 1); omega
    · exact Int.le_refl _

/-- if the loop stops at a taken key, all the keys on its way were taken -/
theorem bump_taken (words : SMap Int Word) (fuel : Nat) (c : Int) (h : words.contains (bump words fuel c) = true) :
    ∀ i : Nat, i ≤ fuel → words.contains (c + i) = true := by
  induction fuel generalizing c with
  | zero =>
    intro i hi
    have : i = 0 := by omega
    subst this
    simpa [bump] using h
  | succ n ih =>
    unfold bump at h
    by_cases hc : words.contains c = true
    · rw [if_pos hc] at h
      intro i hi
      rcases i with _ | i
      · simpa using hc
      · have := ih (c + 1) h i (by omega)
        have e : c + ((i + 1 : Nat) : Int) = c + 1 + (i : Int) := by push_cast; omega
        rw [e]; exact this
    · rw [if_neg hc] at h
      exact absurd h hc

theorem bump_free (words : SMap Int Word) (c : Int) : words.contains (bump words (words.len + 1) c) = false := by
  by_contra hcon
  have hcon : words.contains (bump words (words.len + 1) c) = true := by simpa using hcon
  have h := bump_taken words (words.len + 1) c hcon
  have hsub : ((List.range (words.len + 2)).map (fun i : Nat => c + (i : Int))) ⊆ words.keys := by
    intro x hx
    rw [List.mem_map] at hx
    obtain ⟨i, hi, rfl⟩ := hx
    rw [List.mem_range] at hi
    exact (SMap.contains_iff_mem _ _).1 (h i (by omega))
  have hnd : ((List.range (words.len + 2)).map (fun i : Nat => c + (i : Int))).Nodup := by
    refine (List.nodup_map_iff_inj_on List.nodup_range).2 ?_
    intro a _ b _ e
    have e : c + (a : Int) = c + (b : Int) := e
    omega
  have := (List.subperm_of_subset hnd hsub).length_le
  rw [SMap.len_keys, List.length_map, List.length_range] at this
  omega

theorem newWid_free (s : Lexicon) : s.words.get? s.newWid = none := by
  rw [← SMap.contains_eq_false]; exact bump_free _ _

theorem newWid_gt (s : Lexicon) : s.count < s.newWid := by
  have := le_bump s.words (s.words.len + 1) (s.count + 1)
  unfold newWid; omega

/-- the two maps are inverse to each other -/
def Inv (s : Lexicon) : Prop := ∀ w n, s.wids.get? w = some n ↔ s.words.get? n = some w

/-- no id is 0 -/
def NoZero (s : Lexicon) : Prop := 0 ≤ s.count ∧ s.words.get? 0 = none

/-- the counter is exact -/
def Exact (s : Lexicon) : Prop := (s.words.len : Int) = s.count ∧ ∀ n, s.words.contains n = true → 1 ≤ n ∧ n ≤ s.count

theorem inv_new : Inv new := by intro w n; simp [new]
theorem noZero_new : NoZero new := ⟨by simp [new], by simp [new]⟩
theorem exact_new : Exact new := ⟨by simp [new], by intro n; simp [new]⟩

theorem getWordIdCreate_some {s : Lexicon} {w : Word} {n : Int} (h : s.wids.get? w = some n) :
    s.getWordIdCreate w = (s, n) := by
  unfold getWordIdCreate; rw [h]

theorem getWordIdCreate_none {s : Lexicon} {w : Word} (h : s.wids.get? w = none) :
    s.getWordIdCreate w =
      ({ wids := s.wids.set w s.newWid, words := s.words.set s.newWid w, count := s.newWid }, s.newWid) := by
  unfold getWordIdCreate; rw [h]

theorem create_inv {s : Lexicon} (hi : Inv s) (w : Word) : Inv (s.getWordIdCreate w).1 := by
  cases h : s.wids.get? w with
  | some n => rw [getWordIdCreate_some h]; exact hi
  | none =>
    rw [getWordIdCreate_none h]
    intro w' n
    show (s.wids.set w s.newWid).get? w' = some n ↔ (s.words.set s.newWid w).get? n = some w'
    rw [SMap.get?_set, SMap.get?_set]
    by_cases hw : w' = w
    · subst hw
      rw [if_pos rfl]
      by_cases hn : n = s.newWid
      · subst hn; simp
      · rw [if_neg hn]
        constructor
        · intro e; cases e; exact absurd rfl hn
        · intro e
          have := (hi w' n).2 e
          rw [h] at this; cases this
    · rw [if_neg hw]
      by_cases hn : n = s.newWid
      · subst hn
        rw [if_pos rfl]
        constructor
        · intro e
          have := (hi w' s.newWid).1 e
          rw [newWid_free] at this; cases this
        · intro e; cases e; exact absurd rfl hw
      · rw [if_neg hn]; exact hi w' n

theorem create_noZero {s : Lexicon} (hz : NoZero s) (w : Word) : NoZero (s.getWordIdCreate w).1 := by
  cases h : s.wids.get? w with
  | some n => rw [getWordIdCreate_some h]; exact hz
  | none =>
    rw [getWordIdCreate_none h]
    have hg := newWid_gt s
    have h0 := hz.1
    refine ⟨?_, ?_⟩
    · show 0 ≤ s.newWid
      omega
    · show (s.words.set s.newWid w).get? 0 = none
      rw [SMap.get?_set_ne _ (by omega)]; exact hz.2

theorem exact_newWid {s : Lexicon} (he : Exact s) : s.newWid = s.count + 1 := by
  unfold newWid bump
  have : s.words.contains (s.count + 1) = false := by
    by_contra hc
    have hc : s.words.contains (s.count + 1) = true := by simpa using hc
    have := (he.2 _ hc).2
    omega
  rw [this]; simp

theorem create_exact {s : Lexicon} (he : Exact s) (w : Word) : Exact (s.getWordIdCreate w).1 := by
  cases h : s.wids.get? w with
  | some n => rw [getWordIdCreate_some h]; exact he
  | none =>
    rw [getWordIdCreate_none h]
    have hn := exact_newWid he
    have hfree := newWid_free s
    have hc0 : (0 : Int) ≤ s.count := by have := he.1; omega
    refine ⟨?_, ?_⟩
    · show ((s.words.set s.newWid w).len : Int) = s.newWid
      rw [SMap.len_set, (SMap.contains_eq_false _ _).2 hfree]
      have := he.1
      simp; omega
    · intro n hcn
      have hcn : (s.words.set s.newWid w).contains n = true := hcn
      show 1 ≤ n ∧ n ≤ s.newWid
      rw [SMap.contains_set] at hcn
      by_cases e : n = s.newWid
      · omega
      · have := he.2 n (by simpa [e] using hcn)
        omega

/-- ids already assigned stay -/
def Le (s t : Lexicon) : Prop := ∀ w n, s.wids.get? w = some n → t.wids.get? w = some n

theorem Le.refl (s : Lexicon) : Le s s := fun _ _ h => h
theorem Le.trans {a b c : Lexicon} (h : Le a b) (h' : Le b c) : Le a c := fun w n e => h' w n (h w n e)

theorem create_le (s : Lexicon) (w : Word) : Le s (s.getWordIdCreate w).1 := by
  cases h : s.wids.get? w with
  | some n => rw [getWordIdCreate_some h]; exact Le.refl s
  | none =>
    rw [getWordIdCreate_none h]
    intro w' n e
    show (s.wids.set w s.newWid).get? w' = some n
    rw [SMap.get?_set_ne]
    · exact e
    · rintro rfl; rw [h] at e; cases e

theorem create_get (s : Lexicon) (w : Word) : (s.getWordIdCreate w).1.wids.get? w = some (s.getWordIdCreate w).2 := by
  cases h : s.wids.get? w with
  | some n => rw [getWordIdCreate_some h]; exact h
  | none => rw [getWordIdCreate_none h]; exact SMap.get?_set_self _ _ _

theorem create_domain (s : Lexicon) (w w' : Word) :
    (s.getWordIdCreate w).1.wids.contains w' = true ↔ w' = w ∨ s.wids.contains w' = true := by
  cases h : s.wids.get? w with
  | some n =>
    rw [getWordIdCreate_some h]
    constructor
    · exact Or.inr
    · rintro (rfl | h')
      · exact SMap.contains_of_get? h
      · exact h'
  | none =>
    rw [getWordIdCreate_none h]
    show (s.wids.set w s.newWid).contains w' = true ↔ _
    rw [SMap.contains_set]
    by_cases e : w' = w <;> simp [e]

theorem createAll_preserves (P : Lexicon → Prop) (hP : ∀ s w, P s → P (s.getWordIdCreate w).1) (s : Lexicon)
    (ws : List Word) (h : P s) : P (s.createAll ws).1 := by
  induction ws generalizing s with
  | nil => exact h
  | cons w ws ih => exact ih _ (hP s w h)

theorem createAll_le (s : Lexicon) (ws : List Word) : Le s (s.createAll ws).1 := by
  induction ws generalizing s with
  | nil => exact Le.refl s
  | cons w ws ih => exact (create_le s w).trans (ih _)

theorem createAll_get (s : Lexicon) (ws : List Word) :
    ws.map (fun w => (s.createAll ws).1.wids.get? w) = (s.createAll ws).2.map some := by
  induction ws generalizing s with
  | nil => rfl
  | cons w ws ih =>
    show _ :: _ = _ :: _
    congr 1
    · exact createAll_le _ ws _ _ (create_get s w)
    · exact ih _

theorem createAll_domain (s : Lexicon) (ws : List Word) (w : Word) :
    (s.createAll ws).1.wids.contains w = true ↔ w ∈ ws ∨ s.wids.contains w = true := by
  induction ws generalizing s with
  | nil => simp [createAll]
  | cons v ws ih =>
    show (((s.getWordIdCreate v).1.createAll ws).1).wids.contains w = true ↔ _
    rw [ih, create_domain, List.mem_cons]
    tauto

/-! ### histories -/

theorem step_inv (pipeline : List Element) (s : Lexicon) (op : Op) (h : Inv s) : Inv (step pipeline s op) := by
  cases op with
  | source t => exact createAll_preserves Inv (fun s w h => create_inv h w) _ _ h
  | reload n => exact h

theorem runFrom_inv (pipeline : List Element) (s : Lexicon) (ops : List Op) (h : Inv s) : Inv (runFrom pipeline s ops) := by
  unfold runFrom
  induction ops generalizing s with
  | nil => exact h
  | cons op ops ih => exact ih _ (step_inv pipeline s op h)

theorem run_inv (pipeline : List Element) (ops : List Op) : Inv (run pipeline ops) := runFrom_inv _ _ _ inv_new

theorem runFrom_noZero (pipeline : List Element) (s : Lexicon) (ops : List Op) (hn : NonNegReloads ops) (h : NoZero s) :
    NoZero (runFrom pipeline s ops) := by
  unfold runFrom
  induction ops generalizing s with
  | nil => exact h
  | cons op ops ih =>
    refine ih _ (fun n hm => hn n (List.mem_cons_of_mem _ hm)) ?_
    cases op with
    | source t => exact createAll_preserves NoZero (fun s w h => create_noZero h w) _ _ h
    | reload n => exact ⟨hn n List.mem_cons_self, h.2⟩

theorem run_noZero (pipeline : List Element) (ops : List Op) (hn : NonNegReloads ops) : NoZero (run pipeline ops) :=
  runFrom_noZero _ _ _ hn noZero_new

theorem run_exact (pipeline : List Element) (ops : List Op) (hn : NoReloads ops) : Exact (run pipeline ops) := by
  unfold run runFrom
  have : ∀ s, Exact s → Exact (ops.foldl (step pipeline) s) := by
    induction ops with
    | nil => exact fun s h => h
    | cons op ops ih =>
      intro s h
      refine ih (fun n hm => hn n (List.mem_cons_of_mem _ hm)) _ ?_
      cases op with
      | source t => exact createAll_preserves Exact (fun s w h => create_exact h w) _ _ h
      | reload n => exact absurd List.mem_cons_self (hn n)
  exact this _ exact_new

theorem step_le (pipeline : List Element) (s : Lexicon) (op : Op) : Le s (step pipeline s op) := by
  cases op with
  | source t => exact createAll_le _ _
  | reload n => exact Le.refl _

theorem runFrom_le (pipeline : List Element) (s : Lexicon) (ops : List Op) : Le s (runFrom pipeline s ops) := by
  unfold runFrom
  induction ops generalizing s with
  | nil => exact Le.refl s
  | cons op ops ih => exact (step_le pipeline s op).trans (ih _)

theorem runFrom_domain (pipeline : List Element) (s : Lexicon) (ops : List Op) (w : Word) :
    (runFrom pipeline s ops).wids.contains w = true ↔ w ∈ seen pipeline ops ∨ s.wids.contains w = true := by
  unfold runFrom
  induction ops generalizing s with
  | nil => simp [seen]
  | cons op ops ih =>
    rw [List.foldl_cons, ih]
    have : (step pipeline s op).wids.contains w = true ↔ w ∈ wordsOfOp pipeline op ∨ s.wids.contains w = true := by
      cases op with
      | source t =>
        show (s.createAll _).1.wids.contains w = true ↔ _
        rw [createAll_domain, runPipeline_eq, sourceText_eq]; rfl
      | reload n => simp [step, wordsOfOp]
    rw [this]
    have : w ∈ seen pipeline (op :: ops) ↔ w ∈ wordsOfOp pipeline op ∨ w ∈ seen pipeline ops := by
      unfold seen; rw [List.flatMap_cons, List.mem_append]
    rw [this]
    tauto

theorem run_domain (pipeline : List Element) (ops : List Op) (w : Word) :
    (run pipeline ops).wids.contains w = true ↔ w ∈ seen pipeline ops := by
  unfold run
  rw [runFrom_domain]; simp [new]

theorem getWid_eq {s : Lexicon} {w : Word} {n : Int} (h : s.wids.get? w = some n) : s.getWid w = n := by
  unfold getWid; rw [h]; rfl

/-! ### globs -/

theorem starMatch_iff (rest : Word → Bool) (s : Word) :
    starMatch rest s = true ↔ ∃ a b, s = a ++ b ∧ '\n' ∉ a ∧ rest b = true := by
  induction s with
  | nil =>
    constructor
    · intro h; exact ⟨[], [], rfl, by simp, h⟩
    · rintro ⟨a, b, e, -, h⟩
      have := List.append_eq_nil_iff.1 e.symm
      rw [this.2] at h; exact h
  | cons c s ih =>
    unfold starMatch
    rw [Bool.or_eq_true, Bool.and_eq_true, ih]
    constructor
    · rintro (h | ⟨hc, a, b, rfl, ha, hb⟩)
      · exact ⟨[], c :: s, rfl, by simp, h⟩
      · refine ⟨c :: a, b, rfl, ?_, hb⟩
        simp only [decide_eq_true_eq] at hc
        simp only [List.mem_cons, not_or]
        exact ⟨fun e => hc e.symm, ha⟩
    · rintro ⟨a, b, e, ha, hb⟩
      rcases a with _ | ⟨x, a⟩
      · left; rw [List.nil_append] at e; rw [e]; exact hb
      · right
        rw [List.cons_append] at e
        injection e with e1 e2
        subst e1
        simp only [List.mem_cons, not_or] at ha
        exact ⟨by simpa using fun e => ha.1 e.symm, a, b, e2, ha.2, hb⟩

theorem globMatch_char {c : Char} {p s : Word} (h1 : c ≠ '*') (h2 : c ≠ '?') (h : GlobMatch (c :: p) s) :
    ∃ t, s = c :: t ∧ GlobMatch p t := by
  generalize hq : c :: p = q at h
  cases h with
  | nil => cases hq
  | star => injection hq with e; exact absurd e h1
  | quest => injection hq with e; exact absurd e h2
  | char c p s _ _ h => injection hq with e e'; subst e; subst e'; exact ⟨s, rfl, h⟩

theorem reMatch_iff (p s : Word) (hs : '\n' ∉ s) : reMatch (p.map toPat) s = true ↔ GlobMatch p s := by
  induction p generalizing s with
  | nil =>
    show (decide (s = []) || decide (s = ['\n'])) = true ↔ _
    have h2 : s ≠ ['\n'] := by rintro rfl; simp at hs
    constructor
    · intro h
      simp [h2] at h
      subst h; exact .nil
    · intro h; cases h; rfl
  | cons c p ih =>
    by_cases h1 : c = '*'
    · subst h1
      show starMatch (reMatch (p.map toPat)) s = true ↔ _
      rw [starMatch_iff]
      constructor
      · rintro ⟨a, b, rfl, -, hb⟩
        refine .star p a b ((ih b ?_).1 hb)
        intro h; exact hs (List.mem_append_right _ h)
      · intro h
        cases h with
        | star _ run s hm =>
          refine ⟨run, s, rfl, fun h => hs (List.mem_append_left _ h), (ih s ?_).2 hm⟩
          intro h; exact hs (List.mem_append_right _ h)
        | char _ _ _ h => exact absurd rfl h
    · by_cases h2 : c = '?'
      · subst h2
        cases s with
        | nil =>
          constructor
          · intro h; cases h
          · intro h; cases h
        | cons a s =>
          simp only [List.mem_cons, not_or] at hs
          have e : reMatch (List.map toPat ('?' :: p)) (a :: s) = (decide (a ≠ '\n') && reMatch (p.map toPat) s) := rfl
          rw [e, Bool.and_eq_true, ih s hs.2]
          constructor
          · rintro ⟨-, h⟩; exact .quest p a s h
          · intro h
            refine ⟨by simpa using fun e => hs.1 e.symm, ?_⟩
            cases h with
            | quest _ _ _ h => exact h
            | char _ _ _ _ h => exact absurd rfl h
      · cases s with
        | nil =>
          constructor
          · intro h
            rw [List.map_cons, toPat, if_neg h1, if_neg h2] at h
            cases h
          · intro h
            obtain ⟨t, e, -⟩ := globMatch_char h1 h2 h
            cases e
        | cons a s =>
          simp only [List.mem_cons, not_or] at hs
          have e : reMatch (List.map toPat (c :: p)) (a :: s) = (decide (a = c) && reMatch (p.map toPat) s) := by
            rw [List.map_cons, toPat, if_neg h1, if_neg h2]; rfl
          rw [e, Bool.and_eq_true, ih s hs.2]
          constructor
          · rintro ⟨ha, h⟩
            have ha : a = c := by simpa using ha
            subst ha
            exact .char a p s h1 h2 h
          · intro h
            obtain ⟨t, e, h⟩ := globMatch_char h1 h2 h
            injection e with e1 e2
            subst e1; subst e2
            exact ⟨by simp, h⟩

theorem toPat_lit {c : Char} (h : isGlobChar c = false) : toPat c = .lit c := by
  unfold isGlobChar at h
  rw [Bool.or_eq_false_iff] at h
  unfold toPat
  rw [if_neg (by simpa using h.1), if_neg (by simpa using h.2)]

/-- a string that begins with `pre` comes before every greater string that does not, once past `pre` -/
theorem prefix_between {p a b : Word} (h1 : p ≤ a) (h2 : a < b) (h : p <+: b) : p <+: a := by
  induction p generalizing a b with
  | nil => exact List.nil_prefix
  | cons c p ih =>
    obtain ⟨t, rfl⟩ := h
    rcases a with _ | ⟨x, a⟩
    · exact absurd h1 (not_le.2 (List.nil_lt_cons _ _))
    · rw [List.cons_append] at h2
      rw [List.cons_lt_cons_iff] at h2
      have h1' : c < x ∨ c = x ∧ p ≤ a := by
        by_cases e : c = x
        · subst e
          right
          refine ⟨rfl, ?_⟩
          by_contra hlt
          exact absurd h1 (not_le.2 (List.cons_lt_cons_iff.2 (Or.inr ⟨rfl, not_le.1 hlt⟩)))
        · left
          rcases lt_trichotomy c x with h | h | h
          · exact h
          · exact absurd h e
          · exact absurd h1 (not_le.2 (List.cons_lt_cons_iff.2 (Or.inl h)))
      rcases h1' with hc | ⟨rfl, hp⟩
      · rcases h2 with h2 | ⟨h2, -⟩
        · exact absurd (lt_trans hc h2) (lt_irrefl _)
        · exact absurd (h2 ▸ hc) (lt_irrefl _)
      · rcases h2 with h2 | ⟨-, h2⟩
        · exact absurd h2 (lt_irrefl _)
        · exact (List.cons_prefix_cons).2 ⟨rfl, ih hp h2 (List.prefix_append _ _)⟩

theorem le_of_prefix {p a : Word} (h : p <+: a) : p ≤ a := by
  induction p generalizing a with
  | nil => exact not_lt.1 (fun h => List.not_lt_nil _ h)
  | cons c p ih =>
    obtain ⟨t, rfl⟩ := h
    rw [List.cons_append]
    by_contra hlt
    rcases List.cons_lt_cons_iff.1 (not_le.1 hlt) with h | ⟨-, h⟩
    · exact absurd h (lt_irrefl _)
    · exact absurd h (not_lt.2 (ih (List.prefix_append _ _)))

theorem compile_ok (odd : Word → Except PyErr (Word → Bool)) (pre pat : Word) (hpre : ∀ c ∈ pre, c ∉ specialChars) :
    compile odd pre pat = .ok (preMatch (reMatch (pat.map toPat)) true pre) := by
  unfold compile
  rw [if_neg]
  simp only [List.any_eq_true, not_exists, not_and]
  intro c hc
  have h1 := hpre c hc
  have h2 : c ∉ oddChars := fun h => h1 (List.mem_cons_of_mem _ (List.mem_cons_of_mem _ h))
  simpa using h2

/-- a prefix without special characters other than `.`, on the words the loop comes to (they start with it) -/
theorem preMatch_prefix (rest : Word → Bool) (start : Bool) (pre t : Word) (hpre : ∀ c ∈ pre, c ∉ specialChars) (hnl : '\n' ∉ pre) :
    preMatch rest start pre (pre ++ t) = rest t := by
  induction pre generalizing start with
  | nil => simp [preMatch]
  | cons c pre ih =>
    have h := hpre c List.mem_cons_self
    have h1 : c ≠ '^' := by rintro rfl; exact h (by decide)
    have h2 : c ≠ '$' := by rintro rfl; exact h (by decide)
    have h3 : c ≠ '\n' := by rintro rfl; exact hnl List.mem_cons_self
    rw [List.cons_append, preMatch, if_neg h1, if_neg h2]
    simp only [ih false (fun c hc => hpre c (List.mem_cons_of_mem _ hc)) (fun hc => hnl (List.mem_cons_of_mem _ hc))]
    by_cases hd : c = '.'
    · simp [hd]
    · simp [hd]

/-- the loop without its `break` -/
theorem globLoop_ok (prog : Word → Bool) (pre : Word)
    (l : List (Word × Int)) (hs : l.Pairwise (fun a b => a.1 < b.1)) (hge : ∀ p ∈ l, pre ≤ p.1) :
    globLoop prog pre l = (l.filter (fun p => pre.isPrefixOf p.1 && prog p.1)).map (·.2) := by
  induction l with
  | nil => rfl
  | cons q l ih =>
    obtain ⟨key, wid⟩ := q
    rw [List.pairwise_cons] at hs
    unfold globLoop
    by_cases hp : pre.isPrefixOf key = true
    · rw [if_pos hp, ih hs.2 (fun p h => hge p (List.mem_cons_of_mem _ h))]
      rw [List.filter_cons]
      show _ = List.map _ (if (pre.isPrefixOf key && prog key) = true then _ else _)
      rw [hp, Bool.true_and]
      split <;> rfl
    · rw [if_neg hp]
      symm
      rw [List.map_eq_nil_iff, List.filter_eq_nil_iff]
      intro p hmem
      have : pre.isPrefixOf p.1 = false := by
        by_contra hcon
        have hcon : pre.isPrefixOf p.1 = true := by simpa using hcon
        rcases List.mem_cons.1 hmem with rfl | hmem'
        · exact hp hcon
        · apply hp
          have h1 := hge (key, wid) List.mem_cons_self
          have h2 := hs.1 p hmem'
          exact List.isPrefixOf_iff_prefix.2 (prefix_between h1 h2 (List.isPrefixOf_iff_prefix.1 hcon))
      simp [this]

theorem reMatch_lits (pre : Word) (q : List Pat) (s : Word) :
    reMatch (pre.map .lit ++ q) s = true ↔ ∃ t, s = pre ++ t ∧ reMatch q t = true := by
  induction pre generalizing s with
  | nil => simp
  | cons c pre ih =>
    rcases s with _ | ⟨a, s⟩
    · constructor
      · intro h; cases h
      · rintro ⟨t, e, -⟩; cases e
    · have e : reMatch (List.map .lit (c :: pre) ++ q) (a :: s) = (decide (a = c) && reMatch (pre.map .lit ++ q) s) := rfl
      rw [e, Bool.and_eq_true, ih]
      constructor
      · rintro ⟨h, t, rfl, ht⟩
        have h : a = c := by simpa using h
        subst h
        exact ⟨t, rfl, ht⟩
      · rintro ⟨t, e, ht⟩
        rw [List.cons_append] at e
        injection e with e1 e2
        exact ⟨by simpa using e1, t, e2, ht⟩

theorem reMatch_prefix (pre : Word) (q : List Pat) (s : Word) (h : reMatch (pre.map .lit ++ q) s = true) :
    pre.isPrefixOf s = true := by
  obtain ⟨t, rfl, -⟩ := (reMatch_lits pre q s).1 h
  exact List.isPrefixOf_iff_prefix.2 (List.prefix_append _ _)

theorem globToWordIds_eq (odd : Word → Except PyErr (Word → Bool)) (s : Lexicon) (pattern pre pat : Word)
    (e : pattern = pre ++ pat) (hpre : ∀ c ∈ pre, isGlobChar c = false)
    (hpat : ∃ c t, pat = c :: t ∧ isGlobChar c = true) (hne : pre ≠ []) :
    globToWordIds odd s pattern =
      (compile odd pre pat).map (fun prog => globLoop prog pre (s.wids.range (some pre) none).items) := by
  obtain ⟨c, t, rfl, hc⟩ := hpat
  have h1 : pattern.takeWhile (fun c => !isGlobChar c) = pre := by
    rw [e, List.takeWhile_append_of_pos (by intro x hx; simp [hpre x hx])]
    rw [List.takeWhile_cons]; simp [hc]
  have h2 : pattern.dropWhile (fun c => !isGlobChar c) = c :: t := by
    rw [e, List.dropWhile_append_of_pos (by intro x hx; simp [hpre x hx])]
    rw [List.dropWhile_cons]; simp [hc]
  unfold globToWordIds
  simp only [h1, h2]
  rw [if_neg (by simp), if_neg (by simpa using hne)]
  cases compile odd pre (c :: t) <;> rfl

end Lexicon

/-! ### splitters -/

namespace Splitter
open Spec (Runs)

theorem findallF_runs (isA isB : Char → Bool) (fuel : Nat) (s : Word) (hf : s.length ≤ fuel) :
    Runs isA isB s (findallF isA isB fuel s) := by
  induction fuel generalizing s with
  | zero =>
    have : s = [] := List.length_eq_zero_iff.1 (by omega)
    subst this
    exact .done [] (by simp)
  | succ n ih =>
    rcases s with _ | ⟨c, t⟩
    · exact .done [] (by simp)
    · unfold findallF
      by_cases hc : isA c = true
      · rw [if_pos hc]
        have e : c :: t = [] ++ (c :: t.takeWhile isB) ++ t.dropWhile isB := by
          simp [List.takeWhile_append_dropWhile]
        have hlen : (t.dropWhile isB).length ≤ n := by
          have := (List.dropWhile_suffix isB (l := t)).length_le
          simp at hf; omega
        have := Runs.word [] c (t.takeWhile isB) (t.dropWhile isB) _ (by simp) hc
          (fun x hx => List.all_eq_true.1 (List.all_takeWhile (p := isB) (l := t)) x hx) (by
            intro x hx
            have := List.head?_dropWhile_not isB t
            rw [hx] at this
            simpa using this) (ih _ hlen)
        rw [← e] at this
        exact this
      · rw [if_neg hc]
        have h := ih t (by simpa using hf)
        have hcf : isA c = false := by simpa using hc
        generalize findallF isA isB n t = ws at h
        cases h with
        | done sep hs =>
          refine .done _ ?_
          intro x hx
          rcases List.mem_cons.1 hx with rfl | hx
          · exact hcf
          · exact hs x hx
        | word sep c' w rest ws hs h1 h2 h3 h4 =>
          have := Runs.word (c :: sep) c' w rest ws (by
            intro x hx
            rcases List.mem_cons.1 hx with rfl | hx
            · exact hcf
            · exact hs x hx) h1 h2 h3 h4
          simpa using this

theorem findall_runs (isA isB : Char → Bool) (s : Word) : Runs isA isB s (findall isA isB s) :=
  findallF_runs isA isB _ s (Nat.le_refl _)

theorem length_append_cons_lt {sep w rest : Word} {c : Char} : rest.length < (sep ++ (c :: w) ++ rest).length := by
  simp; omega

/-- the words are determined by the text -/
theorem runs_unique (isA isB : Char → Bool) {s : Word} {ws ws' : List Word} (h : Runs isA isB s ws)
    (h' : Runs isA isB s ws') : ws = ws' := by
  induction h generalizing ws' with
  | done sep hs =>
    cases h' with
    | done => rfl
    | word sep' c w rest ws' _ hc =>
      have := hs c (by simp)
      rw [hc] at this; cases this
  | word sep c w rest ws hs hc hw hr _ ih =>
    generalize he : sep ++ (c :: w) ++ rest = s at h'
    cases h' with
    | done _ hs' =>
      have := hs' c (by rw [← he]; simp)
      rw [hc] at this; cases this
    | word sep' c' w' rest' ws' hs' hc' hw' hr' h'' =>
      have key : sep = sep' ∧ c :: w ++ rest = c' :: w' ++ rest' := by
        have e1 : (sep ++ (c :: w) ++ rest).takeWhile (fun x => !isA x) = sep := by
          rw [List.append_assoc, List.takeWhile_append_of_pos (by intro x hx; simp [hs x hx])]
          simp [hc]
        have e2 : (sep' ++ (c' :: w') ++ rest').takeWhile (fun x => !isA x) = sep' := by
          rw [List.append_assoc, List.takeWhile_append_of_pos (by intro x hx; simp [hs' x hx])]
          simp [hc']
        have e3 : sep = sep' := by rw [← e1, ← e2, he]
        refine ⟨e3, ?_⟩
        rw [List.append_assoc, List.append_assoc, e3] at he
        exact List.append_cancel_left he
      obtain ⟨-, e⟩ := key
      rw [List.cons_append, List.cons_append] at e
      injection e with e1 e2
      subst e1
      have f1 : (w ++ rest).takeWhile isB = w := by
        rw [List.takeWhile_append_of_pos hw]
        rcases rest with _ | ⟨x, r⟩
        · simp
        · simp [hr x rfl]
      have f2 : (w' ++ rest').takeWhile isB = w' := by
        rw [List.takeWhile_append_of_pos hw']
        rcases rest' with _ | ⟨x, r⟩
        · simp
        · simp [hr' x rfl]
      have f3 : w = w' := by rw [← f1, ← f2, e2]
      subst f3
      have f4 : rest = rest' := List.append_cancel_left e2
      subst f4
      rw [ih h'']

end Splitter
end Verif
