import Verif.Proofs.Alias
import Verif.Proofs.ExpOne
import Verif.Props.TextScores

/-! # C66: searching does not change the index

`Text.applyObj` is `TextIndex.apply` with object identities: it also gives the index after the call.  `okapiOwns` and `cosineOwns`
say for which words the mapping used in the search is the index's own object. -/

set_option autoImplicit false

namespace Verif

open SetOps Text Spec

variable {D R : Type} [LinearOrder D]

/-- The results of the model with identities are those of the model without, on which all other theorems about queries rest. -/
theorem C66_same_results (A : Arith R) (P : Bm25 R) (cdiv : R → R → R) (owns : Ix D R → Int → Bool) (isSpace : Char → Bool)
    (upper : Word → Word) (odd : Word → Except PyErr (Word → Bool)) (pipeline : List Element) (s : TI D R) (q : Word) (K : Kind D R)
    (hK : K = okapi A P ∨ K = okapiC A cdiv P ∨ K = cosine A) :
    (applyObj K owns isSpace upper odd pipeline s q).map Prod.fst = apply K isSpace upper odd pipeline s q := by
  have hw : PerWord K := by
    rcases hK with rfl | rfl | rfl
    · exact okapi_perWord A P
    · exact okapiC_perWord A cdiv P
    · exact cosine_perWord A
  unfold applyObj apply
  cases QueryParser.parseQuery isSpace upper (Lexicon.parseTerms pipeline) q with
  | error e => rfl
  | ok t => exact applyTreeObj_fst hw owns odd pipeline s t.1

theorem applyObj_same {K : Kind D R} {owns : Ix D R → Int → Bool} {s : TI D R} (hS : Safe K owns s.ix) {isSpace : Char → Bool}
    {upper : Word → Word} {odd : Word → Except PyErr (Word → Bool)} {pipeline : List Element} {q : Word} {r : Option (SMap D R)}
    {s' : TI D R} (h : applyObj K owns isSpace upper odd pipeline s q = .ok (r, s')) : s' = s := by
  unfold applyObj at h
  split at h
  · cases h
  · exact applyTreeObj_same owns hS odd pipeline _ r s' h

/-- C66 for OkapiIndex, with either scoring loop: `apply` leaves every index as it is, whatever the query and the arithmetic -/
theorem C66_okapi (A : Arith R) (P : Bm25 R) (cdiv : R → R → R) (isSpace : Char → Bool)
    (upper : Word → Word) (odd : Word → Except PyErr (Word → Bool)) (pipeline : List Element) (s s' : TI D R) (q : Word)
    (r : Option (SMap D R)) (K : Kind D R) (_ : K = okapi A P ∨ K = okapiC A cdiv P)
    (h : applyObj K okapiOwns isSpace upper odd pipeline s q = .ok (r, s')) : s' = s :=
  applyObj_same (safe_of_not_owns K s.ix) h

/-- C66 for CosineIndex, with any arithmetic: `apply` leaves the index as it is, unless a word in more than `DICT_CUTOFF` documents has
an inverse document frequency that compares equal to 1.  What is missing: indexes with such a word, for which it is false
(`C66_cosine_fails`). -/
theorem C66_cosine_partial (A : Arith R) (isSpace : Char → Bool)
    (upper : Word → Word) (odd : Word → Except PyErr (Word → Bool)) (pipeline : List Element) (s s' : TI D R) (q : Word)
    (r : Option (SMap D R))
    (hidf : ∀ wid e, s.ix.wordinfo.get? wid = some e → e.tree = true →
      ∀ v, idf A e.map.len (A.ofNat s.ix.docweight.len) = .ok v → A.isOne v = false)
    (h : applyObj (cosine A) cosineOwns isSpace upper odd pipeline s q = .ok (r, s')) : s' = s :=
  applyObj_same (cosine_safe A s.ix hidf) h

/-- C66 for CosineIndex in exact arithmetic: `apply` leaves every index as it is, because no inverse document frequency is 1: the
number `e` is irrational -/
theorem C66_cosine_exact (isSpace : Char → Bool)
    (upper : Word → Word) (odd : Word → Except PyErr (Word → Bool)) (pipeline : List Element) (s s' : TI D ℝ) (q : Word)
    (r : Option (SMap D ℝ)) (h : applyObj (cosine realArith) cosineOwns isSpace upper odd pipeline s q = .ok (r, s')) : s' = s := by
  refine C66_cosine_partial realArith isSpace upper odd pipeline s s' q r ?_ h
  intro wid e _ _ v hv
  unfold idf at hv
  obtain ⟨x, hx, hv⟩ := bind_split hv
  unfold pyDiv at hx
  by_cases h0 : (e.map.len : ℝ) = 0
  · have : realArith.div (realArith.ofNat s.ix.docweight.len) (realArith.ofNat e.map.len) = none := if_pos h0
    rw [this] at hx
    cases hx
  · have : realArith.div (realArith.ofNat s.ix.docweight.len) (realArith.ofNat e.map.len)
        = some ((s.ix.docweight.len : ℝ) / (e.map.len : ℝ)) := if_neg h0
    rw [this] at hx
    obtain rfl := Except.ok.inj hx
    unfold pyLog at hv
    have hp : (0 : ℝ) < 1 + (s.ix.docweight.len : ℝ) / (e.map.len : ℝ) := by positivity
    have : realArith.log (realArith.add realArith.one ((s.ix.docweight.len : ℝ) / (e.map.len : ℝ)))
        = some (Real.log (1 + (s.ix.docweight.len : ℝ) / (e.map.len : ℝ))) := if_pos hp
    rw [this] at hv
    obtain rfl := Except.ok.inj hv
    show decide _ = false
    rw [decide_eq_false_iff_not]
    intro h1
    have hn : 0 < e.map.len := by
      rcases Nat.eq_zero_or_pos e.map.len with h | h
      · exact absurd (by exact_mod_cast h) h0
      · exact h
    refine exp_one_ne s.ix.docweight.len e.map.len hn ?_
    rw [← Real.exp_log hp, h1]

/-- eleven documents `dog` and a document `d` -/
def exAliasOps : List (Text.Op Nat) :=
  (List.range 11).map (fun d => .index d (.str ['d', 'o', 'g'])) ++ [.index 11 (.str ['d'])]

/-- a query on the index of the examples -/
def exAsk (s : TI Nat Int) (q : Word) : Except PyErr (Option (SMap Nat Int) × TI Nat Int) :=
  applyObj (cosine exArith) cosineOwns exIsSpace exUpper (fun _ => .ok (fun _ => false)) exPipeline s q

/-- C66 fails for CosineIndex if the inverse document frequency of a word is 1 in the arithmetic used: the query `d?g` finds only
`dog`, whose own tree is the result, but `query_weight` counts the words `d` and `g`; the division is done in the index, and the
query `dog`, which gave document 0 the score 1 before, gives it 0 afterwards -/
theorem C66_cosine_fails : ((do
    let s ← run (cosine exArith) exPipeline exAliasOps
    let a ← exAsk s ['d', 'o', 'g']
    let b ← exAsk a.2 ['d', '?', 'g']
    let c ← exAsk b.2 ['d', 'o', 'g']
    return (a.1.bind (·.get? 0), c.1.bind (·.get? 0))) : Except PyErr _) = .ok (some 1, some 0) := by
  decide +kernel

-- queries that find documents: OkapiIndex on the history of the examples
example : ((do
    let s ← run exOkapi exPipeline exTextOps
    let a ← applyObj exOkapi okapiOwns exIsSpace exUpper (fun _ => .ok (fun _ => false)) exPipeline s ['b', '*']
    return a.1.map (·.keys)) : Except PyErr _) = .ok (some [7]) := by decide +kernel
-- CosineIndex with a tree for `dog`, whose inverse document frequency is 2 (there are 12 more documents)
example : ((do
    let s ← run (cosine exArith) exPipeline
      (exAliasOps ++ (List.range 12).map (fun d => .index (d + 20) (.str ['c', 'a', 't'])))
    let a ← exAsk s ['d', '?', 'g']
    let e := s.ix.wordinfo.get? (s.lex.getWid ['d', 'o', 'g'])
    return (a.1.map (·.keys.length), e.map (·.tree), (idf exArith 11 (exArith.ofNat s.ix.docweight.len)).toOption,
      s.ix.wordinfo.items.all (fun p => !p.2.tree || (idf exArith p.2.map.len (exArith.ofNat s.ix.docweight.len)).toOption != some 1))) :
    Except PyErr _) = .ok (some 11, some true, some 2, true) := by
  decide +kernel

end Verif
