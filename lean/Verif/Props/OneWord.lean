import Verif.Props.TextScores
import Verif.Props.Cleared

/-!
# C97: scores of queries for one word

`TextIndex.apply` divides the scores by the weight of the query.  For a query of one word the inverse document frequency of the word
cancels out, so that other documents matter only through the mean length (OkapiIndex), or not at all (CosineIndex).
-/

set_option autoImplicit false

namespace Verif

open Spec Text

variable {D : Type} [LinearOrder D]

/-- a query that is one term, of which the pipeline makes one word -/
def OneWord (isSpace : Char → Bool) (upper : Word → Word) (pipeline : List Element) (q w : Word) : Prop :=
  ∃ a ign, QueryParser.parseQuery isSpace upper (Lexicon.parseTerms pipeline) q = .ok (.atom a, ign) ∧ wordsOf pipeline (.str a) = [w]

theorem oneWord_scores {K : Kind D ℝ} (hK : Ranked realArith (fun x => 0 < x) K) {isSpace : Char → Bool} {upper : Word → Word}
    {odd : Word → Except PyErr (Word → Bool)} {pipeline : List Element} {ops : List (Text.Op D)} (hs : SmallLexicon pipeline ops)
    {s : TI D ℝ} (hr : run K pipeline ops = .ok s) {q w a : Word} {ign : List Word}
    (hq : QueryParser.parseQuery isSpace upper (Lexicon.parseTerms pipeline) q = .ok (.atom a, ign)) (ha : wordsOf pipeline (.str a) = [w])
    (rate : Word → D → ℝ) (x : List Word → ℝ) (c : ℝ) (hc : 0 < c)
    (hrate : ∀ d ws, docWords pipeline ops d = some ws → w ∈ ws → rate w d = x ws * wordIdf pipeline ops w)
    (hsc : ∃ r, (Node.atom a).execute realArith.toWArith (searcher K odd pipeline s) = .ok r ∧
      Scored (textLeaves pipeline ops) (leafRate pipeline ops rate) (.atom a) r)
    (hw : queryWeight K pipeline s (Node.atom a).terms = .ok (c * wordIdf pipeline ops w)) :
    ∃ m, apply K isSpace upper odd pipeline s q = .ok (some m) ∧
      ∀ d v, m.get? d = some v ↔ ∃ ws, docWords pipeline ops d = some ws ∧ w ∈ ws ∧ v = x ws / c := by
  have hg : GlobsFine pipeline ops (.atom a) := by
    intro p hp
    cases hp
  obtain ⟨r, qw, e, eq, r', e', h1, h2⟩ := C67_scaled hK isSpace upper odd pipeline ops hs s hr q _ ign hq hg
  rw [hw] at eq
  obtain rfl := Except.ok.inj eq
  obtain ⟨r0, e0, hS1, hS2⟩ := hsc
  obtain rfl : r = r0 := Except.ok.inj (e.symm.trans e0)
  have hmatch : (textLeaves pipeline ops).matches? (.atom a) = some (fun d => ∃ v ∈ wordsOf pipeline (.str a), Holds pipeline ops d v) := by
    show (if wordsOf pipeline (.str a) = [] then none else _) = _
    rw [if_neg (by rw [ha]; simp)]
  cases r with
  | none => have := hS1.1 rfl; rw [hmatch] at this; cases this
  | some m0 =>
    cases r' with
    | none => have := h1.1 rfl; cases this
    | some m =>
      refine ⟨m, e', ?_⟩
      intro d v
      rw [h2 m0 m rfl rfl d]
      have hM : (textLeaves pipeline ops).Matches (.atom a) d ↔ Holds pipeline ops d w := by
        unfold Leaves.Matches
        rw [hmatch, ha]
        simp
      have h3 := hS2 m0 rfl d
      have hval : (textLeaves pipeline ops).Matches (.atom a) d → score (textLeaves pipeline ops) (leafRate pipeline ops rate) (.atom a) d = rate w d := by
        intro h
        unfold score
        rw [if_pos h]
        show ((wordsOf pipeline (.str a)).map (fun v => rate v d)).sum = _
        rw [ha]
        simp
      constructor
      · intro h
        obtain ⟨v0, hv0, rfl⟩ := Option.map_eq_some_iff.1 h
        obtain ⟨hm, rfl⟩ := (h3 v0).1 hv0
        obtain ⟨ws, hws, hin⟩ := hM.1 hm
        refine ⟨ws, hws, hin, ?_⟩
        obtain ⟨-, hi, -⟩ := hK.run real_positive hs (fun _ => real_lengths pipeline ops) hr
        have hpos : 0 < wordIdf pipeline ops w := by
          rcases wordIdf_pos (hK.lawful real_positive) hs hi w with ⟨h, -⟩ | ⟨-, h⟩
          · exact h
          · exact absurd ⟨ws, hws, hin⟩ (h d)
        rw [hval hm, hrate d ws hws hin, if_neg (ne_of_gt (mul_pos hc hpos))]
        field_simp
      · rintro ⟨ws, hws, hin, rfl⟩
        have hm := hM.2 ⟨ws, hws, hin⟩
        obtain ⟨-, hi, -⟩ := hK.run real_positive hs (fun _ => real_lengths pipeline ops) hr
        have hpos : 0 < wordIdf pipeline ops w := by
          rcases wordIdf_pos (hK.lawful real_positive) hs hi w with ⟨h, -⟩ | ⟨-, h⟩
          · exact h
          · exact absurd ⟨ws, hws, hin⟩ (h d)
        rw [(h3 _).2 ⟨hm, rfl⟩, hval hm, hrate d ws hws hin, if_neg (ne_of_gt (mul_pos hc hpos)), Option.map_some]
        congr 1
        field_simp

/-- C97, CosineIndex: a query for one word finds the documents with that word, and the score of each is given by its own text: the weight
of the word divided by the length of the vector of the document -/
theorem C97_cosine (isSpace : Char → Bool) (upper : Word → Word) (odd : Word → Except PyErr (Word → Bool)) (pipeline : List Element)
    (ops : List (Text.Op D)) (hs : SmallLexicon pipeline ops) (s : TI D ℝ) (hr : run (cosine realArith) pipeline ops = .ok s)
    (q w : Word) (hq : OneWord isSpace upper pipeline q w) :
    ∃ m, apply (cosine realArith) isSpace upper odd pipeline s q = .ok (some m) ∧
      ∀ d v, m.get? d = some v ↔ ∃ ws, docWords pipeline ops d = some ws ∧ w ∈ ws ∧ v = termWeight (ws.count w) / docNorm ws := by
  obtain ⟨a, ign, hq, ha⟩ := hq
  have hg : GlobsFine pipeline ops (.atom a) := by
    intro p hp
    cases hp
  obtain ⟨-, hi, -⟩ := (ranked_cosine (D := D)).run real_positive hs (fun h => by cases h) hr
  have := oneWord_scores ranked_cosine (odd := odd) hs hr hq ha (cosineRate pipeline ops) (fun ws => termWeight (ws.count w) / docNorm ws) 1
    one_pos (by
      intro d ws hws hin
      unfold cosineRate
      rw [hws]
      simp only
      rw [if_pos hin])
    (C69_cosine isSpace upper odd pipeline ops hs s hr q _ ign hq hg) (by
      rw [C62_query_weight pipeline ops hs s hr _ (by intro t ht; simp [Node.terms] at ht; rw [ht]; simp)]
      unfold termWords Node.terms
      rw [List.flatMap_cons, List.flatMap_nil, List.append_nil, ha, List.map_cons, List.map_nil, List.sum_cons, List.sum_nil, add_zero, one_mul,
        Real.sqrt_sq]
      rcases wordIdf_pos (ranked_cosine.lawful real_positive) hs hi w with ⟨h, -⟩ | ⟨h, -⟩
      · exact le_of_lt h
      · exact le_of_eq h.symm)
  simpa using this

/-- C97, CosineIndex: so two indexes in which a document has the same words, whatever else is in them, give it the same score -/
theorem C97_cosine_alone (isSpace : Char → Bool) (upper : Word → Word) (odd : Word → Except PyErr (Word → Bool)) (pipeline : List Element)
    (ops ops' : List (Text.Op D)) (hs : SmallLexicon pipeline ops) (hs' : SmallLexicon pipeline ops') (s s' : TI D ℝ)
    (hr : run (cosine realArith) pipeline ops = .ok s) (hr' : run (cosine realArith) pipeline ops' = .ok s') (q w : Word)
    (hq : OneWord isSpace upper pipeline q w) (d : D) (hd : docWords pipeline ops d = docWords pipeline ops' d) :
    ∃ m m', apply (cosine realArith) isSpace upper odd pipeline s q = .ok (some m) ∧
      apply (cosine realArith) isSpace upper odd pipeline s' q = .ok (some m') ∧ m.get? d = m'.get? d := by
  obtain ⟨m, e, h⟩ := C97_cosine isSpace upper odd pipeline ops hs s hr q w hq
  obtain ⟨m', e', h'⟩ := C97_cosine isSpace upper odd pipeline ops' hs' s' hr' q w hq
  refine ⟨m, m', e, e', ?_⟩
  ext v
  rw [h, h', hd]

/-- C97, OkapiIndex: a query for one word finds the documents with that word, and the score of each is given by its own text and the
mean length, to which documents removed by `clear` contribute (C54_cleared): the BM25 weight of the word divided by its upper bound -/
theorem C97_okapi (P : Bm25 ℝ) (hP : Bm25Params P) (isSpace : Char → Bool) (upper : Word → Word)
    (odd : Word → Except PyErr (Word → Bool)) (pipeline : List Element) (ops : List (Text.Op D)) (hs : SmallLexicon pipeline ops)
    (s : TI D ℝ) (hr : run (okapi realArith P) pipeline ops = .ok s) :
    ∃ l n, Listing pipeline ops l ∧ Leftover pipeline ops n ∧ ∀ q w, OneWord isSpace upper pipeline q w →
      ∃ m, apply (okapi realArith P) isSpace upper odd pipeline s q = .ok (some m) ∧
        ∀ d v, m.get? d = some v ↔ ∃ ws, docWords pipeline ops d = some ws ∧ w ∈ ws ∧
          v = bm25 P (ws.count w) ws.length (((wordTotal l + n : Nat) : ℝ) / (l.length : ℝ)) / (1 + P.k1) := by
  obtain ⟨l, n, h1, h2, h3⟩ := C69_okapi_cleared P hP isSpace upper odd pipeline ops hs s hr
  refine ⟨l, n, h1, h2, ?_⟩
  rintro q w ⟨a, ign, hq, ha⟩
  have hg : GlobsFine pipeline ops (.atom a) := by
    intro p hp
    cases hp
  refine oneWord_scores (ranked_okapi hP) (odd := odd) hs hr hq ha (okapiRate pipeline ops P (((wordTotal l + n : Nat) : ℝ) / (l.length : ℝ)))
    (fun ws => bm25 P (ws.count w) ws.length (((wordTotal l + n : Nat) : ℝ) / (l.length : ℝ))) (1 + P.k1)
    (by have := hP.k1; linarith) ?_ (h3 q _ ign hq hg) ?_
  · intro d ws hws hin
    unfold okapiRate
    rw [hws]
    simp only
    rw [if_pos hin]
  · rw [C61_query_weight P hP pipeline ops hs s hr _ (by intro t ht; simp [Node.terms] at ht; rw [ht]; simp)]
    unfold termWords Node.terms
    rw [List.flatMap_cons, List.flatMap_nil, List.append_nil, ha, List.map_cons, List.map_nil, List.sum_cons, List.sum_nil, add_zero, mul_comm]

example : OneWord exIsSpace exUpper exPipeline ['(', 'D', 'o', 'g', ')'] ['d', 'o', 'g'] :=
  ⟨['d', 'o', 'g'], [], rfl, by decide +kernel⟩
example : SmallLexicon exPipeline exTextOps ∧ Bm25Params defaultBm25 ∧ Holds exPipeline exTextOps 7 ['d', 'o', 'g'] ∧
    Holds exPipeline exTextOps 3 ['d', 'o', 'g'] :=
  ⟨exText_small, defaultBm25_ok, ⟨_, rfl, by decide +kernel⟩, ⟨_, rfl, by decide +kernel⟩⟩

end Verif
