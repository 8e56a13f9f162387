import Verif.Proofs.Ranking
import Verif.Props.TextScores
import Verif.Props.NBest

/-!
# Property C77: better documents rank higher

Scores are computed over the real numbers here (`realArith`: no rounding).
-/

set_option autoImplicit false

namespace Verif

open Spec Text SetOps

variable {D : Type} [LinearOrder D]

theorem okapiRate_mono {P : Bm25 ℝ} (hP : Bm25Params P) {pipeline : List Element} {ops : List (Text.Op D)}
    (hs : SmallLexicon pipeline ops) {s : TI D ℝ} (hr : run (okapi realArith P) pipeline ops = .ok s) {mean : ℝ}
    (hm : (∃ d w, Holds pipeline ops d w) → 0 < mean) {d e : D} (hlen : docLength pipeline ops d ≤ docLength pipeline ops e) (w : Word)
    (hw : occurrences pipeline ops e w ≤ occurrences pipeline ops d w) :
    okapiRate pipeline ops P mean w e ≤ okapiRate pipeline ops P mean w d ∧
    (docLength pipeline ops d < docLength pipeline ops e → Holds pipeline ops e w →
      okapiRate pipeline ops P mean w e < okapiRate pipeline ops P mean w d) := by
  obtain ⟨-, hi, -⟩ := (ranked_okapi (D := D) hP).run real_positive hs (fun _ => real_lengths pipeline ops) hr
  by_cases he : Holds pipeline ops e w
  · have hd : Holds pipeline ops d w := occurrences_pos.1 (lt_of_lt_of_le (occurrences_pos.2 he) hw)
    have hmean := hm ⟨e, w, he⟩
    have hidf : 0 < wordIdf pipeline ops w := by
      rcases wordIdf_pos (okapi_lawful' real_positive P) hs hi w with ⟨h, -⟩ | ⟨-, h⟩
      · exact h
      · exact absurd he (h e)
    obtain ⟨we, hwe, hme⟩ := he
    obtain ⟨wd, hwd, hmd⟩ := hd
    unfold docLength at hlen ⊢
    unfold occurrences at hw
    rw [hwe, hwd] at hlen hw ⊢
    simp only [Option.getD_some] at hlen hw ⊢
    unfold okapiRate
    rw [hwe, hwd]
    simp only
    rw [if_pos hme, if_pos hmd]
    have hc : (0 : ℝ) < we.count w := by exact_mod_cast List.count_pos_iff.2 hme
    have hl1 : (0 : ℝ) < wd.length := by exact_mod_cast List.length_pos_of_mem hmd
    have hl2 : (0 : ℝ) < we.length := by exact_mod_cast List.length_pos_of_mem hme
    have h1 : bm25 P (we.count w) wd.length mean ≤ bm25 P (wd.count w) wd.length mean := by
      rcases Nat.lt_or_eq_of_le hw with h | h
      · exact le_of_lt (bm25_mono hP hc (by exact_mod_cast h) hl1 hmean)
      · rw [h]
    have h2 : wd.length < we.length → bm25 P (we.count w) we.length mean < bm25 P (we.count w) wd.length mean :=
      fun h => bm25_anti hP hc hl1 (by exact_mod_cast h) hmean
    refine ⟨mul_le_mul_of_nonneg_right ?_ (le_of_lt hidf), fun h _ => mul_lt_mul_of_pos_right (lt_of_lt_of_le (h2 h) h1) hidf⟩
    rcases Nat.lt_or_eq_of_le hlen with h | h
    · exact le_of_lt (lt_of_lt_of_le (h2 h) h1)
    · rw [← h]; exact h1
  · refine ⟨?_, fun _ h => absurd h he⟩
    have : okapiRate pipeline ops P mean w e = 0 := by
      unfold okapiRate
      cases hd : docWords pipeline ops e with
      | none => rfl
      | some ws => exact if_neg (fun hw => he ⟨ws, hd, hw⟩)
    rw [this]
    exact (okapiRate_bounds hP hs hr hm w d).1

/-- C77: if `apply` finds document `e`, and `d` is at least as good for the query and not longer, then it finds `d` too, with at
least the same score; with a higher score if `d` is shorter -/
theorem C77_ranking (P : Bm25 ℝ) (hP : Bm25Params P) (isSpace : Char → Bool) (upper : Word → Word)
    (odd : Word → Except PyErr (Word → Bool)) (pipeline : List Element) (ops : List (Text.Op D)) (hs : SmallLexicon pipeline ops)
    (s : TI D ℝ) (hr : run (okapi realArith P) pipeline ops = .ok s) (q : Word) (t : Node) (ign : List Word)
    (hq : QueryParser.parseQuery isSpace upper (Lexicon.parseTerms pipeline) q = .ok (t, ign)) (hg : GlobsFine pipeline ops t) (d e : D)
    (hgood : AsGood pipeline ops d e t) (hlen : docLength pipeline ops d ≤ docLength pipeline ops e) (m : SMap D ℝ)
    (hm : apply (okapi realArith P) isSpace upper odd pipeline s q = .ok (some m)) (u : ℝ) (hu : m.get? e = some u) :
    ∃ v, m.get? d = some v ∧ u ≤ v ∧ (docLength pipeline ops d < docLength pipeline ops e → u < v) := by
  obtain ⟨mean, -, hmean, hsc⟩ := C69_okapi P hP isSpace upper odd pipeline ops hs s hr
  obtain ⟨r, qw, e1, eq, r', e', h1, h2⟩ := C67_scaled (ranked_okapi hP) isSpace upper odd pipeline ops hs s hr q t ign hq hg
  obtain ⟨r0, e0, hS1, hS2⟩ := hsc q t ign hq hg
  rw [e1] at e0
  obtain rfl := Except.ok.inj e0
  rw [hm] at e'
  obtain rfl := Except.ok.inj e'
  cases r with
  | none => have := h1.2 rfl; cases this
  | some m0 =>
    have h3 := h2 m0 m rfl rfl
    have hw : 0 < (if qw = 0 then 1 else qw) := by
      split
      · exact one_pos
      · rename_i h0
        rw [C61_query_weight P hP pipeline ops hs s hr t.terms (terms_ne_none t)] at eq
        refine lt_of_le_of_ne ?_ (Ne.symm h0)
        rw [← Except.ok.inj eq]
        exact sum_nonneg' (fun w => le_trans (okapiRate_bounds hP hs hr hmean w e).1 (okapiRate_bounds hP hs hr hmean w e).2.1)
    have h4 := h3 e
    rw [hu] at h4
    obtain ⟨u0, hu0, rfl⟩ := Option.map_eq_some_iff.1 h4.symm
    obtain ⟨hme, rfl⟩ := (hS2 m0 rfl e u0).1 hu0
    have hb := okapiRate_bounds hP hs hr hmean
    have hmono := fun w => okapiRate_mono hP hs hr hmean hlen w
    obtain ⟨g1, g2, g3⟩ := asGood_score (rate := okapiRate pipeline ops P mean) (S := docLength pipeline ops d < docLength pipeline ops e)
      (fun w d => (hb w d).1) (fun w h => (hmono w h).1) (fun hS w h hh => (hmono w h).2 hS hh) hgood
    refine ⟨_, ?_, div_le_div_of_nonneg_right g2 (le_of_lt hw), fun hS => div_lt_div_of_pos_right (g3 hS hme) hw⟩
    rw [h3 d, (hS2 m0 rfl d _).2 ⟨g1 hme, rfl⟩]
    rfl

/-- C77, the best results: feed what `apply` finds to `NBest(N)`; if `getbest()` has document `e`, then it has every shorter document
that is at least as good, before `e` -/
theorem C77_best (P : Bm25 ℝ) (hP : Bm25Params P) (isSpace : Char → Bool) (upper : Word → Word)
    (odd : Word → Except PyErr (Word → Bool)) (pipeline : List Element) (ops : List (Text.Op D)) (hs : SmallLexicon pipeline ops)
    (s : TI D ℝ) (hr : run (okapi realArith P) pipeline ops = .ok s) (q : Word) (t : Node) (ign : List Word)
    (hq : QueryParser.parseQuery isSpace upper (Lexicon.parseTerms pipeline) q = .ok (t, ign)) (hg : GlobsFine pipeline ops t) (d e : D)
    (hgood : AsGood pipeline ops d e t) (hlen : docLength pipeline ops d < docLength pipeline ops e) (m : SMap D ℝ)
    (hm : apply (okapi realArith P) isSpace upper odd pipeline s q = .ok (some m)) (N : Nat) (hN : 1 ≤ N) :
    ∃ b0 b : NBest D ℝ, NBest.new (N : Int) = .ok b0 ∧ b0.addmany m.items = .ok b ∧
      ∀ before u after, b.getbest = before ++ (e, u) :: after → ∃ v, (d, v) ∈ before ∧ u < v := by
  obtain ⟨b0, b, h0, h1, L, hL, hb⟩ := C25_nbest_exact N hN m.items
  refine ⟨b0, b, h0, h1, ?_⟩
  intro before u after hx
  have hLs : L = before ++ (e, u) :: (after ++ L.drop N) := by
    conv_lhs => rw [← List.take_append_drop N L, ← hb, hx]
    simp
  have hu : m.get? e = some u := (SMap.get?_eq_some_iff _ _ _).2 (hL.perm.mem_iff.1 (by rw [hLs]; simp))
  obtain ⟨v, hv, -, hlt'⟩ := C77_ranking P hP isSpace upper odd pipeline ops hs s hr q t ign hq hg d e hgood (le_of_lt hlen) m hm u hu
  have hlt : u < v := hlt' hlen
  have hin : (d, v) ∈ L := hL.perm.mem_iff.2 ((SMap.get?_eq_some_iff _ _ _).1 hv)
  refine ⟨v, ?_, hlt⟩
  have hdec := hL.decreasing
  rw [hLs] at hin hdec
  rcases List.mem_append.1 hin with h | h
  · exact h
  · rcases List.mem_cons.1 h with h | h
    · exact absurd hlt (by rw [(Prod.mk.inj h).2]; exact lt_irrefl _)
    · exact absurd ((List.pairwise_cons.1 (List.pairwise_append.1 hdec).2.1).1 _ h) (not_le.2 hlt)

/-- the example: for the query `dog -cat`, document 3 (`dog dog`) is at least as good as document 7 (`dog big eel`) -/
theorem exDogCat : QueryParser.parseQuery exIsSpace exUpper (Lexicon.parseTerms exPipeline) ['d', 'o', 'g', ' ', '-', 'c', 'a', 't'] =
    .ok (.and [.atom ['d', 'o', 'g'], .not (.atom ['c', 'a', 't'])], []) := rfl

theorem exDogCat_good : AsGood exPipeline exTextOps 3 7 (.and [.atom ['d', 'o', 'g'], .not (.atom ['c', 'a', 't'])]) := by
  have hw : wordsOf exPipeline (.str ['c', 'a', 't']) = [['c', 'a', 't']] := by decide +kernel
  refine .and _ ?_
  intro n hn
  simp only [List.mem_cons, List.not_mem_nil, or_false] at hn
  rcases hn with rfl | rfl
  · exact .atom _ (by decide +kernel)
  · refine .not _ ?_
    rintro ⟨P, hP, hd⟩
    rw [Leaves.matches?] at hP
    simp only [textLeaves, hw] at hP
    rw [if_neg (by simp)] at hP
    cases hP
    obtain ⟨v, hv, ws, hws, hm⟩ := hd
    rw [List.mem_singleton] at hv
    subst hv
    have h3 : docWords exPipeline exTextOps 3 = some [['d', 'o', 'g'], ['d', 'o', 'g']] := by decide +kernel
    rw [h3] at hws
    cases hws
    exact absurd hm (by decide)

-- 3 is found with a higher score than 7
example : ∃ s m u v, run (okapi realArith defaultBm25) exPipeline exTextOps = .ok s ∧
    apply (okapi realArith defaultBm25) exIsSpace exUpper (fun _ => .ok (fun _ => false)) exPipeline s
      ['d', 'o', 'g', ' ', '-', 'c', 'a', 't'] = .ok (some m) ∧ m.get? 7 = some u ∧ m.get? 3 = some v ∧ u < v := by
  obtain ⟨s, hr, -⟩ := C51_documents _ ((ranked_okapi defaultBm25_ok).lawful real_positive) exPipeline exTextOps exText_small
  have hw : ∀ w ∈ [['d', 'o', 'g'], ['c', 'a', 't']], wordsOf exPipeline (.str w) = [w] := by decide +kernel
  have hdoc : docWords exPipeline exTextOps 7 = some [['d', 'o', 'g'], ['b', 'i', 'g'], ['e', 'e', 'l']] := by decide +kernel
  have hfound : (textLeaves exPipeline exTextOps).Matches (.and [.atom ['d', 'o', 'g'], .not (.atom ['c', 'a', 't'])]) 7 := by
    have hl : ∀ w ∈ [['d', 'o', 'g'], ['c', 'a', 't']], (textLeaves exPipeline exTextOps).word w =
        some (fun d => Holds exPipeline exTextOps d w) := by
      intro w h
      show (if wordsOf exPipeline (.str w) = [] then none else some _) = _
      rw [if_neg (by rw [hw w h]; simp), hw w h]
      simp
    refine ⟨_, by rw [Leaves.matches?], ?_⟩
    simp only [Leaves.positive, Leaves.negative, Leaves.matches?, hl ['d', 'o', 'g'] (by simp), hl ['c', 'a', 't'] (by simp)]
    simp [Holds, hdoc]
  rcases C60_apply real_positive (ranked_okapi defaultBm25_ok) exIsSpace exUpper (fun _ => .ok (fun _ => false)) exPipeline exTextOps exText_small
    (fun _ => real_lengths _ _) s hr ['d', 'o', 'g', ' ', '-', 'c', 'a', 't'] (exFine _ _) with ⟨h, -⟩ | ⟨t, ign, hq, h⟩
  · rw [exDogCat] at h; cases h
  · rw [exDogCat] at hq
    cases hq
    obtain ⟨P', h0, h0'⟩ := hfound
    rcases h with ⟨h, -⟩ | ⟨P, m, h1, h2, h3, -⟩
    · rw [h] at h0; cases h0
    · rw [h1] at h0
      cases h0
      obtain ⟨u, hu⟩ := (SMap.mem_keys_iff m 7).1 ((h3 7).2 h0')
      obtain ⟨v, hv, -, hlt⟩ := C77_ranking _ defaultBm25_ok exIsSpace exUpper _ exPipeline exTextOps exText_small s hr _ _ _
        exDogCat (exFine _ _ _ _ exDogCat) 3 7 exDogCat_good (by decide +kernel) m h2 u hu
      exact ⟨s, m, u, v, hr, h2, hu, hv, hlt (by decide +kernel)⟩

end Verif
