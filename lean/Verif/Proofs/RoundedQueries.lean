import Verif.Proofs.RoundedScores

/-! # Scores of queries, with rounding errors -/

set_option autoImplicit false

namespace Verif

open Spec SetOps Text

variable {D : Type} [LinearOrder D] {u : ℝ} {B : Arith ℝ} {K : Kind D ℝ} {pipeline : List Element} {ops : List (Text.Op D)} {k : ℕ}
variable (hu0 : 0 ≤ u) (hu : u ≤ 1 / 64) (hB : Rounded u B)

/-! ## leaves -/

section leaves

variable {s : TI D ℝ} {rate : Word → D → ℝ} {kd : D → ℕ} (hR : RateNear u B K pipeline ops s rate kd)

theorem removeOov_words (s : TI D ℝ) (ws : List Word) : removeOov s.ix (ws.map (lexAfter pipeline ops).getWid) =
    (ws.filter (fun w => s.ix.wordinfo.contains ((lexAfter pipeline ops).getWid w))).map (lexAfter pipeline ops).getWid := by
  unfold removeOov
  rw [List.filter_map]; rfl

include hu0 hu hB hR

theorem searchUnion_near {ws : List Word} {m : SMap D ℝ} (h : searchUnion K s.ix (ws.map (lexAfter pipeline ops).getWid) = .ok m) (d : D) :
    App (unit u) (kd d + 2 * (ws.filter (fun w => s.ix.wordinfo.contains ((lexAfter pipeline ops).getWid w))).length)
      ((ws.map (fun w => rate w d)).sum) ((m.get? d).getD 0) := by
  unfold searchUnion at h
  rw [removeOov_words s] at h
  cases e : K.searchWids s.ix ((ws.filter (fun w => s.ix.wordinfo.contains ((lexAfter pipeline ops).getWid w))).map
      (lexAfter pipeline ops).getWid) with
  | error x => rw [e] at h; cases h
  | ok L =>
    rw [e, bind_ok, hR.arith] at h
    have hf := hR.some _ _ e d
    have := App.massUnion hu0 hu hB d hf h
    rw [hf.length_eq, List.length_map] at this
    rwa [sum_filter_zero ws _ (fun w => s.ix.wordinfo.contains ((lexAfter pipeline ops).getWid w))]
    intro w _ hc
    refine hR.zero w d (fun hh => ?_)
    rw [(hR.known w).2 ⟨d, hh⟩] at hc
    cases hc

theorem search_near {lex : Lexicon} (hl : lex = lexAfter pipeline ops) {t : TextArg} (ht : t ≠ .none) {m : SMap D ℝ}
    (h : search K pipeline lex s.ix t = .ok (some m)) (d : D) :
    App (unit u) (kd d + 2 * (wordsOf pipeline t).length) (((wordsOf pipeline t).map (fun w => rate w d)).sum) ((m.get? d).getD 0) := by
  subst hl
  unfold search at h
  rw [term_ids pipeline ops t ht, bind_ok] at h
  split at h
  · cases h
  · cases e : searchUnion K s.ix ((wordsOf pipeline t).map (lexAfter pipeline ops).getWid) with
    | error x => rw [e] at h; cases h
    | ok r =>
      rw [e, bind_ok] at h
      cases h
      refine (searchUnion_near hu0 hu hB hR e d).mono (unit_ge hu0 hu) ?_
      have := List.length_filter_le (fun w => s.ix.wordinfo.contains ((lexAfter pipeline ops).getWid w)) (wordsOf pipeline t)
      omega

theorem searchPhrase_near {lex : Lexicon} (hl : lex = lexAfter pipeline ops) {t : TextArg} (ht : t ≠ .none) {m : SMap D ℝ}
    (h : searchPhrase K pipeline lex s.ix t = .ok m) (d : D) {v : ℝ} (hv : m.get? d = some v) :
    App (unit u) (kd d + 2 * (wordsOf pipeline t).length) (((wordsOf pipeline t).map (fun w => rate w d)).sum) v := by
  have hq := unit_ge hu0 hu
  subst hl
  unfold searchPhrase at h
  rw [term_ids pipeline ops t ht, bind_ok] at h
  simp only at h
  split at h
  · cases h; simp at hv
  · cases e : K.searchWids s.ix ((wordsOf pipeline t).map (lexAfter pipeline ops).getWid) with
    | error x => rw [e] at h; cases h
    | ok L =>
      rw [e, bind_ok, hR.arith] at h
      have hf := hR.some _ _ e d
      have hlen := hf.length_eq
      rw [List.length_map] at hlen
      cases em : massIntersection B.toWArith (L.map (fun p => (some p.1, p.2))) with
      | error x => rw [em] at h; cases h
      | ok hits =>
        rw [em, bind_ok] at h
        have key : ∀ v, hits.get? d = some v →
            App (unit u) (kd d + (2 * (wordsOf pipeline t).length - 1)) (((wordsOf pipeline t).map (fun w => rate w d)).sum) v := by
          intro v hv
          rw [← hlen]
          exact App.massIntersection hu0 hu hB d hf em hv
        split at h
        · cases h; exact (key v hv).mono hq (by omega)
        · cases ec : WidCode.encode ((wordsOf pipeline t).map (lexAfter pipeline ops).getWid) with
          | error x => rw [ec] at h; cases h
          | ok code =>
            rw [ec, bind_ok] at h
            -- the loop stores values of `hits`
            have loop : ∀ (l : List (D × ℝ)) (acc r : SMap D ℝ), (∀ p ∈ l, hits.get? p.1 = some p.2) →
                l.foldlM (phraseLoop K s.ix code) acc = .ok r →
                (∀ v, acc.get? d = some v → ∃ x, v = B.store x ∧ hits.get? d = some x) →
                ∀ v, r.get? d = some v → ∃ x, v = B.store x ∧ hits.get? d = some x := by
              intro l
              induction l with
              | nil => intro acc r _ h ha; cases h; exact ha
              | cons p l ih =>
                intro acc r hp h ha
                rw [List.foldlM_cons] at h
                cases es : phraseLoop K s.ix code acc p with
                | error x => rw [es] at h; cases h
                | ok acc' =>
                  rw [es, bind_ok] at h
                  refine ih acc' r (fun q hq => hp q (by simp [hq])) h ?_
                  unfold phraseLoop at es
                  split at es
                  · cases es
                  · split at es
                    · cases es
                      intro v hv
                      rw [SMap.get?_set] at hv
                      split at hv
                      · rename_i hd
                        rw [hR.arith] at hv
                        cases hv
                        rw [hd]
                        exact ⟨p.2, rfl, hp p (by simp)⟩
                      · exact ha v hv
                    · cases es; exact ha
            obtain ⟨x, rfl, hx⟩ := loop hits.items SMap.empty m (fun p hp => (SMap.get?_eq_some_iff _ _ _).2 hp) (by rw [← h]) (by simp) v hv
            refine (App.store hu0 hu hB (key x hx)).mono hq ?_
            -- the list of words is not empty, as the intersection of no sets has no elements
            have hne : (wordsOf pipeline t).length ≠ 0 := by
              intro h0
              rw [h0] at hlen
              obtain rfl := List.length_eq_zero_iff.1 hlen
              cases em
              simp at hx
            omega

theorem searchGlob_near {ws : List Word} {p : Word} (hn : ws.Pairwise (· < ·))
    (hm : ∀ w, w ∈ ws ↔ w ∈ seen pipeline (lexCalls ops) ∧ GlobMatch p w) {m : SMap D ℝ}
    (h : searchUnion K s.ix (ws.map (lexAfter pipeline ops).getWid) = .ok m) (d : D) :
    App (unit u) (kd d + 2 * numMatching pipeline ops p) (leafRate pipeline ops rate (.glob p) d) ((m.get? d).getD 0) := by
  have := searchUnion_near hu0 hu hB hR h d
  rw [leafRate, ← glob_sum hR.zero hn hm]
  have hc : (ws.filter (fun w => s.ix.wordinfo.contains ((lexAfter pipeline ops).getWid w))).length = numMatching pipeline ops p := by
    unfold numMatching
    have hnd : (ws.filter (fun w => s.ix.wordinfo.contains ((lexAfter pipeline ops).getWid w))).Nodup :=
      (hn.imp (fun h => ne_of_lt h)).filter _
    rw [← List.toFinset_card_of_nodup hnd, ← Set.ncard_coe_finset]
    congr 1
    ext w
    simp only [List.coe_toFinset, List.mem_filter, Set.mem_ofPred_eq]
    rw [hm, hR.known]
    constructor
    · rintro ⟨⟨-, h1⟩, h2⟩; exact ⟨h1, h2⟩
    · rintro ⟨h1, d, h2⟩; exact ⟨⟨holds_seen h2, h1⟩, d, h2⟩
  rwa [hc] at this

end leaves

/-! ## trees -/

theorem leaf_kind {n t : Node} (hn : LeafOf n t) : (∃ w, n = .atom w) ∨ (∃ ws, n = .phrase ws) ∨ ∃ w, n = .glob w := by
  induction hn with
  | atom w => exact Or.inl ⟨w, rfl⟩
  | phrase ws => exact Or.inr (Or.inl ⟨ws, rfl⟩)
  | glob w => exact Or.inr (Or.inr ⟨w, rfl⟩)
  | not _ _ _ ih => exact ih
  | and _ _ _ _ _ ih => exact ih
  | or _ _ _ _ _ ih => exact ih

theorem cost_le_max {n : Node} {l : List Node} (h : n ∈ l) : cost pipeline ops n ≤ costMax pipeline ops l := by
  induction l with
  | nil => cases h
  | cons m l ih =>
    rw [costMax]
    rcases List.mem_cons.1 h with rfl | h
    · exact le_max_left _ _
    · exact (ih h).trans (le_max_right _ _)

theorem valueAt_near {L : Leaves D} {m : SMap D ℝ} {P : D → Prop} {f : ℝ} (hk : ∀ d, d ∈ m.keys ↔ P d) {q : ℝ} (d : D)
    (hv : ∀ v, m.get? d = some v → App q k f v) {t : Node} (ht : L.matches? t = some P) {_ : Decidable (L.Matches t d)} :
    App q k (if L.Matches t d then f else 0) (valueAt (some m) d) := by
  have hm : L.Matches t d ↔ P d := by
    constructor
    · rintro ⟨Q, hQ, h⟩; rw [ht] at hQ; cases hQ; exact h
    · exact fun h => ⟨P, ht, h⟩
  unfold valueAt
  rw [Option.bind_some]
  by_cases h : L.Matches t d
  · rw [if_pos h]
    obtain ⟨v, hg⟩ := (SMap.mem_keys_iff m d).1 ((hk d).2 (hm.1 h))
    rw [hg, Option.getD_some]
    exact hv v hg
  · rw [if_neg h]
    cases hg : m.get? d with
    | none => exact App.zero _
    | some v => exact absurd (hm.2 ((hk d).1 ((SMap.mem_keys_iff m d).2 ⟨v, hg⟩))) h

section trees

variable {ix : Searcher D ℝ} {L : Leaves D} {rate : Node → D → ℝ} {q : ℝ}

/-- the sets to combine, with what the scores should be -/
def NearParts (q : ℝ) (k : ℕ) (d : D) (l : List (SMap D ℝ)) (sum : ℝ) (n : ℕ) : Prop :=
  ∃ T : List ℝ, List.Forall₂ (fun m t => App q k t ((m.get? d).getD 0)) l T ∧ T.sum = sum ∧ l.length ≤ n

theorem NearParts.cons {d : D} {r : Option (SMap D ℝ)} {l : List (SMap D ℝ)} {x sum : ℝ} {n : ℕ} (hr : App q k x (valueAt r d))
    (h : NearParts q k d l sum n) : NearParts q k d (r.toList ++ l) (x + sum) (n + 1) := by
  obtain ⟨T, h1, h2, h3⟩ := h
  cases r with
  | none =>
    refine ⟨T, h1, ?_, Nat.le_succ_of_le h3⟩
    rw [hr.eq_zero rfl, h2, zero_add]
  | some m =>
    refine ⟨x :: T, .cons hr h1, ?_, ?_⟩
    · rw [List.sum_cons, h2]
    · simpa using h3

theorem NearParts.more {d : D} {l : List (SMap D ℝ)} {sum : ℝ} {n n' : ℕ} (h : NearParts q k d l sum n) (hn : n ≤ n') :
    NearParts q k d l sum n' := by
  obtain ⟨T, h1, h2, h3⟩ := h
  exact ⟨T, h1, h2, h3.trans hn⟩

theorem executeAnd_near (A : WArith ℝ) (pos neg : List Node) (hc : ∀ n ∈ pos, Clean n) (d : D)
    (hn : ∀ n ∈ neg, ∃ r, n.execute A ix = .ok r)
    (hp : ∀ n ∈ pos, ∃ r, n.execute A ix = .ok r ∧ App q k (score L rate n d) (valueAt r d))
    {r : List (SMap D ℝ) × List (SMap D ℝ)} (h : Node.executeAnd A ix (pos ++ neg.map .not) = .ok r) :
    NearParts q k d r.1 (scoreSum L rate (pos ++ neg.map .not) d) (pos ++ neg.map Node.not).length := by
  induction pos generalizing r with
  | nil =>
    rw [List.nil_append] at h ⊢
    induction neg generalizing r with
    | nil =>
      rw [List.map_nil, Node.executeAnd] at h
      cases h
      rw [List.map_nil, scoreSum]
      exact ⟨[], .nil, rfl, le_refl 0⟩
    | cons n neg ih =>
      obtain ⟨r', e'⟩ := hn n (by simp)
      rw [List.map_cons, Node.executeAnd, e', bind_ok] at h
      cases e : Node.executeAnd A ix (neg.map .not) with
      | error x => rw [e] at h; cases h
      | ok r2 =>
        rw [e, bind_ok] at h
        cases h
        have := ih (fun m hm => hn m (by simp [hm])) e
        rw [List.map_cons, scoreSum, score, zero_add]
        exact this.more (by simp)
  | cons n pos ih =>
    obtain ⟨r', e', hv⟩ := hp n (by simp)
    have hnn := clean_not_not (hc n (by simp))
    rw [List.cons_append, executeAnd_pos _ _ hnn, e', bind_ok] at h
    cases e : Node.executeAnd A ix (pos ++ neg.map .not) with
    | error x => rw [e] at h; cases h
    | ok r2 =>
      rw [e, bind_ok] at h
      cases h
      rw [List.cons_append, scoreSum, List.length_cons]
      exact (ih (fun m hm => hc m (by simp [hm])) (fun m hm => hp m (by simp [hm])) e).cons hv

theorem executeOr_near (A : WArith ℝ) (l : List Node) (d : D)
    (hp : ∀ n ∈ l, ∃ r, n.execute A ix = .ok r ∧ App q k (score L rate n d) (valueAt r d))
    {r : List (SMap D ℝ)} (h : Node.executeOr A ix l = .ok r) : NearParts q k d r (scoreSum L rate l d) l.length := by
  induction l generalizing r with
  | nil =>
    rw [Node.executeOr] at h
    cases h
    rw [scoreSum]
    exact ⟨[], .nil, rfl, le_refl 0⟩
  | cons n l ih =>
    obtain ⟨r', e', hv⟩ := hp n (by simp)
    rw [Node.executeOr, e', bind_ok] at h
    cases e : Node.executeOr A ix l with
    | error x => rw [e] at h; cases h
    | ok r2 =>
      rw [e, bind_ok] at h
      cases h
      rw [scoreSum, List.length_cons]
      exact (ih (fun m hm => hp m (by simp [hm])) e).cons hv

include hu0 hu hB

/-- executing a tree computes which documents match and, up to rounding, their scores -/
theorem execute_near {t : Node} (hc : Clean t) (d : D)
    (h : ∀ n, LeafOf n t → ∃ r, n.execute B.toWArith ix = .ok r ∧ Answers (fun x => 0 < x) r (L.matches? n) ∧
      App (unit u) (k + cost pipeline ops n) (score L rate n d) (valueAt r d)) :
    ∃ r, t.execute B.toWArith ix = .ok r ∧ Answers (fun x => 0 < x) r (L.matches? t) ∧
      App (unit u) (k + cost pipeline ops t) (score L rate t d) (valueAt r d) := by
  have hq := unit_ge hu0 hu
  have hclosed := (rounded_positive hu0 hu hB).closed
  induction hc with
  | atom w => exact h _ (.atom w)
  | phrase ws _ => exact h _ (.phrase ws)
  | glob w => exact h _ (.glob w)
  | and pos neg hne hs hcp hcn ih1 ih2 =>
    have k1 : ∀ n ∈ pos, _ := fun n hn => ih1 n hn (fun x hx => h x (.and x n _ (List.mem_append_left _ hn) hx))
    have k2 : ∀ n ∈ neg, _ := fun n hn =>
      ih2 n hn (fun x hx => h x (.and x (.not n) _ (List.mem_append_right _ (List.mem_map.2 ⟨n, hn, rfl⟩)) (.not x n hx)))
    obtain ⟨r, e, ha⟩ := execute_answers (L := L) hclosed (Clean.and pos neg hne hs hcp hcn)
      (fun n hn => (h n hn).imp (fun r hr => ⟨hr.1, hr.2.1⟩))
    refine ⟨r, e, ha, ?_⟩
    rcases answers_cases ha with ⟨-, h1⟩ | ⟨m, P, rfl, h1, h2, h3⟩
    · rw [Leaves.matches?] at h1; cases h1
    rw [score]
    refine valueAt_near h2 d ?_ h1
    intro v hv
    rw [Node.execute] at e
    cases e' : Node.executeAnd B.toWArith ix (pos ++ neg.map .not) with
    | error x => rw [e'] at e; cases e
    | ok r2 =>
      rw [e', bind_ok] at e
      obtain ⟨T, g1, g2, g3⟩ := executeAnd_near (L := L) (rate := rate) (q := unit u)
        (k := k + costMax pipeline ops (pos ++ neg.map .not)) B.toWArith pos neg hcp d
        (fun n hn => (k2 n hn).imp (fun r hr => hr.1))
        (fun n hn => (k1 n hn).imp (fun r hr => ⟨hr.1, hr.2.2.mono hq (by
          have := cost_le_max (pipeline := pipeline) (ops := ops) (List.mem_append_left (neg.map Node.not) hn)
          omega)⟩)) e'
      cases em : massIntersection B.toWArith (r2.1.map (fun x => (some x, B.one))) with
      | error x => rw [em] at e; cases e
      | ok m1 =>
        rw [em, bind_ok] at e
        have key : ∀ v, m1.get? d = some v → App (unit u) (k + cost pipeline ops (.and (pos ++ neg.map .not)))
            (scoreSum L rate (pos ++ neg.map .not) d) v := by
          intro v hv
          have hf : List.Forall₂ (fun p t => App (unit u) (k + costMax pipeline ops (pos ++ neg.map .not)) t (contribution d p))
              (r2.1.map (fun x => (x, B.one))) T := by
            rw [List.forall₂_map_left_iff]
            refine g1.imp (fun m t h => ?_)
            rw [contribution_nonneg_one hB]; exact h
          have em' : massIntersection B.toWArith ((r2.1.map (fun x => (x, B.one))).map (fun p => (some p.1, p.2))) = .ok m1 := by
            rw [List.map_map]; exact em
          have := App.massIntersection hu0 hu hB d hf em' hv
          rw [← g2]
          refine this.mono hq ?_
          rw [cost, List.length_map]
          omega
        by_cases hr : r2.2.isEmpty = true
        · rw [if_pos hr] at e
          obtain rfl := Option.some.inj (Except.ok.inj e)
          exact key v hv
        · rw [if_neg hr] at e
          obtain ⟨m2, em2, -⟩ := C28_union_keys B.toWArith (r2.2.map (fun x => (x, B.one)))
          rw [em2, bind_ok] at e
          obtain rfl := Option.some.inj (Except.ok.inj e)
          rw [get?_difference] at hv
          split at hv
          · cases hv
          · exact key v hv
  | or l hne hcl ih =>
    have k1 : ∀ n ∈ l, _ := fun n hn => ih n hn (fun x hx => h x (.or x n _ hn hx))
    obtain ⟨r, e, ha⟩ := execute_answers (L := L) hclosed (Clean.or l hne hcl)
      (fun n hn => (h n hn).imp (fun r hr => ⟨hr.1, hr.2.1⟩))
    refine ⟨r, e, ha, ?_⟩
    rcases answers_cases ha with ⟨-, h1⟩ | ⟨m, P, rfl, h1, h2, h3⟩
    · rw [Leaves.matches?] at h1; cases h1
    rw [score]
    refine valueAt_near h2 d ?_ h1
    intro v hv
    rw [Node.execute] at e
    cases e' : Node.executeOr B.toWArith ix l with
    | error x => rw [e'] at e; cases e
    | ok r2 =>
      rw [e', bind_ok] at e
      obtain ⟨T, g1, g2, g3⟩ := executeOr_near (L := L) (rate := rate) (q := unit u) (k := k + costMax pipeline ops l) B.toWArith l d
        (fun n hn => (k1 n hn).imp (fun r hr => ⟨hr.1, hr.2.2.mono hq (by
          have := cost_le_max (pipeline := pipeline) (ops := ops) hn
          omega)⟩)) e'
      cases em : massUnion B.toWArith (r2.map (fun x => (x, B.one))) with
      | error x => rw [em] at e; cases e
      | ok m1 =>
        rw [em, bind_ok] at e
        obtain rfl := Option.some.inj (Except.ok.inj e)
        have hf : List.Forall₂ (fun p t => App (unit u) (k + costMax pipeline ops l) t (contribution d p))
            (r2.map (fun x => (x, B.one))) T := by
          rw [List.forall₂_map_left_iff]
          refine g1.imp (fun m t h => ?_)
          rw [contribution_nonneg_one hB]; exact h
        have := App.massUnion hu0 hu hB d hf em
        rw [hv, Option.getD_some, List.length_map] at this
        rw [← g2]
        refine this.mono hq ?_
        rw [cost]
        omega

end trees

/-! ## queries -/

include hu0 hu hB

theorem query_near (hK : Ranked B (fun x => 0 < x) K) (isSpace : Char → Bool) (upper : Word → Word)
    (odd : Word → Except PyErr (Word → Bool)) (hs : SmallLexicon pipeline ops) (he : K.hasTotal = true → LengthsExact B pipeline ops)
    {s : TI D ℝ} (hr : run K pipeline ops = .ok s) {rate : Word → D → ℝ} {kd : D → ℕ}
    (hR : RateNear u B K pipeline ops s rate kd) (q : Word) (t : Node) (ign : List Word)
    (hq : QueryParser.parseQuery isSpace upper (Lexicon.parseTerms pipeline) q = .ok (t, ign)) (hg : GlobsFine pipeline ops t) :
    ∃ r, t.execute B.toWArith (searcher K odd pipeline s) = .ok r ∧
      Answers (fun x => 0 < x) r ((textLeaves pipeline ops).matches? t) ∧
      ∀ d, App (unit u) (kd d + cost pipeline ops t) (score (textLeaves pipeline ops) (leafRate pipeline ops rate) t d) (valueAt r d) := by
  have hpos := rounded_positive hu0 hu hB
  obtain ⟨r, e, ha⟩ := execute_answers (L := textLeaves pipeline ops) hpos.closed (C48_shape isSpace upper _ q t ign hq)
    (fun n hn => query_leaf hpos hK isSpace upper odd pipeline ops hs he s hr q t ign hq hg n hn)
  refine ⟨r, e, ha, ?_⟩
  intro d
  obtain ⟨r', e', -, h'⟩ := execute_near hu0 hu hB (ix := searcher K odd pipeline s) (L := textLeaves pipeline ops)
    (rate := leafRate pipeline ops rate) (pipeline := pipeline) (ops := ops) (k := kd d) (C48_shape isSpace upper _ q t ign hq) d (by
    intro n hn
    obtain ⟨r, e, ha⟩ := query_leaf hpos hK isSpace upper odd pipeline ops hs he s hr q t ign hq hg n hn
    refine ⟨r, e, ha, ?_⟩
    obtain ⟨hl, -⟩ := hK.run hpos hs he hr
    obtain ⟨w, b, hw⟩ := leaf_from_atom isSpace upper _ q t ign hq n hn
    have hkind := leaf_kind hn
    rcases answers_cases ha with ⟨rfl, h1⟩ | ⟨m, P, rfl, h1, h2, -⟩
    · rw [score_leaf_none hkind h1]; exact App.zero _
    rcases hkind with ⟨x, rfl⟩ | ⟨ws, rfl⟩ | ⟨x, rfl⟩
    · rw [score, cost]
      refine valueAt_near h2 d ?_ h1
      intro v hv
      rw [Node.execute] at e
      have := search_near hu0 hu hB hR hl (t := .str x) (by simp) e d
      rw [hv] at this
      rw [leafRate]
      exact this
    · rw [score, cost]
      refine valueAt_near h2 d ?_ h1
      intro v hv
      rw [Node.execute] at e
      have e : (searchPhrase K pipeline s.lex s.ix (.list ws)).map some = .ok (some m) := e
      cases e' : searchPhrase K pipeline s.lex s.ix (.list ws) with
      | error x => rw [e'] at e; cases e
      | ok m' =>
        rw [e'] at e
        obtain rfl := Option.some.inj (Except.ok.inj e)
        rw [leafRate]
        exact searchPhrase_near hu0 hu hB hR hl (by simp) e' d hv
    · rw [score, cost]
      refine valueAt_near h2 d ?_ h1
      intro v hv
      rw [Node.execute] at e
      have e : (searchGlob K odd s.lex s.ix x).map some = .ok (some m) := e
      obtain ⟨⟨pre, c, rest, rfl, hne, hc, hm⟩, hnl⟩ := hg x hn
      obtain ⟨ws, hws1, hws, eg⟩ := C43_glob_partial odd pipeline (lexCalls ops) hnl pre rest c hm hne hc
      cases e' : searchGlob K odd s.lex s.ix (pre ++ c :: rest) with
      | error x => rw [e'] at e; cases e
      | ok m' =>
        rw [e'] at e
        obtain rfl := Option.some.inj (Except.ok.inj e)
        unfold searchGlob at e'
        have eg : s.lex.globToWordIds odd (pre ++ c :: rest) = .ok (ws.map (lexAfter pipeline ops).getWid) := by rw [hl]; exact eg
        rw [eg, bind_ok] at e'
        have := searchGlob_near hu0 hu hB hR hws1 hws e' d
        rw [hv] at this
        exact this)
  obtain rfl := Except.ok.inj (e'.symm.trans e)
  exact h'

/-! ## the weight of a query -/

/-- a loop that adds up terms -/
theorem foldlM_near {f : ℝ → Int → Except PyErr ℝ} {term : Word → ℝ} {getWid : Word → Int} {j : ℕ} (l : List Word)
    (h : ∀ w ∈ l, ∃ x, App (unit u) j (term w) x ∧ ∀ sum, f sum (getWid w) = .ok (B.add sum x)) :
    ∃ q, (l.map getWid).foldlM f B.zero = .ok q ∧ App (unit u) (j + l.length) (l.map term).sum q := by
  have hq := unit_ge hu0 hu
  have key : ∀ (l : List Word) (i : ℕ) (a a' : ℝ), j ≤ i → App (unit u) i a a' →
      (∀ w ∈ l, ∃ x, App (unit u) j (term w) x ∧ ∀ sum, f sum (getWid w) = .ok (B.add sum x)) →
      ∃ q, (l.map getWid).foldlM f a' = .ok q ∧ App (unit u) (i + l.length) (a + (l.map term).sum) q := by
    intro l
    induction l with
    | nil => intro i a a' _ ha _; exact ⟨a', rfl, by simpa using ha⟩
    | cons w l ih =>
      intro i a a' hi ha h
      obtain ⟨x, hx, e⟩ := h w (by simp)
      have h1 := App.add hu0 hu hB ha hx
      rw [show max i j = i by omega] at h1
      obtain ⟨q, eq, hq'⟩ := ih (i + 1) _ _ (by omega) h1 (fun v hv => h v (by simp [hv]))
      refine ⟨q, ?_, ?_⟩
      · rw [List.map_cons, List.foldlM_cons, e, bind_ok]; exact eq
      · rw [List.map_cons, List.sum_cons, ← add_assoc, List.length_cons, show i + (l.length + 1) = i + 1 + l.length by omega]
        exact hq'
  obtain ⟨q, e, hh⟩ := key l j 0 B.zero (le_refl j) (by rw [hB.zero]; exact App.zero _) h
  exact ⟨q, e, by simpa using hh⟩

theorem okapi_weight_near {P : Bm25 ℝ} (hP : Bm25Params P) (hs : SmallLexicon pipeline ops) {s : TI D ℝ} (hl : s.lex = lexAfter pipeline ops)
    (hi : Text.Inv (okapi B P) s.ix (docWids pipeline ops)) (t : Node) :
    ∃ q, queryWeight (okapi B P) pipeline s t.terms = .ok q ∧
      App (unit u) (11 + (termWords pipeline t.terms).length) (okapiWeight pipeline ops P t) q := by
  have hq := unit_ge hu0 hu
  have hK := okapi_lawful' (D := D) (rounded_positive hu0 hu hB) P
  unfold queryWeight
  rw [hl, termWids_eq _ (terms_ne_none t), bind_ok]
  show ∃ q, okapiQueryWeight B P s.ix _ = .ok q ∧ _
  unfold okapiQueryWeight
  rw [removeOov_words s]
  set F := (termWords pipeline t.terms).filter (fun w => s.ix.wordinfo.contains ((lexAfter pipeline ops).getWid w)) with hF
  obtain ⟨q, e, h⟩ := foldlM_near hu0 hu hB (j := 11) (term := fun w => wordIdf pipeline ops w * (1 + P.k1))
    (f := okapiWeightStep B s.ix (B.ofNat s.ix.docweight.len) (B.add B.one P.k1)) (getWid := (lexAfter pipeline ops).getWid) F (by
    intro w hw
    obtain ⟨e, he⟩ := (SMap.contains_iff _ _).1 (List.mem_filter.1 hw).2
    obtain ⟨hn1, hn2⟩ := (entry_word hK hs hi w).1 e he
    have hle := entry_le hK hi he
    obtain ⟨z, ez, az⟩ := App.idf hu0 hu hB hn2 hle (App.ofNat hu0 hu hB s.ix.docweight.len)
    have ak : App (unit u) 1 (1 + P.k1) (B.add B.one P.k1) := by
      have h1 : App (unit u) 0 1 B.one := by rw [hB.one]; exact App.refl zero_le_one
      exact App.add hu0 hu hB h1 (App.refl (le_of_lt hP.k1))
    refine ⟨B.mul z (B.add B.one P.k1), ?_, ?_⟩
    · unfold wordIdf
      rw [if_neg (by omega), hn1, (numDocs_eq hi).1]
      exact App.mul hu0 hu hB az ak
    · intro sum
      unfold okapiWeightStep
      simp only [he]
      rw [ez, bind_ok]; rfl)
  refine ⟨q, e, ?_⟩
  unfold okapiWeight
  rw [sum_filter_zero _ _ (fun w => s.ix.wordinfo.contains ((lexAfter pipeline ops).getWid w))]
  · refine h.mono hq ?_
    have := List.length_filter_le (fun w => s.ix.wordinfo.contains ((lexAfter pipeline ops).getWid w)) (termWords pipeline t.terms)
    rw [← hF] at this
    omega
  · intro w _ hc
    rw [show wordIdf pipeline ops w = 0 from ?_, zero_mul]
    unfold wordIdf
    rw [if_pos ((entry_word hK hs hi w).2 (not_contains hc)).1]

theorem cosine_weight_near (hs : SmallLexicon pipeline ops) {s : TI D ℝ} (hl : s.lex = lexAfter pipeline ops)
    (hi : Text.Inv (cosine B) s.ix (docWids pipeline ops)) (t : Node) :
    ∃ q, queryWeight (cosine B) pipeline s t.terms = .ok q ∧
      App (unit u) (20 + (termWords pipeline t.terms).length) (cosineWeight pipeline ops t) q := by
  have hq := unit_ge hu0 hu
  have hK := cosine_lawful (D := D) (rounded_positive hu0 hu hB)
  unfold queryWeight
  rw [hl, termWids_eq _ (terms_ne_none t), bind_ok]
  show ∃ q, cosineQueryWeight B s.ix _ = .ok q ∧ _
  unfold cosineQueryWeight
  rw [removeOov_words s]
  set F := (termWords pipeline t.terms).filter (fun w => s.ix.wordinfo.contains ((lexAfter pipeline ops).getWid w)) with hF
  obtain ⟨q, e, h⟩ := foldlM_near hu0 hu hB (j := 19) (term := fun w => wordIdf pipeline ops w ^ 2)
    (f := cosineWeightStep B s.ix (B.ofNat s.ix.docweight.len)) (getWid := (lexAfter pipeline ops).getWid) F (by
    intro w hw
    obtain ⟨e, he⟩ := (SMap.contains_iff _ _).1 (List.mem_filter.1 hw).2
    obtain ⟨hn1, hn2⟩ := (entry_word hK hs hi w).1 e he
    have hle := entry_le hK hi he
    obtain ⟨z, ez, az⟩ := App.idf hu0 hu hB hn2 hle (App.ofNat hu0 hu hB s.ix.docweight.len)
    refine ⟨B.mul z z, ?_, ?_⟩
    · unfold wordIdf
      rw [if_neg (by omega), hn1, (numDocs_eq hi).1, sq]
      exact App.mul hu0 hu hB az az
    · intro sum
      unfold cosineWeightStep
      simp only [he]
      rw [ez, bind_ok]; rfl)
  obtain ⟨z, ez, az⟩ := App.sqrt hu0 hu hB h
  refine ⟨z, ?_, ?_⟩
  · rw [e, bind_ok]; unfold pySqrt; rw [ez]
  unfold cosineWeight
  rw [sum_filter_zero _ _ (fun w => s.ix.wordinfo.contains ((lexAfter pipeline ops).getWid w))]
  · refine az.mono hq ?_
    have := List.length_filter_le (fun w => s.ix.wordinfo.contains ((lexAfter pipeline ops).getWid w)) (termWords pipeline t.terms)
    rw [← hF] at this
    omega
  · intro w _ hc
    rw [show wordIdf pipeline ops w = 0 from ?_, sq, zero_mul]
    unfold wordIdf
    rw [if_pos ((entry_word hK hs hi w).2 (not_contains hc)).1]

/-! ## `apply` -/

theorem apply_near (hK : Ranked B (fun x => 0 < x) K) {isSpace : Char → Bool} {upper : Word → Word}
    {odd : Word → Except PyErr (Word → Bool)} {s : TI D ℝ} {L : Leaves D} {q : Word} {t : Node} {ign : List Word}
    (hq : QueryParser.parseQuery isSpace upper (Lexicon.parseTerms pipeline) q = .ok (t, ign)) {r : Option (SMap D ℝ)}
    (e : t.execute B.toWArith (searcher K odd pipeline s) = .ok r) (ha : Answers (fun x => 0 < x) r (L.matches? t))
    {f : D → ℝ} {kd : D → ℕ} (hv : ∀ d, App (unit u) (kd d) (f d) (valueAt r d)) {qw weight : ℝ} {j : ℕ}
    (eq : queryWeight K pipeline s t.terms = .ok qw) (hw : App (unit u) j weight qw) :
    ∃ r', apply K isSpace upper odd pipeline s q = .ok r' ∧ Answers (fun x => 0 < x) r' (L.matches? t) ∧
      ∀ d, App (unit u) (kd d + j + 3) (f d / divisor weight) (valueAt r' d) := by
  have hu1 := unit_ge hu0 hu
  have hpos := rounded_positive hu0 hu hB
  unfold apply
  rw [hq]
  simp only
  unfold applyTree
  rw [hK.arith, e, bind_ok]
  rcases answers_cases ha with ⟨rfl, h1⟩ | ⟨m, P, rfl, h1, h2, h3⟩
  · refine ⟨none, rfl, ha, ?_⟩
    intro d
    rw [(hv d).eq_zero rfl, zero_div]; exact App.zero _
  · simp only
    by_cases hem : m.isEmpty = true
    · rw [if_pos hem]
      refine ⟨some m, rfl, ha, ?_⟩
      intro d
      have h0 : valueAt (some m) d = 0 := by
        unfold valueAt
        rw [Option.bind_some]
        cases hd : m.get? d with
        | none => rfl
        | some v =>
          have h := (SMap.get?_eq_some_iff _ _ _).1 hd
          unfold SMap.isEmpty at hem
          rw [List.isEmpty_iff.1 hem] at h
          simp at h
      rw [(hv d).eq_zero h0, zero_div, h0]; exact App.zero _
    · rw [if_neg hem, eq, bind_ok]
      have hdiv : App (unit u) j (divisor weight) (if B.isZero qw = true then B.one else qw) ∧ 0 < divisor weight := by
        unfold divisor
        by_cases h0 : weight = 0
        · have hq0 : qw = 0 := by
            have := hw.2.2.1
            rw [h0, mul_zero] at this
            exact le_antisymm this hw.2.1
          rw [if_pos h0, if_pos ((hB.isZero qw).2 hq0), hB.one]
          exact ⟨(App.refl zero_le_one).mono hu1 (Nat.zero_le j), one_pos⟩
        · have hpw : 0 < weight := lt_of_le_of_ne hw.1 (Ne.symm h0)
          have hq0 : qw ≠ 0 := ne_of_gt (hw.pos hpw)
          rw [if_neg h0, if_neg (fun h => hq0 ((hB.isZero qw).1 h))]
          exact ⟨hw, hpw⟩
      obtain ⟨hd, hd0⟩ := hdiv
      have h1' : App (unit u) 0 1 B.one := by rw [hB.one]; exact App.refl zero_le_one
      have hm := App.mul hu0 hu hB hd h1'
      rw [mul_one] at hm
      obtain ⟨r', er, hk, hp, hval⟩ := scale_ok hpos h3 (hm.pos hd0)
      rw [er, bind_ok]
      refine ⟨some r', rfl, ?_, ?_⟩
      · rw [h1]
        exact ⟨fun d => (hk d).trans (h2 d), hp⟩
      · intro d
        have hvd := hv d
        unfold valueAt at hvd ⊢
        rw [Option.bind_some] at hvd ⊢
        cases hg : m.get? d with
        | none =>
          have : r'.get? d = none := by
            cases hg' : r'.get? d with
            | none => rfl
            | some v =>
              obtain ⟨x, hx⟩ := (SMap.mem_keys_iff m d).1 ((hk d).1 ((SMap.mem_keys_iff r' d).2 ⟨v, hg'⟩))
              rw [hg] at hx; cases hx
          rw [hg] at hvd
          rw [this, hvd.eq_zero rfl, zero_div]
          exact App.zero _
        | some v =>
          obtain ⟨z, ez, hz⟩ := hval d v hg
          rw [hg, Option.getD_some] at hvd
          rw [hz]
          obtain ⟨z', ez', az⟩ := App.div hu0 hu hB hvd hm hd0
          rw [ez] at ez'
          obtain rfl := Option.some.inj ez'
          exact (App.store hu0 hu hB az).mono hu1 (by omega)

end Verif
