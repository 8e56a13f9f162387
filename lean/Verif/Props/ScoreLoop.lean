import Verif.Props.TextSearch

/-!
# Property C64: the scoring loops in Python and C agree
-/

set_option autoImplicit false

namespace Verif

open Spec Text SetOps

variable {D R : Type} [LinearOrder D]

theorem foldlM_agree {α β : Type} {f g : β → α → Except PyErr β} (h : ∀ b a r, f b a = .ok r → g b a = .ok r) :
    ∀ (l : List α) (b r : β), l.foldlM f b = .ok r → l.foldlM g b = .ok r := by
  intro l
  induction l with
  | nil => intro b r h; exact h
  | cons a l ih =>
    intro b r hr
    rw [List.foldlM_cons] at hr ⊢
    cases e : f b a with
    | error x => rw [e] at hr; cases hr
    | ok y =>
      rw [e, bind_ok] at hr
      rw [h b a y e, bind_ok]
      exact ih y r hr

/-- the division of C agrees with that of Python where the latter does not raise -/
def CDivision (A : Arith R) (cdiv : R → R → R) : Prop := ∀ x y z, A.div x y = some z → cdiv x y = z

section

variable {A : Arith R} {cdiv : R → R → R} {P : Bm25 R}

theorem pyDiv_some {x y z : R} (h : pyDiv A x y = .ok z) : A.div x y = some z := by
  unfold pyDiv at h
  split at h
  · rename_i z' hz; cases h; exact hz
  · cases h

theorem cTf_agree (hc : CDivision A cdiv) {f len mean z : R} (h : okapiTf A P f len mean = .ok z) : cTf A cdiv P f len mean = z := by
  unfold okapiTf at h
  cases e : pyDiv A (A.mul P.b len) mean with
  | error x => rw [e] at h; cases h
  | ok q =>
    rw [e, bind_ok] at h
    unfold cTf
    simp only
    rw [hc _ _ _ (pyDiv_some e), hc _ _ _ (pyDiv_some h)]

theorem cWord_agree (hc : CDivision A cdiv) {s : Ix D R} {N mean : R} {t : Int} {p : SMap D R × R}
    (h : okapiWord A P s N mean t = .ok p) : cWord A cdiv P s N mean t = .ok p := by
  unfold okapiWord at h
  unfold cWord
  cases he : s.wordinfo.get? t with
  | none => rw [he] at h; cases h
  | some e =>
    rw [he] at h
    simp only at h ⊢
    cases ei : idf A e.map.len N with
    | error x => rw [ei] at h; cases h
    | ok i =>
      rw [ei, bind_ok] at h
      rw [bind_ok]
      cases ef : e.map.items.foldlM (okapiScoreStep A P s.docweight i mean) SMap.empty with
      | error x => rw [ef] at h; cases h
      | ok r =>
        rw [ef, bind_ok] at h
        rw [foldlM_agree (g := cScoreStep A cdiv P s.docweight i mean) _ _ _ _ ef, bind_ok]
        · exact h
        · intro b a r hr
          unfold okapiScoreStep at hr
          unfold cScoreStep
          split at hr
          · cases hr
          · rename_i len hl
            cases et : okapiTf A P a.2 len mean with
            | error x => rw [et] at hr; cases hr
            | ok tf =>
              rw [et, bind_ok] at hr
              cases hr
              rw [cTf_agree hc et]

theorem mapM_congr' {α β : Type} {f g : α → Except PyErr β} {l : List α} (h : ∀ a ∈ l, f a = g a) : l.mapM f = l.mapM g := by
  induction l with
  | nil => rfl
  | cons a l ih =>
    rw [List.mapM_cons, List.mapM_cons, h a (by simp), ih (fun x hx => h x (by simp [hx]))]

/-- C64: in every state an OkapiIndex can get into, the scoring loop in C returns the same buckets (or raises the same exception) as
the one in Python, for all lists of word ids -/
theorem C64_loops {Pos : R → Prop} (hA : Positive A Pos) (hP : PosParams A Pos P) (hc : CDivision A cdiv) (pipeline : List Element)
    (ops : List (Text.Op D)) (hs : SmallLexicon pipeline ops) (he : LengthsExact A pipeline ops) (s : TI D R)
    (hr : run (okapi A P) pipeline ops = .ok s) (wids : List Int) :
    cSearchWids A cdiv P s.ix wids = okapiSearchWids A P s.ix wids := by
  obtain ⟨-, -, hS, -⟩ := (Ranked.okapi (D := D) P hP).run hA hs (fun _ => he) hr
  unfold cSearchWids okapiSearchWids
  split
  · rfl
  · simp only
    cases e : pyDiv A (A.ofInt s.ix.total) (A.ofInt s.ix.documentCount) with
    | error x => rfl
    | ok mean =>
      rw [bind_ok, bind_ok]
      apply mapM_congr'
      intro t _
      cases hg : s.ix.wordinfo.contains t with
      | false =>
        have : s.ix.wordinfo.get? t = none := by
          cases h : s.ix.wordinfo.get? t with
          | none => rfl
          | some e => rw [(SMap.contains_iff _ _).2 ⟨e, h⟩] at hg; cases hg
        unfold cWord okapiWord
        rw [this]
      | true =>
        obtain ⟨L, eL, hf⟩ := hS [t] (by intro w hw; rw [List.mem_singleton.1 hw]; exact hg)
        have eL : okapiSearchWids A P s.ix [t] = .ok L := eL
        unfold okapiSearchWids at eL
        rw [if_neg (by simp)] at eL
        simp only at eL
        rw [e, bind_ok, List.mapM_cons] at eL
        cases ew : okapiWord A P s.ix (A.ofInt s.ix.documentCount) mean t with
        | error x => rw [ew] at eL; cases eL
        | ok p => exact cWord_agree hc ew

theorem searchUnion_loops {K K' : Kind D R} (ha : K.arith = K'.arith) (s : Ix D R) (h : ∀ wids, K.searchWids s wids = K'.searchWids s wids)
    (wids : List Int) : searchUnion K s wids = searchUnion K' s wids := by
  unfold searchUnion
  rw [h, ha]

/-- C64: so all queries have the same results with either loop -/
theorem C64_apply {Pos : R → Prop} (hA : Positive A Pos) (hP : PosParams A Pos P) (hc : CDivision A cdiv) (pipeline : List Element)
    (ops : List (Text.Op D)) (hs : SmallLexicon pipeline ops) (he : LengthsExact A pipeline ops) (s : TI D R)
    (hr : run (okapiC A cdiv P) pipeline ops = .ok s) (isSpace : Char → Bool) (upper : Word → Word)
    (odd : Word → Except PyErr (Word → Bool)) (q : Word) :
    run (okapi A P) pipeline ops = .ok s ∧
    apply (okapiC A cdiv P) isSpace upper odd pipeline s q = apply (okapi A P) isSpace upper odd pipeline s q := by
  have hr' : run (okapi A P) pipeline ops = .ok s := hr
  refine ⟨hr', ?_⟩
  have hl := C64_loops hA hP hc pipeline ops hs he s hr'
  have hu : ∀ wids, searchUnion (okapiC A cdiv P) s.ix wids = searchUnion (okapi A P) s.ix wids :=
    searchUnion_loops (K := okapiC A cdiv P) (K' := okapi A P) rfl s.ix hl
  have hsr : searcher (okapiC A cdiv P) odd pipeline s = searcher (okapi A P) odd pipeline s := by
    unfold searcher
    congr 1
    · funext w
      unfold search
      simp only [hu]
    · funext ws
      congr 1
      unfold searchPhrase
      have : ∀ wids, (okapiC A cdiv P : Kind D R).searchWids s.ix wids = (okapi A P : Kind D R).searchWids s.ix wids := hl
      simp only [this]
      rfl
    · funext w
      unfold searchGlob
      simp only [hu]
  unfold apply
  cases QueryParser.parseQuery isSpace upper (Lexicon.parseTerms pipeline) q with
  | error e => rfl
  | ok p =>
    simp only
    unfold applyTree
    rw [hsr]
    rfl

end

/-- C's division in the arithmetic of the examples: like the other one, and 0 where that raises -/
def exCdiv (x y : Int) : Int := (exPosArith.div x y).getD 0

example : CDivision exPosArith exCdiv := by
  intro x y z h
  unfold exCdiv
  rw [h]; rfl

-- the loop in C on the history of the examples
example : ((run (okapiC exPosArith exCdiv { k1 := 1, b := 1 }) exPipeline exTextOps).toOption.bind (fun s =>
    (applyTree (okapiC exPosArith exCdiv { k1 := 1, b := 1 }) (fun _ => .ok (fun _ => false)) exPipeline s
      (.and [.atom ['d', 'o', 'g'], .not (.atom ['e', 'e', 'l'])])).toOption)).map
      (fun r => r.map SMap.items) = some (some [(3, 2)]) := by decide +kernel

/-- the agreement is about states an index can get into: if the total length were 0 while some document has a word, the loop in
Python would raise and the one in C would not -/
theorem C64_zero_length : ∃ s : Ix Nat Int,
    (okapiSearchWids exArith { k1 := 1, b := 1 } s [1]).toOption = none ∧
    ((cSearchWids exArith (fun x y => (exArith.div x y).getD 0) { k1 := 1, b := 1 } s [1]).toOption.map
      (fun l => l.map (fun p => p.1.keys))) = some [[7]] :=
  ⟨{ ((run exOkapi exPipeline [.index 7 (.list [['d', 'o', 'g']])]).toOption.map (fun s => s.ix)).getD new with total := 0 },
    by decide +kernel, by decide +kernel⟩

end Verif
