import Verif.Spec.Apart
import Verif.Props.Field
import Verif.Props.Keyword
import Verif.Props.Topic
import Verif.Props.Compose
import Verif.Proofs.Legacy

/-!
# Property C89: whether a query finds a document does not depend on the other documents

`Verif.Spec.Apart` says which calls do not concern a document.
-/

set_option autoImplicit false

namespace Verif

open Spec

/-! ## field index -/

section field

open Field Spec.Field

variable {D V : Type} [LinearOrder D] [LinearOrder V]

/-- C89, field index: calls for other documents do not change whether a range query finds document `d` -/
theorem C89_field (ops more : List (Field.Op D V)) (d : D) (h : ∀ op ∈ more, SparesField d op) (lo hi : Option V) :
    ∃ before after, (Field.run ops).apply (.tuple [lo, hi]) = .ok before ∧ (Field.run (ops ++ more)).apply (.tuple [lo, hi]) = .ok after ∧
      (d ∈ after.toList ↔ d ∈ before.toList) := by
  obtain ⟨r, e, hr⟩ := C01_range_query ops lo hi
  obtain ⟨r', e', hr'⟩ := C01_range_query (ops ++ more) lo hi
  refine ⟨r, r', e, e', ?_⟩
  rw [hr, hr']
  have : current (ops ++ more) d = current ops d := by
    clear hr hr' e e' r r'
    induction more using List.reverseRecOn with
    | nil => rw [List.append_nil]
    | append_singleton more op ih =>
      rw [← ih (fun o ho => h o (List.mem_append_left _ ho)), ← List.append_assoc]
      have hop := h op (by simp)
      unfold current
      rw [List.foldl_append, List.foldl_cons, List.foldl_nil]
      cases op with
      | index d' v => exact if_neg (Ne.symm hop)
      | unindex d' => exact if_neg (Ne.symm hop)
      | clear => exact hop.elim
  rw [this]

example : ∀ op ∈ ([.index 2 5, .unindex 3] : List (Field.Op Nat Nat)), SparesField 1 op := by simp [SparesField]
example : ((Field.run ([.index 1 5, .index 3 6] ++ [.index 2 5, .unindex 3] : List (Field.Op Nat Nat))).apply (.tuple [some 5, none])).toOption.map
    (·.toList) = some [1, 2] := by decide

end field

/-! ## keyword index -/

section keyword

open Keyword Spec.Keyword

variable {D W : Type} [LinearOrder D] [LinearOrder W]

/-- C89, keyword index: calls for other documents, `optimize` and changes of the threshold, whether they raise or not, do not change
whether a query finds document `d`; in every state whatsoever -/
theorem C89_keyword (normalize : List W → List W) (s : Keyword D W) (more : List (Keyword.Op D W)) (d : D)
    (h : ∀ op ∈ more, SparesKeyword d op) (q : QueryArg W) (o : Operator) (ho : o ≠ .other) :
    ∃ before after, s.search normalize q o = .ok before ∧
      (more.foldl (fun s op => (step normalize s op).1) s).search normalize q o = .ok after ∧ (d ∈ after.toList ↔ d ∈ before.toList) := by
  have key : ∀ w, Keyword.Holds (more.foldl (fun s op => (step normalize s op).1) s).fwd w d ↔ Keyword.Holds s.fwd w d := by
    intro w
    induction more using List.reverseRecOn with
    | nil => rfl
    | append_singleton more op ih =>
      rw [← ih (fun o ho => h o (List.mem_append_left _ ho)), List.foldl_append, List.foldl_cons, List.foldl_nil]
      have hop := h op (by simp)
      generalize more.foldl (fun s op => (step normalize s op).1) s = s'
      cases op with
      | index d' seq => exact index_others normalize s' (Ne.symm hop) seq w
      | unindex d' => exact unindex_others s' (Ne.symm hop) w
      | clear => exact hop.elim
      | optimize => exact holds_optimize s' w d
      | setThreshold n => rfl
  cases o with
  | and =>
    obtain ⟨r, e, hr⟩ := search_and normalize s q
    obtain ⟨r', e', hr'⟩ := search_and normalize (more.foldl (fun s op => (step normalize s op).1) s) q
    exact ⟨r, r', e, e', (hr' d).trans (Iff.trans (by simp only [key]) (hr d).symm)⟩
  | or =>
    obtain ⟨r, e, hr⟩ := search_or normalize s q
    obtain ⟨r', e', hr'⟩ := search_or normalize (more.foldl (fun s op => (step normalize s op).1) s) q
    exact ⟨r, r', e, e', (hr' d).trans (Iff.trans (by simp only [key]) (hr d).symm)⟩
  | other => exact absurd rfl ho

example : ∀ op ∈ ([.index 2 (.list [20]), .setThreshold 1, .optimize, .unindex 3, .index 4 (.seq true [])] : List (Keyword.Op Nat Nat)),
    SparesKeyword 1 op := by simp [SparesKeyword]

end keyword

/-! ## topic index -/

section topic

open Topic Spec.Topic

variable {F D E X : Type} [LinearOrder F] [LinearOrder D]

theorem indexLoop_apart (eval : E → D → X → Except Unit Bool) {d d' : D} (hd : d' ≠ d) (obj : X) (is : List F) (fs : SMap F (Filter D E))
    (i : F) : (∀ f', (indexLoop eval d' obj fs is).1.get? i = some f' → ∃ f, fs.get? i = some f ∧ (d ∈ f'.ids.keys ↔ d ∈ f.ids.keys)) ∧
      ((indexLoop eval d' obj fs is).1.get? i = none ↔ fs.get? i = none) := by
  induction is generalizing fs with
  | nil => exact ⟨fun f' h => ⟨f', h, Iff.rfl⟩, Iff.rfl⟩
  | cons j is ih =>
    unfold indexLoop
    cases hj : fs.get? j with
    | none => exact ih fs
    | some f =>
      have hf : ∀ f2 e, f.indexDoc eval d' obj = (f2, e) → (d ∈ f2.ids.keys ↔ d ∈ f.ids.keys) := by
        intro f2 e h
        unfold Filter.indexDoc at h
        split at h
        · cases h; rfl
        · split at h <;> cases h
          · rfl
          · rw [SSet.mem_keys_insert]
            simp [Ne.symm hd]
          · rfl
      have hset : ∀ f2 : Filter D E, (d ∈ f2.ids.keys ↔ d ∈ f.ids.keys) →
          (∀ f', (fs.set j f2).get? i = some f' → ∃ f, fs.get? i = some f ∧ (d ∈ f'.ids.keys ↔ d ∈ f.ids.keys)) ∧
          ((fs.set j f2).get? i = none ↔ fs.get? i = none) := by
        intro f2 h2
        rw [SMap.get?_set]
        by_cases hij : i = j
        · subst hij
          rw [if_pos rfl, hj]
          refine ⟨fun f' h => ?_, by simp⟩
          cases h
          exact ⟨f, rfl, h2⟩
        · rw [if_neg hij]
          exact ⟨fun f' h => ⟨f', h, Iff.rfl⟩, Iff.rfl⟩
      cases e : f.indexDoc eval d' obj with
      | mk f2 err =>
        simp only
        rw [e]
        cases err with
        | some x => exact hset f2 (hf _ _ e)
        | none =>
          obtain ⟨a1, a2⟩ := hset f2 (hf _ _ e)
          obtain ⟨b1, b2⟩ := ih (fs.set j f2)
          refine ⟨fun f' h => ?_, b2.trans a2⟩
          obtain ⟨g, hg, hd1⟩ := b1 f' h
          obtain ⟨g', hg', hd2⟩ := a1 g hg
          exact ⟨g', hg', hd1.trans hd2⟩

/-- the registered filters, and which of them hold `d`, stay the same -/
theorem topic_apart (eval : E → D → X → Except Unit Bool) (s : Topic F D E) (op : Topic.Op F D E X) (d : D) (h : SparesTopic d op) (i : F) :
    (d ∈ contents (step eval s op).1 i ↔ d ∈ contents s i) ∧
      ((step eval s op).1.filters.contains i = true ↔ s.filters.contains i = true) := by
  have key : ∀ s' : Topic F D E,
      ((∀ f', s'.filters.get? i = some f' → ∃ f, s.filters.get? i = some f ∧ (d ∈ f'.ids.keys ↔ d ∈ f.ids.keys)) ∧
        (s'.filters.get? i = none ↔ s.filters.get? i = none)) →
      (d ∈ contents s' i ↔ d ∈ contents s i) ∧ (s'.filters.contains i = true ↔ s.filters.contains i = true) := by
    rintro s' ⟨h1, h2⟩
    rw [mem_contents, mem_contents, SMap.contains_iff, SMap.contains_iff]
    cases e : s'.filters.get? i with
    | none => rw [h2.1 e]; simp
    | some f' =>
      obtain ⟨f, hf, hd⟩ := h1 f' e
      rw [hf]
      simp [hd]
  cases op with
  | index d' obj => exact key _ (indexLoop_apart eval h obj _ _ i)
  | unindex d' =>
    refine key _ ?_
    show (∀ f', (SMap.mapVals _ _).get? i = some f' → _) ∧ ((SMap.mapVals _ _).get? i = none ↔ _)
    rw [SMap.get?_mapVals]
    refine ⟨fun f' h' => ?_, by simp⟩
    obtain ⟨f, hf, rfl⟩ := Option.map_eq_some_iff.1 h'
    refine ⟨f, hf, ?_⟩
    show d ∈ SMap.keys (SMap.del f.ids d') ↔ _
    rw [SSet.mem_keys_del]
    exact ⟨fun h => h.1, fun x => ⟨x, Ne.symm h⟩⟩
  | _ => exact absurd h (by simp [SparesTopic])

/-- C89, topic index: indexing and unindexing other documents, whether it raises or not, does not change whether a query finds document
`d`; in every state whatsoever -/
theorem C89_topic (eval : E → D → X → Except Unit Bool) (s : Topic F D E) (more : List (Topic.Op F D E X)) (d : D)
    (h : ∀ op ∈ more, SparesTopic d op) (q : QueryArg F) (hq : q ≠ .other) (o : Keyword.Operator) (ho : o ≠ .other) :
    ∃ before after, s.search q o = .ok before ∧ (more.foldl (fun s op => (step eval s op).1) s).search q o = .ok after ∧
      (d ∈ after.toList ↔ d ∈ before.toList) := by
  have key : ∀ i, (d ∈ contents (more.foldl (fun s op => (step eval s op).1) s) i ↔ d ∈ contents s i) ∧
      ((more.foldl (fun s op => (step eval s op).1) s).filters.contains i = true ↔ s.filters.contains i = true) := by
    intro i
    induction more using List.reverseRecOn with
    | nil => exact ⟨Iff.rfl, Iff.rfl⟩
    | append_singleton more op ih =>
      obtain ⟨a, b⟩ := ih (fun o ho => h o (List.mem_append_left _ ho))
      rw [← a, ← b, List.foldl_append, List.foldl_cons, List.foldl_nil]
      exact topic_apart eval _ op d (h op (by simp)) i
  cases o with
  | and =>
    obtain ⟨r, e, hr⟩ := C21_and s q hq
    obtain ⟨r', e', hr'⟩ := C21_and (more.foldl (fun s op => (step eval s op).1) s) q hq
    exact ⟨r, r', e, e', (hr' d).trans (Iff.trans (by simp only [key]) (hr d).symm)⟩
  | or =>
    obtain ⟨r, e, hr⟩ := C21_or s q hq
    obtain ⟨r', e', hr'⟩ := C21_or (more.foldl (fun s op => (step eval s op).1) s) q hq
    exact ⟨r, r', e, e', (hr' d).trans (Iff.trans (by simp only [key]) (hr d).symm)⟩
  | other => exact absurd rfl ho

example : ∀ op ∈ ([.index 2 6, .unindex 3] : List (Topic.Op Nat Nat Nat Nat)), SparesTopic 1 op := by simp [SparesTopic]

end topic

/-! ## text index -/

section text

open Text SetOps QueryParser

variable {D R : Type} [LinearOrder D] {A : Arith R} {Pos : R → Prop} {K : Kind D R}

/-- both ignored, or both match `d`, or neither does -/
def AgreeAt (d : D) (o o' : Option (D → Prop)) : Prop :=
  (o = none ∧ o' = none) ∨ ∃ P P', o = some P ∧ o' = some P' ∧ (P d ↔ P' d)

omit [LinearOrder D] in
theorem agreeAt_toList {d : D} {o o' : Option (D → Prop)} (h : AgreeAt d o o') :
    List.Forall₂ (fun P P' : D → Prop => P d ↔ P' d) o.toList o'.toList := by
  rcases h with ⟨rfl, rfl⟩ | ⟨P, P', rfl, rfl, h⟩
  · exact .nil
  · exact .cons h .nil

omit [LinearOrder D] in
theorem forall₂_forall {d : D} {l l' : List (D → Prop)} (h : List.Forall₂ (fun P P' : D → Prop => P d ↔ P' d) l l') :
    ((∀ P ∈ l, P d) ↔ ∀ P ∈ l', P d) ∧ ((∃ P ∈ l, P d) ↔ ∃ P ∈ l', P d) ∧ (l = [] ↔ l' = []) := by
  induction h with
  | nil => simp
  | cons hab _ ih => simp [hab, ih.1, ih.2.1]

mutual

theorem agreeAt_tree (L L' : Leaves D) (d : D) (hw : ∀ w, AgreeAt d (L.word w) (L'.word w)) (hp : ∀ ws, AgreeAt d (L.phrase ws) (L'.phrase ws))
    (hg : ∀ p, AgreeAt d (L.glob p) (L'.glob p)) : ∀ t : Node, AgreeAt d (L.matches? t) (L'.matches? t)
  | .atom w => by rw [Leaves.matches?, Leaves.matches?]; exact hw w
  | .phrase ws => by rw [Leaves.matches?, Leaves.matches?]; exact hp ws
  | .glob p => by rw [Leaves.matches?, Leaves.matches?]; exact hg p
  | .not _ => by rw [Leaves.matches?, Leaves.matches?]; exact .inl ⟨rfl, rfl⟩
  | .and l => by
    obtain ⟨h1, h2, -⟩ := agreeAt_list L L' d hw hp hg l
    obtain ⟨a1, -, a3⟩ := forall₂_forall h1
    obtain ⟨-, b2, -⟩ := forall₂_forall h2
    rw [Leaves.matches?, Leaves.matches?]
    refine .inr ⟨_, _, rfl, rfl, ?_⟩
    have b : (∀ P ∈ L.negative l, ¬ P d) ↔ ∀ P ∈ L'.negative l, ¬ P d := by
      have := not_congr b2
      push Not at this
      exact this
    rw [ne_eq, ne_eq, a1, a3, b]
  | .or l => by
    obtain ⟨-, -, h3⟩ := agreeAt_list L L' d hw hp hg l
    rw [Leaves.matches?, Leaves.matches?]
    exact .inr ⟨_, _, rfl, rfl, (forall₂_forall h3).2.1⟩

theorem agreeAt_list (L L' : Leaves D) (d : D) (hw : ∀ w, AgreeAt d (L.word w) (L'.word w)) (hp : ∀ ws, AgreeAt d (L.phrase ws) (L'.phrase ws))
    (hg : ∀ p, AgreeAt d (L.glob p) (L'.glob p)) : ∀ l : List Node,
      List.Forall₂ (fun P P' : D → Prop => P d ↔ P' d) (L.positive l) (L'.positive l) ∧
      List.Forall₂ (fun P P' : D → Prop => P d ↔ P' d) (L.negative l) (L'.negative l) ∧
      List.Forall₂ (fun P P' : D → Prop => P d ↔ P' d) (L.parts l) (L'.parts l)
  | [] => by simp [Leaves.positive, Leaves.negative, Leaves.parts]
  | .not n :: l => by
    obtain ⟨h1, h2, h3⟩ := agreeAt_list L L' d hw hp hg l
    have hn := agreeAt_tree L L' d hw hp hg n
    refine ⟨?_, ?_, ?_⟩
    · rw [Leaves.positive, Leaves.positive]; exact h1
    · rw [Leaves.negative, Leaves.negative]; exact List.rel_append (agreeAt_toList hn) h2
    · rw [Leaves.parts, Leaves.parts, Leaves.matches?, Leaves.matches?]; exact h3
  | .atom w :: l => by
    obtain ⟨h1, h2, h3⟩ := agreeAt_list L L' d hw hp hg l
    have hn := agreeAt_toList (agreeAt_tree L L' d hw hp hg (.atom w))
    refine ⟨?_, ?_, ?_⟩
    · simp only [Leaves.positive]; exact List.rel_append hn h1
    · simp only [Leaves.negative]; exact h2
    · rw [Leaves.parts, Leaves.parts]; exact List.rel_append hn h3
  | .phrase ws :: l => by
    obtain ⟨h1, h2, h3⟩ := agreeAt_list L L' d hw hp hg l
    have hn := agreeAt_toList (agreeAt_tree L L' d hw hp hg (.phrase ws))
    refine ⟨?_, ?_, ?_⟩
    · simp only [Leaves.positive]; exact List.rel_append hn h1
    · simp only [Leaves.negative]; exact h2
    · rw [Leaves.parts, Leaves.parts]; exact List.rel_append hn h3
  | .glob p :: l => by
    obtain ⟨h1, h2, h3⟩ := agreeAt_list L L' d hw hp hg l
    have hn := agreeAt_toList (agreeAt_tree L L' d hw hp hg (.glob p))
    refine ⟨?_, ?_, ?_⟩
    · simp only [Leaves.positive]; exact List.rel_append hn h1
    · simp only [Leaves.negative]; exact h2
    · rw [Leaves.parts, Leaves.parts]; exact List.rel_append hn h3
  | .and l' :: l => by
    obtain ⟨h1, h2, h3⟩ := agreeAt_list L L' d hw hp hg l
    have hn := agreeAt_toList (agreeAt_tree L L' d hw hp hg (.and l'))
    refine ⟨?_, ?_, ?_⟩
    · simp only [Leaves.positive]; exact List.rel_append hn h1
    · simp only [Leaves.negative]; exact h2
    · rw [Leaves.parts, Leaves.parts]; exact List.rel_append hn h3
  | .or l' :: l => by
    obtain ⟨h1, h2, h3⟩ := agreeAt_list L L' d hw hp hg l
    have hn := agreeAt_toList (agreeAt_tree L L' d hw hp hg (.or l'))
    refine ⟨?_, ?_, ?_⟩
    · simp only [Leaves.positive]; exact List.rel_append hn h1
    · simp only [Leaves.negative]; exact h2
    · rw [Leaves.parts, Leaves.parts]; exact List.rel_append hn h3

end

theorem currentText_apart (ops more : List (Text.Op D)) (d : D) (h : ∀ op ∈ more, SparesText d op) :
    currentText (ops ++ more) d = currentText ops d := by
  induction more using List.reverseRecOn with
  | nil => rw [List.append_nil]
  | append_singleton more op ih =>
    rw [← ih (fun o ho => h o (List.mem_append_left _ ho)), ← List.append_assoc]
    have hop := h op (by simp)
    unfold currentText
    rw [List.foldl_append, List.foldl_cons, List.foldl_nil]
    cases op with
    | index d' v => exact if_neg (Ne.symm hop)
    | unindex d' => exact if_neg (Ne.symm hop)
    | clear => exact hop.elim
    | lexicon op => rfl

theorem lexCalls_append (ops more : List (Text.Op D)) : lexCalls (ops ++ more) = lexCalls ops ++ lexCalls more := List.filterMap_append

theorem leaves_apart (pipeline : List Element) (ops more : List (Text.Op D)) (d : D) (h : ∀ op ∈ more, SparesText d op) (t : Node) :
    AgreeAt d ((textLeaves pipeline (ops ++ more)).matches? t) ((textLeaves pipeline ops).matches? t) := by
  have hd : docWords pipeline (ops ++ more) d = docWords pipeline ops d := by unfold docWords; rw [currentText_apart ops more d h]
  have hh : ∀ w, Holds pipeline (ops ++ more) d w ↔ Holds pipeline ops d w := fun w => by unfold Holds; rw [hd]
  have hl : ∀ ws, docWords pipeline ops d = some ws → ∀ w ∈ ws,
      (lexAfter pipeline (ops ++ more)).getWid w = (lexAfter pipeline ops).getWid w := by
    intro ws hws w hw
    have hmap := docWids_stable (lexCalls more) hws
    have e : lexAfter pipeline (ops ++ more) = Lexicon.runFrom pipeline (lexAfter pipeline ops) (lexCalls more) := by
      unfold lexAfter
      rw [lexCalls_append]
      unfold Lexicon.run Lexicon.runFrom
      rw [List.foldl_append]
    rw [e]
    exact List.map_inj_left.1 hmap w hw
  apply agreeAt_tree
  · intro w
    unfold textLeaves
    simp only
    by_cases hw : wordsOf pipeline (.str w) = []
    · rw [if_pos hw, if_pos hw]; exact .inl ⟨rfl, rfl⟩
    · rw [if_neg hw, if_neg hw]
      exact .inr ⟨_, _, rfl, rfl, by simp only [hh]⟩
  · intro ws
    refine .inr ⟨_, _, rfl, rfl, ?_⟩
    unfold PhraseFound
    rw [hd]
    constructor
    · rintro ⟨doc, init, last, v, h1, h2, h3, h4, j, h5⟩
      refine ⟨doc, init, last, v, h1, h2, h3, h4, j, ?_⟩
      rwa [hl doc h1 v (h4.subset (by simp)), hl doc h1 last (h3 last (by rw [h2]; simp))] at h5
    · rintro ⟨doc, init, last, v, h1, h2, h3, h4, j, h5⟩
      refine ⟨doc, init, last, v, h1, h2, h3, h4, j, ?_⟩
      rwa [hl doc h1 v (h4.subset (by simp)), hl doc h1 last (h3 last (by rw [h2]; simp))]
  · intro p
    refine .inr ⟨_, _, rfl, rfl, ?_⟩
    unfold HasGlob
    simp only [hh]

/-- C89, text index: calls for other documents and any use of the lexicon do not change whether a query finds document `d`; `apply`
raises `ParseError` before and after, or neither before nor after -/
theorem C89_text (hA : Positive A Pos) (hK : Ranked A Pos K) (isSpace : Char → Bool) (upper : Word → Word)
    (odd : Word → Except PyErr (Word → Bool)) (pipeline : List Element) (ops more : List (Text.Op D))
    (hs : SmallLexicon pipeline (ops ++ more)) (he : K.hasTotal = true → LengthsExact A pipeline (ops ++ more))
    (s s' : TI D R) (hr : run K pipeline ops = .ok s) (hr' : run K pipeline (ops ++ more) = .ok s') (d : D)
    (h : ∀ op ∈ more, SparesText d op) (q : Word) (hg : QueryFine isSpace upper pipeline (ops ++ more) q) :
    (apply K isSpace upper odd pipeline s q = .error .ParseError ∧ apply K isSpace upper odd pipeline s' q = .error .ParseError) ∨
    ∃ before after, apply K isSpace upper odd pipeline s q = .ok before ∧ apply K isSpace upper odd pipeline s' q = .ok after ∧
      (after = none ↔ before = none) ∧ (Found after d ↔ Found before d) := by
  have hg0 : QueryFine isSpace upper pipeline ops q := by
    intro t ign hq p hp
    obtain ⟨h1, h2⟩ := hg t ign hq p hp
    refine ⟨h1, fun w hw => h2 w ?_⟩
    rw [lexCalls_append]
    unfold seen at hw ⊢
    rw [List.flatMap_append]
    exact List.mem_append_left _ hw
  have he0 : K.hasTotal = true → LengthsExact A pipeline ops := fun x d t ht => he x d t (List.mem_append_left _ ht)
  have c := C60_apply hA hK isSpace upper odd pipeline ops (small_append hs) he0 s hr q hg0
  have c' := C60_apply hA hK isSpace upper odd pipeline (ops ++ more) hs he s' hr' q hg
  rcases c with ⟨p, e⟩ | ⟨t, ign, p, c⟩
  · rcases c' with ⟨-, e'⟩ | ⟨t, ign, p', -⟩
    · exact .inl ⟨e, e'⟩
    · rw [p] at p'; cases p'
  · rcases c' with ⟨p', -⟩ | ⟨t', ign', p', c'⟩
    · rw [p] at p'; cases p'
    · rw [p] at p'
      cases p'
      right
      have ha := leaves_apart pipeline ops more d h t
      rcases c with ⟨x, e⟩ | ⟨P, m, x, e, hm, -⟩ <;> rcases c' with ⟨x', e'⟩ | ⟨P', m', x', e', hm', -⟩
      · exact ⟨_, _, e, e', Iff.rfl, by unfold Found; simp⟩
      · rw [x, x'] at ha; rcases ha with ⟨h, -⟩ | ⟨_, _, -, h, -⟩ <;> cases h
      · rw [x, x'] at ha; rcases ha with ⟨-, h⟩ | ⟨_, _, h, -, -⟩ <;> cases h
      · rw [x, x'] at ha
        rcases ha with ⟨h, -⟩ | ⟨_, _, h, h', hd⟩
        · cases h
        · cases h
          cases h'
          refine ⟨_, _, e, e', by simp, ?_⟩
          unfold Found
          simp [hm, hm', hd]

/-- the hypotheses are met: document 3 of the example history is indexed by the third call and found afterwards; the later calls index
and unindex documents 5, 7 and 9 and use the lexicon -/
example : exTextOps = exTextOps.take 3 ++ exTextOps.drop 3 := rfl

theorem exApart : ∀ op ∈ exTextOps.drop 3, SparesText 3 op := by simp [exTextOps, SparesText]

example (s s' : TI Nat Int) (hr : run (okapi exPosArith { k1 := 1, b := 1 }) exPipeline (exTextOps.take 3) = .ok s)
    (hr' : run (okapi exPosArith { k1 := 1, b := 1 }) exPipeline (exTextOps.take 3 ++ exTextOps.drop 3) = .ok s') (q : Word) :
    (apply (okapi exPosArith { k1 := 1, b := 1 }) exIsSpace exUpper (fun _ => .ok (fun _ => false)) exPipeline s q = .error .ParseError ∧
      apply (okapi exPosArith { k1 := 1, b := 1 }) exIsSpace exUpper (fun _ => .ok (fun _ => false)) exPipeline s' q = .error .ParseError) ∨
    ∃ before after,
      apply (okapi exPosArith { k1 := 1, b := 1 }) exIsSpace exUpper (fun _ => .ok (fun _ => false)) exPipeline s q = .ok before ∧
      apply (okapi exPosArith { k1 := 1, b := 1 }) exIsSpace exUpper (fun _ => .ok (fun _ => false)) exPipeline s' q = .ok after ∧
      (after = none ↔ before = none) ∧ (Found after 3 ↔ Found before 3) :=
  C89_text exPositive exRanked_okapi exIsSpace exUpper (fun _ => .ok (fun _ => false)) exPipeline (exTextOps.take 3) (exTextOps.drop 3)
    exText_small (fun _ => exText_exact) s s' hr hr' 3 exApart q (exFine _ q)

end text

end Verif
