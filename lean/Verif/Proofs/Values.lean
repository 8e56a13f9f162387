import Verif.Spec.Values
import Verif.Proofs.Lexicon

/-! Word ids do not depend on what the words are. -/

set_option autoImplicit false

namespace Verif.Text

open Spec

/-- a lexicon that holds the replaced words under the same ids -/
structure LexMap (g : Word → Word) (l l' : Lexicon) : Prop where
  wids : ∀ w, l'.wids.get? (g w) = l.wids.get? w
  words : l'.words = l.words.mapVals (fun _ w => g w)
  count : l'.count = l.count

variable {g : Word → Word} {pipeline pipeline' : List Element}

theorem LexMap.new : LexMap g Lexicon.new Lexicon.new := ⟨fun _ => rfl, rfl, rfl⟩

theorem LexMap.newWid {l l' : Lexicon} (h : LexMap g l l') : l'.newWid = l.newWid := by
  have hb : ∀ n c, Lexicon.bump l'.words n c = Lexicon.bump l.words n c := by
    intro n
    induction n with
    | zero => intro c; rfl
    | succ n ih =>
      intro c
      unfold Lexicon.bump
      have : l'.words.contains c = l.words.contains c := by
        rw [Bool.eq_iff_iff, SMap.contains_iff_mem, SMap.contains_iff_mem, h.words, SMap.keys_mapVals]
      rw [this, ih]
  unfold Lexicon.newWid
  rw [hb, h.count, h.words, SMap.len_mapVals]

theorem LexMap.getWordIdCreate (hg : Function.Injective g) {l l' : Lexicon} (h : LexMap g l l') (w : Word) :
    LexMap g (l.getWordIdCreate w).1 (l'.getWordIdCreate (g w)).1 ∧ (l'.getWordIdCreate (g w)).2 = (l.getWordIdCreate w).2 := by
  unfold Lexicon.getWordIdCreate
  rw [h.wids]
  cases l.wids.get? w with
  | some wid => exact ⟨h, rfl⟩
  | none =>
    dsimp only
    rw [h.newWid]
    refine ⟨⟨fun x => ?_, ?_, rfl⟩, rfl⟩
    · dsimp only
      rw [SMap.get?_set, SMap.get?_set, h.wids]
      by_cases hx : x = w
      · rw [if_pos hx, if_pos (congrArg g hx)]
      · rw [if_neg hx, if_neg (fun e => hx (hg e))]
    · dsimp only
      ext1 i
      rw [SMap.get?_mapVals, SMap.get?_set, SMap.get?_set, h.words, SMap.get?_mapVals]
      split <;> rfl

theorem LexMap.createAll (hg : Function.Injective g) (ws : List Word) {l l' : Lexicon} (h : LexMap g l l') :
    LexMap g (l.createAll ws).1 (l'.createAll (ws.map g)).1 ∧ (l'.createAll (ws.map g)).2 = (l.createAll ws).2 := by
  induction ws generalizing l l' with
  | nil => exact ⟨h, rfl⟩
  | cons w ws ih =>
    obtain ⟨h1, h2⟩ := h.getWordIdCreate hg w
    obtain ⟨h3, h4⟩ := ih h1
    refine ⟨h3, ?_⟩
    show (l'.getWordIdCreate (g w)).2 :: _ = (l.getWordIdCreate w).2 :: _
    rw [h2, h4]

theorem LexMap.source (hg : Function.Injective g) {l l' : Lexicon} (h : LexMap g l l') {t t' : TextArg}
    (ht : wordsOf pipeline' t' = (wordsOf pipeline t).map g) :
    LexMap g (l.sourceToWordIds pipeline t).1 (l'.sourceToWordIds pipeline' t').1 ∧
      (l'.sourceToWordIds pipeline' t').2 = (l.sourceToWordIds pipeline t).2 := by
  have key : ∀ (p : List Element) (t : TextArg), Lexicon.runPipeline p (Lexicon.sourceText t) = wordsOf p t := by
    intro p t
    rw [Lexicon.runPipeline_eq]
    unfold wordsOf
    cases t <;> rfl
  unfold Lexicon.sourceToWordIds
  rw [key, key, ht]
  exact h.createAll hg _

theorem LexMap.term {l l' : Lexicon} (h : LexMap g l l') {t t' : TextArg} (ht : MappedText g pipeline pipeline' t t') :
    l'.termToWordIds pipeline' t' = l.termToWordIds pipeline t := by
  have hw : ∀ w, l'.getWid (g w) = l.getWid w := fun w => by unfold Lexicon.getWid; rw [h.wids]
  have key : ∀ (p : List Element) (l : Lexicon) (t : TextArg), t ≠ .none → l.termToWordIds p t = .ok ((wordsOf p t).map l.getWid) := by
    intro p l t ht
    cases t with
    | none => exact absurd rfl ht
    | str s => unfold Lexicon.termToWordIds wordsOf; rw [← Lexicon.runPipeline_eq]; rfl
    | list s => unfold Lexicon.termToWordIds wordsOf; rw [← Lexicon.runPipeline_eq]; rfl
  by_cases hn : t = .none
  · have hn' := ht.1.1 hn
    subst hn; subst hn'; rfl
  · rw [key _ _ _ hn, key _ _ _ (fun e => hn (ht.1.2 e)), ht.2, List.map_map]
    congr 1
    exact List.map_congr_left (fun w _ => hw w)

section
variable {D R : Type} [LinearOrder D]

/-- the outcomes of corresponding histories -/
inductive SameRun (g : Word → Word) : Except PyErr (TI D R) → Except PyErr (TI D R) → Prop
  | error (e : PyErr) : SameRun g (.error e) (.error e)
  | ok (s s' : TI D R) : LexMap g s.lex s'.lex → s'.ix = s.ix → SameRun g (.ok s) (.ok s')

theorem sameRun_step (hg : Function.Injective g) (K : Kind D R) {s s' : TI D R} (h : LexMap g s.lex s'.lex) (hx : s'.ix = s.ix)
    {op op' : Op D} (ho : MappedCall g pipeline pipeline' op op') : SameRun g (step K pipeline s op) (step K pipeline' s' op') := by
  cases ho with
  | index d t t' ht =>
    obtain ⟨h1, h2⟩ := h.source hg ht
    unfold step
    dsimp only
    rw [h2, hx]
    cases indexDoc K d (s.lex.sourceToWordIds pipeline t).2 s.ix with
    | error e => exact SameRun.error e
    | ok ix => exact SameRun.ok _ _ h1 rfl
  | unindex d =>
    unfold step
    dsimp only
    rw [hx]
    cases unindexDoc K d s.ix with
    | error e => exact SameRun.error e
    | ok ix => exact SameRun.ok _ _ h rfl
  | clear => exact SameRun.ok _ _ h (by dsimp only; rw [hx])
  | source t t' ht => exact SameRun.ok _ _ (h.source hg ht).1 hx
  | reload n => exact SameRun.ok _ _ ⟨h.wids, h.words, rfl⟩ hx

theorem sameRun (hg : Function.Injective g) (K : Kind D R) {ops ops' : List (Op D)}
    (ho : List.Forall₂ (MappedCall g pipeline pipeline') ops ops') : SameRun g (run K pipeline ops) (run K pipeline' ops') := by
  unfold run
  have key : ∀ (s s' : TI D R), LexMap g s.lex s'.lex → s'.ix = s.ix →
      SameRun g (ops.foldlM (step K pipeline) s) (ops'.foldlM (step K pipeline') s') := by
    induction ho with
    | nil => intro s s' h hx; exact SameRun.ok _ _ h hx
    | @cons op op' ops ops' h1 _ ih =>
      intro s s' h hx
      rw [List.foldlM_cons, List.foldlM_cons]
      have := sameRun_step hg K h hx h1
      generalize step K pipeline s op = a at this
      generalize step K pipeline' s' op' = b at this
      cases this with
      | error e => exact SameRun.error e
      | ok u u' hu hu' => exact ih u u' hu hu'
  exact key _ _ LexMap.new rfl

variable {K : Kind D R} {s s' : TI D R}

theorem same_search (h : LexMap g s.lex s'.lex) (hx : s'.ix = s.ix) {t t' : TextArg} (ht : MappedText g pipeline pipeline' t t') :
    search K pipeline' s'.lex s'.ix t' = search K pipeline s.lex s.ix t := by
  unfold search
  rw [h.term ht, hx]

theorem same_phrase (h : LexMap g s.lex s'.lex) (hx : s'.ix = s.ix) {t t' : TextArg} (ht : MappedText g pipeline pipeline' t t') :
    searchPhrase K pipeline' s'.lex s'.ix t' = searchPhrase K pipeline s.lex s.ix t := by
  unfold searchPhrase
  rw [h.term ht, hx]

theorem same_terms (h : LexMap g s.lex s'.lex) {ts ts' : List TextArg} (ht : List.Forall₂ (MappedText g pipeline pipeline') ts ts') :
    termWids pipeline' s'.lex ts' = termWids pipeline s.lex ts := by
  induction ht with
  | nil => rfl
  | cons h1 _ ih => unfold termWids; rw [h.term h1, ih]

mutual

theorem mappedQuery_terms : ∀ n n' : Node, MappedQuery g pipeline pipeline' n n' →
    List.Forall₂ (MappedText g pipeline pipeline') n.terms n'.terms
  | .atom w, _, h => by cases h with | atom _ w' h => simpa [Node.terms] using h
  | .phrase ws, _, h => by cases h with | phrase _ w' h => simpa [Node.terms] using h
  | .glob w, _, h => by cases h
  | .not n, _, h => by cases h; simp [Node.terms]
  | .and l, _, h => by
    cases h with
    | and _ l' h => unfold Node.terms; exact mappedQuery_termsAll l l' h
  | .or l, _, h => by
    cases h with
    | or _ l' h => unfold Node.terms; exact mappedQuery_termsAll l l' h

theorem mappedQuery_termsAll : ∀ l l' : List Node, List.Forall₂ (MappedQuery g pipeline pipeline') l l' →
    List.Forall₂ (MappedText g pipeline pipeline') (Node.termsAll l) (Node.termsAll l')
  | [], _, h => by cases h; simp [Node.termsAll]
  | n :: rest, _, h => by
    cases h with
    | cons h1 h2 =>
      unfold Node.termsAll
      exact List.rel_append (mappedQuery_terms n _ h1) (mappedQuery_termsAll rest _ h2)

end

mutual

theorem same_execute (odd : Word → Except PyErr (Word → Bool)) (h : LexMap g s.lex s'.lex) (hx : s'.ix = s.ix) :
    ∀ n n' : Node, MappedQuery g pipeline pipeline' n n' →
      n'.execute K.arith.toWArith (searcher K odd pipeline' s') = n.execute K.arith.toWArith (searcher K odd pipeline s)
  | .atom w, _, hq => by cases hq with | atom _ w' ht => exact same_search h hx ht
  | .phrase ws, _, hq => by
    cases hq with
    | phrase _ w' ht => exact congrArg (Except.map some) (same_phrase h hx ht)
  | .glob w, _, hq => by cases hq
  | .not n, _, hq => by cases hq; rfl
  | .and l, _, hq => by
    cases hq with
    | and _ l' hl => unfold Node.execute; rw [same_executeAnd odd h hx l l' hl]
  | .or l, _, hq => by
    cases hq with
    | or _ l' hl => unfold Node.execute; rw [same_executeOr odd h hx l l' hl]

theorem same_executeAnd (odd : Word → Except PyErr (Word → Bool)) (h : LexMap g s.lex s'.lex) (hx : s'.ix = s.ix) :
    ∀ l l' : List Node, List.Forall₂ (MappedQuery g pipeline pipeline') l l' →
      Node.executeAnd K.arith.toWArith (searcher K odd pipeline' s') l' = Node.executeAnd K.arith.toWArith (searcher K odd pipeline s) l
  | [], _, hl => by cases hl; rfl
  | .not m :: rest, _, hl => by
    cases hl with
    | cons h1 h2 =>
      cases h1 with
      | not _ m' h1 =>
        unfold Node.executeAnd
        rw [same_execute odd h hx m m' h1, same_executeAnd odd h hx rest _ h2]
  | .atom w :: rest, _, hl => by
    cases hl with
    | cons h1 h2 =>
      have e1 := same_execute odd h hx (.atom w) _ h1
      have e2 := same_executeAnd odd h hx rest _ h2
      cases h1
      unfold Node.executeAnd; rw [e1, e2]
  | .phrase w :: rest, _, hl => by
    cases hl with
    | cons h1 h2 =>
      have e1 := same_execute odd h hx (.phrase w) _ h1
      have e2 := same_executeAnd odd h hx rest _ h2
      cases h1
      unfold Node.executeAnd; rw [e1, e2]
  | .glob w :: rest, _, hl => by
    cases hl with
    | cons h1 h2 => cases h1
  | .and l :: rest, _, hl => by
    cases hl with
    | cons h1 h2 =>
      have e1 := same_execute odd h hx (.and l) _ h1
      have e2 := same_executeAnd odd h hx rest _ h2
      cases h1
      unfold Node.executeAnd; rw [e1, e2]
  | .or l :: rest, _, hl => by
    cases hl with
    | cons h1 h2 =>
      have e1 := same_execute odd h hx (.or l) _ h1
      have e2 := same_executeAnd odd h hx rest _ h2
      cases h1
      unfold Node.executeAnd; rw [e1, e2]

theorem same_executeOr (odd : Word → Except PyErr (Word → Bool)) (h : LexMap g s.lex s'.lex) (hx : s'.ix = s.ix) :
    ∀ l l' : List Node, List.Forall₂ (MappedQuery g pipeline pipeline') l l' →
      Node.executeOr K.arith.toWArith (searcher K odd pipeline' s') l' = Node.executeOr K.arith.toWArith (searcher K odd pipeline s) l
  | [], _, hl => by cases hl; rfl
  | n :: rest, _, hl => by
    cases hl with
    | cons h1 h2 =>
      unfold Node.executeOr
      rw [same_execute odd h hx n _ h1, same_executeOr odd h hx rest _ h2]

end

theorem same_applyTree (odd : Word → Except PyErr (Word → Bool)) (h : LexMap g s.lex s'.lex) (hx : s'.ix = s.ix) {n n' : Node}
    (hq : MappedQuery g pipeline pipeline' n n') : applyTree K odd pipeline' s' n' = applyTree K odd pipeline s n := by
  unfold applyTree queryWeight
  rw [same_execute odd h hx n n' hq, same_terms h (mappedQuery_terms n n' hq), hx]

end

end Verif.Text
