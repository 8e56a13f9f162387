import Verif.Model.Legacy
import Verif.Proofs.TextRun

/-! # Indexes stored by older releases are simulated by ordinary ones -/

set_option autoImplicit false

namespace Verif.Text

open Spec

variable {D R : Type} [LinearOrder D]

/-- a counter that exists has the value `n` -/
def Agree (c : Counter) (n : Int) : Prop := ∀ m, c = .length m → m = n

theorem Agree.change {c : Counter} {n : Int} (h : Agree c n) {delta new n' : Int} (e : new = n + delta) (e' : n' = n + delta) :
    Agree (c.change delta new) n' := by
  intro m hm
  cases c with
  | method => cases hm; rw [e, e']
  | length k => cases hm; rw [h k rfl, e']

theorem change_ne (c : Counter) (delta new : Int) : c.change delta new ≠ .method := by
  cases c <;> simp [Counter.change]

theorem total_change (t : Total) (delta : Int) : (t.change delta).value = t.value + delta := by
  cases t <;> rfl

/-- the same index, up to missing counters -/
structure Sim (l : LIx D R) (s : Ix D R) : Prop where
  wordinfo : l.wordinfo = s.wordinfo
  docweight : l.docweight = s.docweight
  docwords : l.docwords = s.docwords
  wordCount : Agree l.wordCount s.wordCount
  documentCount : Agree l.documentCount s.documentCount
  total : l.total.value = s.total

/-- `Sim`, and the counter of words is right -/
structure SimW (l : LIx D R) (s : Ix D R) : Prop where
  sim : Sim l s
  exact : s.wordCount = s.wordinfo.len

/-- both calls succeed with related results, or raise the same exception -/
inductive SimE {α β : Type} (r : α → β → Prop) : Except PyErr α → Except PyErr β → Prop
  | ok {a : α} {b : β} (h : r a b) : SimE r (.ok a) (.ok b)
  | error (e : PyErr) : SimE r (.error e) (.error e)

theorem SimE.bind {α β α' β' : Type} {r : α → β → Prop} {r' : α' → β' → Prop} {x : Except PyErr α} {y : Except PyErr β}
    (h : SimE r x y) {f : α → Except PyErr α'} {g : β → Except PyErr β'} (hf : ∀ a b, r a b → SimE r' (f a) (g b)) :
    SimE r' (x >>= f) (y >>= g) := by
  cases h with
  | ok h => exact hf _ _ h
  | error e => exact .error e

/-- the same value on both sides -/
theorem SimE.same {α α' β' : Type} {r' : α' → β' → Prop} (x : Except PyErr α)
    {f : α → Except PyErr α'} {g : α → Except PyErr β'} (hf : ∀ a, SimE r' (f a) (g a)) :
    SimE r' (x >>= f) (x >>= g) := by
  cases x with
  | ok a => exact hf a
  | error e => exact .error e

theorem SimE.foldlM {α β γ : Type} {r : α → β → Prop} {f : α → γ → Except PyErr α} {g : β → γ → Except PyErr β}
    (h : ∀ a b c, r a b → SimE r (f a c) (g b c)) (l : List γ) : ∀ {a : α} {b : β}, r a b → SimE r (l.foldlM f a) (l.foldlM g b) := by
  induction l with
  | nil => intro a b hab; exact .ok hab
  | cons c l ih =>
    intro a b hab
    rw [List.foldlM_cons, List.foldlM_cons]
    exact (h a b c hab).bind (fun a' b' h' => ih h')

variable (K : Kind D R)

theorem sim_add {l : LIx D R} {s : Ix D R} (h : SimW l s) (wid : Int) (f : R) (d : D) :
    SimW (l.addWordinfo K wid f d) (addWordinfo K wid f d s) := by
  obtain ⟨h, he⟩ := h
  unfold LIx.addWordinfo addWordinfo
  rw [h.wordinfo]
  cases hg : s.wordinfo.get? wid with
  | none =>
    have hlen : ∀ v, ((s.wordinfo.set wid v).len : Int) = s.wordinfo.len + 1 := by
      intro v
      rw [SMap.len_set, (SMap.contains_eq_false _ _).2 hg]; simp
    refine ⟨⟨rfl, h.docweight, h.docwords, ?_, h.documentCount, h.total⟩, ?_⟩
    · exact h.wordCount.change (by rw [he]) rfl
    · show s.wordCount + 1 = _
      rw [he]; exact (hlen _).symm
  | some e =>
    refine ⟨⟨rfl, h.docweight, h.docwords, h.wordCount, h.documentCount, h.total⟩, ?_⟩
    show s.wordCount = ((s.wordinfo.set wid _).len : Int)
    rw [SMap.len_set, SMap.contains_of_get? hg, he]; simp

theorem mass_len (d : D) (l : List (Int × R)) : ∀ (wi : SMap Int (D2S D R)) (c : Int),
    (((l.foldl (massStep K d) (wi, c)).1.len : Nat) : Int) - (l.foldl (massStep K d) (wi, c)).2 = wi.len - c := by
  induction l with
  | nil => intro wi c; rfl
  | cons p l ih =>
    intro wi c
    rw [List.foldl_cons]
    cases hg : wi.get? p.1 with
    | none =>
      have e : massStep K d (wi, c) p = (wi.set p.1 (D2S.put K.arith { tree := false, map := SMap.empty } d p.2), c + 1) := by
        unfold massStep; dsimp only; rw [hg]
      rw [e, ih, SMap.len_set, (SMap.contains_eq_false _ _).2 hg]
      simp only [Bool.false_eq_true, if_false]
      push_cast; omega
    | some v =>
      have e : massStep K d (wi, c) p = (wi.set p.1 ((v.grow K.arith).put K.arith d p.2), c) := by
        unfold massStep; dsimp only; rw [hg]
      rw [e, ih, SMap.len_set, SMap.contains_of_get? hg]
      simp

theorem sim_mass {l : LIx D R} {s : Ix D R} (h : SimW l s) (w : List (Int × R)) (d : D) :
    SimW (l.massAdd K w d) (massAdd K w d s) := by
  obtain ⟨h, he⟩ := h
  unfold LIx.massAdd massAdd
  have hl := mass_len K d w s.wordinfo 0
  rw [h.wordinfo]
  refine ⟨⟨rfl, h.docweight, h.docwords, ?_, h.documentCount, h.total⟩, ?_⟩
  · refine h.wordCount.change ?_ rfl
    rw [he]; omega
  · show s.wordCount + (w.foldl (massStep K d) (s.wordinfo, 0)).2 = _
    rw [he]
    show (s.wordinfo.len : Int) + (w.foldl (massStep K d) (s.wordinfo, 0)).2 = ((w.foldl (massStep K d) (s.wordinfo, 0)).1.len : Nat)
    omega

theorem sim_del {l : LIx D R} {s : Ix D R} (h : SimW l s) (wid : Int) (d : D) :
    SimE SimW (l.delWordinfo wid d) (delWordinfo wid d s) := by
  obtain ⟨h, he⟩ := h
  unfold LIx.delWordinfo delWordinfo
  rw [h.wordinfo]
  cases hg : s.wordinfo.get? wid with
  | none => exact .error _
  | some e =>
    dsimp only
    by_cases hc : e.map.contains d = true
    · rw [if_pos hc, if_pos hc]
      by_cases hz : (e.map.del d).isEmpty = true
      · rw [if_pos hz, if_pos hz]
        have hl : ((s.wordinfo.del wid).len : Int) = s.wordinfo.len + -1 := by
          rw [SMap.len_del, SMap.contains_of_get? hg]
          have : 0 < s.wordinfo.len := by
            have hm : wid ∈ s.wordinfo.keys := by rw [← SMap.contains_iff_mem]; exact SMap.contains_of_get? hg
            rw [← SMap.len_keys]; exact List.length_pos_of_mem hm
          simp only [if_true]
          omega
        refine .ok ⟨⟨rfl, h.docweight, h.docwords, ?_, h.documentCount, h.total⟩, ?_⟩
        · exact h.wordCount.change (by rw [he, hl]) rfl
        · show s.wordCount - 1 = _
          rw [he]
          show (s.wordinfo.len : Int) - 1 = ((s.wordinfo.del wid).len : Int)
          rw [hl]; omega
      · rw [if_neg hz, if_neg hz]
        refine .ok ⟨⟨rfl, h.docweight, h.docwords, h.wordCount, h.documentCount, h.total⟩, ?_⟩
        show s.wordCount = ((s.wordinfo.set wid _).len : Int)
        rw [SMap.len_set, SMap.contains_of_get? hg, he]; simp
    · rw [if_neg hc, if_neg hc]
      exact .error _

theorem sim_changeLen {l : LIx D R} {s : Ix D R} (h : SimW l s) (n : Int) :
    SimW (l.changeDocLen K n) (changeDocLen K n s) := by
  unfold LIx.changeDocLen changeDocLen
  cases K.hasTotal with
  | false => exact h
  | true =>
    obtain ⟨h, he⟩ := h
    refine ⟨⟨h.wordinfo, h.docweight, h.docwords, h.wordCount, h.documentCount, ?_⟩, he⟩
    show (l.total.change n).value = s.total + n
    rw [total_change, h.total]

theorem sim_subLen {l : LIx D R} {s : Ix D R} (h : SimW l s) (d : D) :
    SimE SimW (l.subDocLen K d) (subDocLen K d s) := by
  unfold LIx.subDocLen subDocLen
  by_cases ht : K.hasTotal = true
  · rw [if_pos ht, if_pos ht, h.sim.docweight]
    cases s.docweight.get? d with
    | none => exact .error _
    | some w => exact .ok (sim_changeLen K h _)
  · rw [if_neg ht, if_neg ht]; exact .ok h

/-- the last calls kept `docwords` and `documentCount` -/
theorem getWords_eq {l : LIx D R} {s : Ix D R} (h : Sim l s) (d : D) : l.getWords d = getWords s d := by
  unfold LIx.getWords getWords
  rw [h.docwords]
  cases s.docwords.get? d <;> rfl

theorem sim_reindex {l : LIx D R} {s : Ix D R} (h : SimW l s) (d : D) (wids : List Int) :
    SimE SimW (l.reindexDoc K d wids) (reindexDoc K d wids s) := by
  unfold LIx.reindexDoc reindexDoc
  refine (sim_subLen K h d).bind (fun l s h => ?_)
  rw [getWords_eq h.sim]
  refine SimE.same _ (fun oldWids => SimE.same _ (fun old => SimE.same _ (fun new => ?_)))
  dsimp only
  refine (SimE.foldlM (fun a b c hab => sim_del hab c d) _ h).bind (fun l s h => ?_)
  refine (SimE.foldlM (fun a b c hab => ?_) _ h).bind (fun l s h => ?_)
  · unfold LIx.addStep addStep
    exact SimE.same _ (fun f => .ok (sim_add K hab c f d))
  · refine (SimE.foldlM (fun a b c hab => ?_) _ h).bind (fun l s h => ?_)
    · unfold LIx.bothStep bothStep
      refine SimE.same _ (fun f => SimE.same _ (fun f' => ?_))
      by_cases hn : K.arith.neq f' f = true
      · rw [if_pos hn, if_pos hn]; exact .ok (sim_add K hab c f d)
      · rw [if_neg hn, if_neg hn]; exact .ok hab
    · refine SimE.same _ (fun code => .ok ⟨⟨h.sim.wordinfo, ?_, ?_, h.sim.wordCount, h.sim.documentCount, h.sim.total⟩, h.exact⟩)
      · show l.docweight.set d _ = s.docweight.set d _
        rw [h.sim.docweight]
      · show l.docwords.set d _ = s.docwords.set d _
        rw [h.sim.docwords]

/-- `massAdd` leaves the documents alone -/
theorem massAdd_docs (w : List (Int × R)) (d : D) (s : Ix D R) :
    (massAdd K w d s).docweight = s.docweight ∧ (massAdd K w d s).documentCount = s.documentCount := ⟨rfl, rfl⟩

/-- the invariant says how many documents there are -/
theorem Inv.weight_len {K : Kind D R} {s : Ix D R} {W : D → Option (List Int)} (h : Inv K s W) : s.documentCount = s.docweight.len := by
  rw [h.documentCount, ← SMap.len_keys, ← SMap.len_keys]
  have hp : s.docwords.keys.Perm s.docweight.keys := by
    refine (List.perm_ext_iff_of_nodup (SMap.keys_nodup _) (SMap.keys_nodup _)).2 (fun d => ?_)
    rw [SMap.mem_keys_iff, SMap.mem_keys_iff, h.docwords, h.docweight]
    cases W d <;> simp
  rw [hp.length_eq]

theorem sim_index {l : LIx D R} {s : Ix D R} {W : D → Option (List Int)} (h : Sim l s) (hi : Inv K s W) (d : D) (wids : List Int) :
    SimE Sim (l.indexDoc K d wids) (indexDoc K d wids s) := by
  have hw : SimW l s := ⟨h, hi.wordCount⟩
  unfold LIx.indexDoc indexDoc
  rw [h.docwords]
  by_cases hc : s.docwords.contains d = true
  · rw [if_pos hc, if_pos hc]
    exact (sim_reindex K hw d wids).bind (fun l s h => .ok (sim_changeLen K h _).sim)
  · rw [if_neg hc, if_neg hc]
    refine SimE.same _ (fun r => ?_)
    dsimp only
    have hm := sim_mass K hw r.1 d
    refine SimE.same _ (fun code => .ok ?_)
    refine SimW.sim (sim_changeLen K ?_ _)
    refine ⟨⟨hm.sim.wordinfo, ?_, ?_, hm.sim.wordCount, ?_, hm.sim.total⟩, hm.exact⟩
    · show (l.massAdd K r.1 d).docweight.set d _ = (massAdd K r.1 d s).docweight.set d _
      rw [hm.sim.docweight]
    · show (l.massAdd K r.1 d).docwords.set d _ = (massAdd K r.1 d s).docwords.set d _
      rw [hm.sim.docwords]
    · refine hm.sim.documentCount.change ?_ rfl
      show (((l.massAdd K r.1 d).docweight.set d _).len : Int) = (massAdd K r.1 d s).documentCount + 1
      rw [hm.sim.docweight, (massAdd_docs K r.1 d s).1, (massAdd_docs K r.1 d s).2, hi.weight_len, SMap.len_set]
      have : s.docweight.contains d = false := by
        rw [SMap.contains_eq_false, hi.docweight]
        cases hW : W d with
        | none => rfl
        | some ws => exact absurd (by rw [hi.contains, hW]; rfl) hc
      rw [this]; simp

/-- a loop of `delWordinfo` leaves the documents alone -/
theorem dels_docs (d : D) (ws : List Int) : ∀ {s s' : Ix D R}, ws.foldlM (fun s wid => delWordinfo wid d s) s = .ok s' →
    s'.docweight = s.docweight ∧ s'.documentCount = s.documentCount := by
  induction ws with
  | nil => intro s s' h; cases h; exact ⟨rfl, rfl⟩
  | cons w ws ih =>
    intro s s' h
    rw [List.foldlM_cons] at h
    cases hd : delWordinfo w d s with
    | error e => rw [hd] at h; cases h
    | ok t =>
      rw [hd, bind_ok] at h
      obtain ⟨h1, h2⟩ := ih h
      have : t.docweight = s.docweight ∧ t.documentCount = s.documentCount := by
        unfold delWordinfo at hd
        cases hg : s.wordinfo.get? w with
        | none => rw [hg] at hd; cases hd
        | some e =>
          rw [hg] at hd
          dsimp only at hd
          by_cases hc : e.map.contains d = true
          · rw [if_pos hc] at hd
            by_cases hz : (e.map.del d).isEmpty = true
            · rw [if_pos hz] at hd; cases hd; exact ⟨rfl, rfl⟩
            · rw [if_neg hz] at hd; cases hd; exact ⟨rfl, rfl⟩
          · rw [if_neg hc] at hd; cases hd
      exact ⟨h1.trans this.1, h2.trans this.2⟩

theorem sim_unindex {l : LIx D R} {s : Ix D R} {W : D → Option (List Int)} (h : Sim l s) (hi : Inv K s W) (d : D) :
    SimE Sim (l.unindexDoc K d) (unindexDoc K d s) := by
  have hw : SimW l s := ⟨h, hi.wordCount⟩
  unfold LIx.unindexDoc unindexDoc
  rw [h.docwords]
  by_cases hc : s.docwords.contains d = true
  · rw [if_pos hc, if_pos hc]
    have hex : s.docweight.contains d = true := by
      rw [hi.contains] at hc
      unfold SMap.contains
      rw [hi.docweight, Option.isSome_map]; exact hc
    -- remember where the documents come from
    have h1 : SimE (fun l' s' => SimW l' s' ∧ s'.docweight = s.docweight ∧ s'.documentCount = s.documentCount)
        (l.subDocLen K d) (subDocLen K d s) := by
      have h0 := sim_subLen K hw d
      generalize l.subDocLen K d = x at h0 ⊢
      cases hs' : subDocLen K d s with
      | error e => rw [hs'] at h0; cases h0; exact .error _
      | ok s1 =>
        rw [hs'] at h0
        cases h0 with
        | ok h0 =>
          refine .ok ⟨h0, ?_⟩
          unfold subDocLen changeDocLen at hs'
          by_cases ht : K.hasTotal = true
          · rw [if_pos ht] at hs'
            cases hg : s.docweight.get? d with
            | none => rw [hg] at hs'; cases hs'
            | some w =>
              rw [hg] at hs'
              dsimp only at hs'
              rw [if_pos ht] at hs'
              cases hs'; exact ⟨rfl, rfl⟩
          · rw [if_neg ht] at hs'; cases hs'; exact ⟨rfl, rfl⟩
    refine h1.bind (fun l1 s1 ⟨h1, e1, e2⟩ => ?_)
    rw [getWords_eq h1.sim]
    refine SimE.same _ (fun wids => ?_)
    have h2 := SimE.foldlM (r := SimW) (f := fun l wid => l.delWordinfo wid d) (g := fun s wid => delWordinfo wid d s)
      (fun a b c hab => sim_del hab c d) (SSet.ofList wids).toList h1
    cases hs2 : (SSet.ofList wids).toList.foldlM (fun s wid => delWordinfo wid d s) s1 with
    | error e =>
      rw [hs2] at h2
      generalize hl2 : (SSet.ofList wids).toList.foldlM (fun l wid => LIx.delWordinfo wid d l) l1 = x at h2
      cases h2
      exact .error _
    | ok s2 =>
      rw [hs2] at h2
      generalize hl2 : (SSet.ofList wids).toList.foldlM (fun l wid => LIx.delWordinfo wid d l) l1 = x at h2
      cases h2 with
      | ok h2 =>
        obtain ⟨e3, e4⟩ := dels_docs d _ hs2
        refine .ok ⟨h2.sim.wordinfo, ?_, ?_, h2.sim.wordCount, ?_, h2.sim.total⟩
        · show SMap.del _ d = SMap.del _ d
          rw [h2.sim.docweight]
        · show SMap.del _ d = SMap.del _ d
          rw [h2.sim.docwords]
        · refine h2.sim.documentCount.change ?_ (Int.sub_eq_add_neg)
          rw [h2.sim.docweight, e4, e2, e3, e1, hi.weight_len, SMap.len_del, hex]
          have : 0 < s.docweight.len := by
            have hm : d ∈ s.docweight.keys := by rw [← SMap.contains_iff_mem]; exact hex
            rw [← SMap.len_keys]; exact List.length_pos_of_mem hm
          simp only [if_true]
          omega
  · rw [if_neg hc, if_neg hc]; exact .ok h

theorem sim_step {K : Kind D R} (pipeline : List Element) {l : LTI D R} {s : TI D R}
    {W : D → Option (List Int)} (hl : l.lex = s.lex) (h : Sim l.ix s.ix) (hi : Inv K s.ix W) (op : Op D) :
    SimE (fun l s => l.lex = s.lex ∧ Sim l.ix s.ix) (l.step K pipeline op) (step K pipeline s op) := by
  cases op with
  | index d t =>
    show SimE _ (LIx.indexDoc K d (l.lex.sourceToWordIds pipeline t).2 l.ix >>= fun ix => _)
      (indexDoc K d (s.lex.sourceToWordIds pipeline t).2 s.ix >>= fun ix => _)
    rw [hl]
    exact (sim_index K h hi d _).bind (fun a b hab => .ok ⟨rfl, hab⟩)
  | unindex d =>
    show SimE _ (LIx.unindexDoc K d l.ix >>= fun ix => _) (unindexDoc K d s.ix >>= fun ix => _)
    exact (sim_unindex K h hi d).bind (fun a b hab => .ok ⟨hl, hab⟩)
  | clear =>
    refine .ok ⟨hl, rfl, rfl, rfl, ?_, ?_, h.total⟩
    · intro m hm; cases hm; rfl
    · intro m hm; cases hm; rfl
  | lexicon o =>
    refine .ok ⟨?_, h⟩
    show l.lex.step pipeline o = s.lex.step pipeline o
    rw [hl]

theorem ltiRun_snoc (pipeline : List Element) (l : LTI D R) (ops : List (Op D)) (op : Op D) :
    l.run K pipeline (ops ++ [op]) = l.run K pipeline ops >>= fun s => s.step K pipeline op := by
  unfold LTI.run
  rw [List.foldlM_append]
  congr 1
  funext s
  rw [List.foldlM_cons]
  cases LTI.step K pipeline s op <;> rfl

theorem small_append {pipeline : List Element} {ops more : List (Op D)} (h : SmallLexicon pipeline (ops ++ more)) :
    SmallLexicon pipeline ops := by
  induction more using List.reverseRecOn with
  | nil => rwa [List.append_nil] at h
  | append_singleton more op ih =>
    rw [← List.append_assoc] at h
    exact ih (small_prefix h)

/-- an index of an older release is simulated through any further calls -/
theorem sim_run {K : Kind D R} (hK : Lawful K) (pipeline : List Element) (ops more : List (Op D))
    (hs : SmallLexicon pipeline (ops ++ more)) {s : TI D R} (hr : run K pipeline ops = .ok s) {l : LTI D R} (hl : l.lex = s.lex)
    (h : Sim l.ix s.ix) :
    ∃ l' s', l.run K pipeline more = .ok l' ∧ run K pipeline (ops ++ more) = .ok s' ∧ l'.lex = s'.lex ∧ Sim l'.ix s'.ix := by
  induction more using List.reverseRecOn with
  | nil => exact ⟨l, s, rfl, by rw [List.append_nil]; exact hr, hl, h⟩
  | append_singleton more op ih =>
    rw [← List.append_assoc] at hs
    obtain ⟨l1, s1, e1, e2, hl1, h1⟩ := ih (small_prefix hs)
    obtain ⟨s1', e3, -, hi⟩ := run_ok hK pipeline (ops ++ more) (small_prefix hs)
    obtain rfl : s1' = s1 := Except.ok.inj (e3.symm.trans e2)
    obtain ⟨s2, e4, -, -⟩ := run_ok hK pipeline (ops ++ more ++ [op]) hs
    have hst := sim_step pipeline hl1 h1 hi op
    rw [run_snoc, e2, bind_ok] at e4
    rw [e4] at hst
    rw [ltiRun_snoc, e1, bind_ok]
    cases hx : LTI.step K pipeline l1 op with
    | error e => rw [hx] at hst; cases hst
    | ok l2 =>
      rw [hx] at hst
      cases hst with
      | ok hst =>
        refine ⟨l2, s2, rfl, ?_, hst.1, hst.2⟩
        rw [← List.append_assoc, run_snoc, e2, bind_ok, e4]

/-! ## counters that exist stay -/

/-- no counter gets lost -/
structure Keeps (l l' : LIx D R) : Prop where
  wordCount : l.wordCount ≠ .method → l'.wordCount ≠ .method
  documentCount : l.documentCount ≠ .method → l'.documentCount ≠ .method

theorem Keeps.refl (l : LIx D R) : Keeps l l := ⟨id, id⟩

theorem Keeps.trans {a b c : LIx D R} (h : Keeps a b) (h' : Keeps b c) : Keeps a c :=
  ⟨fun x => h'.wordCount (h.wordCount x), fun x => h'.documentCount (h.documentCount x)⟩

theorem keeps_add (wid : Int) (f : R) (d : D) (l : LIx D R) : Keeps l (l.addWordinfo K wid f d) := by
  unfold LIx.addWordinfo
  cases l.wordinfo.get? wid with
  | none => exact ⟨fun _ => change_ne _ _ _, id⟩
  | some e => exact ⟨id, id⟩

theorem keeps_del (wid : Int) (d : D) {l l' : LIx D R} (h : l.delWordinfo wid d = .ok l') : Keeps l l' := by
  unfold LIx.delWordinfo at h
  cases hg : l.wordinfo.get? wid with
  | none => rw [hg] at h; cases h
  | some e =>
    rw [hg] at h
    dsimp only at h
    by_cases hc : e.map.contains d = true
    · rw [if_pos hc] at h
      by_cases hz : (e.map.del d).isEmpty = true
      · rw [if_pos hz] at h; cases h; exact ⟨fun _ => change_ne _ _ _, id⟩
      · rw [if_neg hz] at h; cases h; exact ⟨id, id⟩
    · rw [if_neg hc] at h; cases h

theorem keeps_changeLen (n : Int) (l : LIx D R) : Keeps l (l.changeDocLen K n) := by
  unfold LIx.changeDocLen
  cases K.hasTotal <;> exact ⟨id, id⟩

theorem keeps_subLen (d : D) {l l' : LIx D R} (h : l.subDocLen K d = .ok l') : Keeps l l' := by
  unfold LIx.subDocLen at h
  by_cases ht : K.hasTotal = true
  · rw [if_pos ht] at h
    cases hg : l.docweight.get? d with
    | none => rw [hg] at h; cases h
    | some w => rw [hg] at h; cases h; exact keeps_changeLen K _ l
  · rw [if_neg ht] at h; cases h; exact Keeps.refl l

theorem keeps_foldlM {γ : Type} {f : LIx D R → γ → Except PyErr (LIx D R)} (hf : ∀ a c a', f a c = .ok a' → Keeps a a') (xs : List γ) :
    ∀ {a a' : LIx D R}, xs.foldlM f a = .ok a' → Keeps a a' := by
  induction xs with
  | nil => intro a a' h; cases h; exact Keeps.refl a
  | cons c xs ih =>
    intro a a' h
    rw [List.foldlM_cons] at h
    cases hx : f a c with
    | error e => rw [hx] at h; cases h
    | ok b => rw [hx, bind_ok] at h; exact (hf a c b hx).trans (ih h)

/-- a call that succeeds did its first part -/
theorem bind_inv {α β : Type} {x : Except PyErr α} {f : α → Except PyErr β} {b : β} (h : (x >>= f) = .ok b) :
    ∃ a, x = .ok a ∧ f a = .ok b := by
  cases x with
  | error e => cases h
  | ok a => exact ⟨a, rfl, h⟩

theorem keeps_reindex (d : D) (wids : List Int) {l l' : LIx D R} (h : l.reindexDoc K d wids = .ok l') : Keeps l l' := by
  unfold LIx.reindexDoc at h
  obtain ⟨l1, h1, h⟩ := bind_inv h
  obtain ⟨ow, _, h⟩ := bind_inv h
  obtain ⟨old, -, h⟩ := bind_inv h
  obtain ⟨new, -, h⟩ := bind_inv h
  dsimp only at h
  obtain ⟨l2, h2, h⟩ := bind_inv h
  obtain ⟨l3, h3, h⟩ := bind_inv h
  obtain ⟨l4, h4, h⟩ := bind_inv h
  obtain ⟨code, -, h⟩ := bind_inv h
  cases h
  refine (keeps_subLen K d h1).trans ?_
  refine (keeps_foldlM (fun a c a' e => keeps_del c d e) _ h2).trans ?_
  refine (keeps_foldlM (fun a c a' e => ?_) _ h3).trans ?_
  · unfold LIx.addStep at e
    obtain ⟨f, -, e⟩ := bind_inv e
    cases e
    exact keeps_add K c f d a
  · refine Keeps.trans (keeps_foldlM (fun a c a' e => ?_) _ h4) ⟨id, id⟩
    unfold LIx.bothStep at e
    obtain ⟨f, -, e⟩ := bind_inv e
    obtain ⟨f', -, e⟩ := bind_inv e
    by_cases hn : K.arith.neq f' f = true
    · rw [if_pos hn] at e; cases e; exact keeps_add K c f d a
    · rw [if_neg hn] at e; cases e; exact Keeps.refl a

theorem keeps_index (d : D) (wids : List Int) {l l' : LIx D R} (h : l.indexDoc K d wids = .ok l') :
    Keeps l l' ∧ (l.docwords.contains d = false → l'.wordCount ≠ .method ∧ l'.documentCount ≠ .method) := by
  unfold LIx.indexDoc at h
  by_cases hc : l.docwords.contains d = true
  · rw [if_pos hc] at h
    obtain ⟨l1, h1, h⟩ := bind_inv h
    cases h
    refine ⟨(keeps_reindex K d wids h1).trans (keeps_changeLen K _ _), ?_⟩
    intro hf; rw [hc] at hf; cases hf
  · rw [if_neg hc] at h
    obtain ⟨r, -, h⟩ := bind_inv h
    obtain ⟨code, -, h⟩ := bind_inv h
    cases h
    have hw : ∀ x : LIx D R, x.wordCount ≠ .method → x.documentCount ≠ .method →
        (x.changeDocLen K wids.length).wordCount ≠ .method ∧ (x.changeDocLen K wids.length).documentCount ≠ .method :=
      fun x h1 h2 => ⟨(keeps_changeLen K _ x).wordCount h1, (keeps_changeLen K _ x).documentCount h2⟩
    have := hw { l.massAdd K r.1 d with
      docweight := (l.massAdd K r.1 d).docweight.set d (K.arith.store r.2)
      docwords := (l.massAdd K r.1 d).docwords.set d code
      documentCount := (l.massAdd K r.1 d).documentCount.change 1 ((l.massAdd K r.1 d).docweight.set d (K.arith.store r.2)).len }
      (change_ne _ _ _) (change_ne _ _ _)
    exact ⟨⟨fun _ => this.1, fun _ => this.2⟩, fun _ => this⟩

theorem keeps_unindex (d : D) {l l' : LIx D R} (h : l.unindexDoc K d = .ok l') :
    Keeps l l' ∧ (l.docwords.contains d = true → l'.documentCount ≠ .method) := by
  unfold LIx.unindexDoc at h
  by_cases hc : l.docwords.contains d = true
  · rw [if_pos hc] at h
    obtain ⟨l1, h1, h⟩ := bind_inv h
    obtain ⟨ow, _, h⟩ := bind_inv h
    obtain ⟨l2, h2, h⟩ := bind_inv h
    cases h
    refine ⟨(keeps_subLen K d h1).trans ((keeps_foldlM (fun a c a' e => keeps_del c d e) _ h2).trans ⟨id, fun _ => change_ne _ _ _⟩),
      fun _ => change_ne _ _ _⟩
  · rw [if_neg hc] at h
    cases h
    exact ⟨Keeps.refl _, fun h => absurd h hc⟩

theorem keeps_step (pipeline : List Element) {l l' : LTI D R} {op : Op D} (h : l.step K pipeline op = .ok l') : Keeps l.ix l'.ix := by
  cases op with
  | index d t =>
    obtain ⟨ix, h1, h⟩ := bind_inv (show (LIx.indexDoc K d (l.lex.sourceToWordIds pipeline t).2 l.ix >>= fun ix => _) = _ from h)
    cases h
    exact (keeps_index K d _ h1).1
  | unindex d =>
    obtain ⟨ix, h1, h⟩ := bind_inv (show (LIx.unindexDoc K d l.ix >>= fun ix => _) = _ from h)
    cases h
    exact (keeps_unindex K d h1).1
  | clear => cases h; exact ⟨fun _ => by simp [LIx.clear], fun _ => by simp [LIx.clear]⟩
  | lexicon o => cases h; exact Keeps.refl _

theorem keeps_run (pipeline : List Element) (ops : List (Op D)) : ∀ {l l' : LTI D R}, l.run K pipeline ops = .ok l' → Keeps l.ix l'.ix := by
  induction ops with
  | nil => intro l l' h; cases h; exact Keeps.refl _
  | cons op ops ih =>
    intro l l' h
    unfold LTI.run at h
    rw [List.foldlM_cons] at h
    obtain ⟨l1, h1, h⟩ := bind_inv h
    exact (keeps_step K pipeline h1).trans (ih h)

end Verif.Text
