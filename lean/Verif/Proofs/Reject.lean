import Verif.Spec.Reject
import Verif.Proofs.Field
import Verif.Proofs.Keyword

/-! Lemmas about `Verif.Model.Reject`: field and keyword indexes. -/

set_option autoImplicit false

namespace Verif.Field

variable {D V : Type} [LinearOrder D] [LinearOrder V]

/-- the docids under a value -/
def idsAt (s : Field D V) (v : V) : SSet D := (s.fwd.get? v).getD SMap.empty

/-- equal up to empty sets in the forward index -/
structure Alike (s t : Field D V) : Prop where
  rev : s.rev = t.rev
  numDocs : s.numDocs = t.numDocs
  ids : ∀ v, s.idsAt v = t.idsAt v

theorem Alike.refl (s : Field D V) : Alike s s := ⟨rfl, rfl, fun _ => rfl⟩

theorem Alike.trans {a b c : Field D V} (h : Alike a b) (h' : Alike b c) : Alike a c :=
  ⟨h.rev.trans h'.rev, h.numDocs.trans h'.numDocs, fun v => (h.ids v).trans (h'.ids v)⟩

theorem del_empty (d : D) : SMap.del (SMap.empty : SSet D) d = SMap.empty := rfl

theorem idsAt_unindex {s : Field D V} {d : D} {v : V} (h : s.rev.get? d = some v) (w : V) :
    (s.unindexDoc d).idsAt w = if w = v then SMap.del (s.idsAt v) d else s.idsAt w := by
  unfold idsAt unindexDoc
  rw [h]
  dsimp only
  cases hg : s.fwd.get? v with
  | none =>
    dsimp only
    by_cases hw : w = v
    · subst hw; rw [hg, if_pos rfl]; rfl
    · rw [if_neg hw]
  | some set =>
    dsimp only
    by_cases hc : set.contains d = true
    · rw [if_pos hc]
      by_cases hw : w = v
      · subst hw
        rw [if_pos rfl]
        by_cases he : (SMap.del set d).isEmpty = true
        · rw [if_pos he, SMap.get?_del_self]
          exact ((SMap.isEmpty_iff_eq _).1 he).symm
        · rw [if_neg he, SMap.get?_set_self]; rfl
      · rw [if_neg hw]
        by_cases he : (SMap.del set d).isEmpty = true
        · rw [if_pos he, SMap.get?_del_ne _ hw, SMap.get?_set_ne _ hw]
        · rw [if_neg he, SMap.get?_set_ne _ hw]
    · rw [if_neg hc]
      by_cases hw : w = v
      · subst hw
        rw [if_pos rfl, hg]
        show set = SMap.del set d
        rw [SMap.del_of_not_contains]
        rw [← SMap.contains_eq_false]; simpa using hc
      · rw [if_neg hw]

theorem alike_unindex {s t : Field D V} (h : Alike s t) (d : D) : Alike (s.unindexDoc d) (t.unindexDoc d) := by
  refine ⟨by rw [rev_unindex, rev_unindex, h.rev], ?_, ?_⟩
  · unfold unindexDoc
    rw [h.rev]
    cases t.rev.get? d with
    | none => exact h.numDocs
    | some v => dsimp only; rw [h.numDocs]
  · intro w
    cases hg : t.rev.get? d with
    | none =>
      rw [unindex_absent hg, unindex_absent (by rw [h.rev]; exact hg)]
      exact h.ids w
    | some v =>
      rw [idsAt_unindex hg, idsAt_unindex (by rw [h.rev]; exact hg), h.ids, h.ids]

theorem upToDate_ids (s : Field D V) (d : D) (v : V) : s.upToDate d v = (s.idsAt v).contains d := by
  unfold upToDate idsAt
  cases s.fwd.get? v <;> rfl

theorem idsAt_insert (s : Field D V) (d : D) (v w : V) :
    (insertDoc s d v).idsAt w = if w = v then SSet.insert (s.idsAt v) d else s.idsAt w := by
  unfold idsAt
  rw [fwd_insert]
  by_cases hw : w = v
  · rw [if_pos hw, if_pos hw]
    cases s.fwd.get? v <;> rfl
  · rw [if_neg hw, if_neg hw]

theorem alike_insert {s t : Field D V} (h : Alike s t) (d : D) (v : V) : Alike (insertDoc s d v) (insertDoc t d v) := by
  refine ⟨?_, ?_, ?_⟩
  · unfold insertDoc; dsimp only; rw [h.rev]
  · unfold insertDoc; dsimp only; rw [h.numDocs]
  · intro w; rw [idsAt_insert, idsAt_insert, h.ids, h.ids]

theorem alike_index {s t : Field D V} (h : Alike s t) (d : D) (v : V) : Alike (s.indexDoc d v) (t.indexDoc d v) := by
  unfold indexDoc
  rw [h.rev, upToDate_ids, upToDate_ids, h.ids]
  split
  · split
    · exact h
    · exact alike_insert (alike_unindex h d) d v
  · exact alike_insert h d v

theorem alike_step {s t : Field D V} (h : Alike s t) (op : Op D V) : Alike (s.step op) (t.step op) := by
  cases op with
  | index d v => exact alike_index h d v
  | unindex d => exact alike_unindex h d
  | clear => exact Alike.refl _

/-! observations -/

theorem alike_apply {s t : Field D V} (h : Alike s t) (q : Query V) : s.apply q = t.apply q := by
  unfold Field.apply
  split
  · rename_i lo hi
    congr 1
    apply SSet.ext_mem
    intro d
    have key : ∀ a : Field D V, (∃ v set, a.fwd.get? v = some set ∧ Spec.Field.InRange lo hi v ∧ d ∈ set.keys) ↔
        ∃ v, Spec.Field.InRange lo hi v ∧ d ∈ (a.idsAt v).keys := by
      intro a
      constructor
      · rintro ⟨v, set, hs, hr, hd⟩
        refine ⟨v, hr, ?_⟩
        unfold idsAt; rw [hs]; exact hd
      · rintro ⟨v, hr, hd⟩
        unfold idsAt at hd
        cases hg : a.fwd.get? v with
        | none => rw [hg] at hd; simp at hd
        | some set => rw [hg] at hd; exact ⟨v, set, hg, hr, hd⟩
    rw [mem_range, mem_range, key, key]
    simp only [h.ids]
  · rfl

/-- the forward index without empty sets -/
def solid (s : Field D V) : SMap V (SSet D) := s.fwd.filter (fun p => !p.2.isEmpty)

theorem alike_solid {s t : Field D V} (h : Alike s t) : s.solid = t.solid := by
  have key : ∀ a : Field D V, ∀ v, a.solid.get? v = if (a.idsAt v).isEmpty then none else some (a.idsAt v) := by
    intro a v
    unfold solid idsAt
    rw [SMap.get?_filter]
    cases a.fwd.get? v with
    | none => rfl
    | some set =>
      dsimp only [Option.getD_some]
      by_cases he : SMap.isEmpty set = true <;> simp [he, Option.filter]
  apply SMap.ext
  intro v
  rw [key, key, h.ids]

theorem flatMap_solid (s : Field D V) (docids : SSet D) :
    s.fwd.values.flatMap (fun stored => (SSet.inter docids stored).keys) =
      s.solid.values.flatMap (fun stored => (SSet.inter docids stored).keys) := by
  unfold solid SMap.values SMap.filter
  dsimp only
  induction s.fwd.items with
  | nil => rfl
  | cons p l ih =>
    rw [List.filter_cons]
    by_cases he : p.2.isEmpty = true
    · have : SSet.inter docids p.2 = SMap.empty := by
        apply SSet.ext_mem
        intro k
        rw [SSet.mem_keys_inter, SMap.keys_empty]
        have := (SSet.isEmpty_iff_keys _).1 he k
        simp [this]
      simp only [List.map_cons, List.flatMap_cons, this, he]
      simpa using ih
    · simp only [Bool.not_eq_true] at he
      simp only [he, Bool.not_false, if_true, List.map_cons, List.flatMap_cons, ih]

theorem alike_sort {V : Type} [PyValue V] {s t : Field D V} (h : Alike s t) (lz nb : Bool) (docids : List D) (reverse : Bool)
    (limit : Option Int) : s.sort lz nb docids reverse limit = t.sort lz nb docids reverse limit := by
  have hw : ∀ (a b : Bool) (ids : SSet D) (l : Option Nat), sortWith s a b ids reverse l = sortWith t a b ids reverse l := by
    intro a b ids l
    unfold sortWith
    rw [flatMap_solid, flatMap_solid, alike_solid h, h.rev]
  have hb : ∀ l, sort.body s lz nb docids reverse l = sort.body t lz nb docids reverse l := by
    intro l
    unfold sort.body
    simp only [hw, h.numDocs]
  unfold Field.sort
  simp only [hb]

/-! rejected docids -/

theorem insertChecked_ok {ok : D → Bool} (s : Field D V) {d : D} (v : V) (h : ok d = true) :
    insertChecked ok s d v = (insertDoc s d v, none) := by
  unfold insertChecked insertDoc
  rw [h]
  cases hg : s.fwd.get? v with
  | some set => rfl
  | none =>
    dsimp only [if_true]
    have : (s.fwd.set v (SMap.empty : SSet D)).set v (SSet.insert SMap.empty d) = s.fwd.set v (SSet.insert SMap.empty d) := by
      apply SMap.ext
      intro w
      by_cases hw : w = v
      · subst hw; simp
      · rw [SMap.get?_set_ne _ hw, SMap.get?_set_ne _ hw, SMap.get?_set_ne _ hw]
    simp [this]

theorem insertChecked_reject {ok : D → Bool} (s : Field D V) {d : D} (v : V) (h : ok d = false) :
    (insertChecked ok s d v).2 = some .TypeError ∧ Alike (insertChecked ok s d v).1 s := by
  unfold insertChecked
  rw [h]
  simp only [Bool.false_eq_true, if_false, true_and]
  cases hg : s.fwd.get? v with
  | some set => exact Alike.refl s
  | none =>
    refine ⟨rfl, rfl, ?_⟩
    intro w
    unfold idsAt
    dsimp only
    by_cases hw : w = v
    · subst hw; rw [SMap.get?_set_self, hg]; rfl
    · rw [SMap.get?_set_ne _ hw]

/-- only accepted docids are in the reverse index -/
def OnlyOk (ok : D → Bool) (s : Field D V) : Prop := ∀ d v, s.rev.get? d = some v → ok d = true

theorem stepChecked_spec {ok : D → Bool} {s : Field D V} (hs : OnlyOk ok s) (op : Op D V) :
    OnlyOk ok (stepChecked ok s op).1 ∧
      (((stepChecked ok s op).2 = none ∧ (stepChecked ok s op).1 = s.step op) ∨
       ((stepChecked ok s op).2 = some .TypeError ∧ Alike (stepChecked ok s op).1 s)) := by
  have hun : ∀ d, OnlyOk ok (s.unindexDoc d) := by
    intro d x v hx
    rw [rev_unindex, SMap.get?_del] at hx
    split at hx
    · simp at hx
    · exact hs x v hx
  have hins : ∀ (t : Field D V) (d : D) (v : V), OnlyOk ok t → ok d = true → OnlyOk ok (insertDoc t d v) := by
    intro t d v ht hd x w hx
    have hx : (t.rev.set d v).get? x = some w := hx
    rw [SMap.get?_set] at hx
    split at hx
    · rename_i e; rw [e]; exact hd
    · exact ht x w hx
  cases op with
  | unindex d => exact ⟨hun d, Or.inl ⟨rfl, rfl⟩⟩
  | clear => exact ⟨fun d v h => by simp [stepChecked, clear, new] at h, Or.inl ⟨rfl, rfl⟩⟩
  | index d v =>
    show OnlyOk ok (indexChecked ok s d v).1 ∧ (((indexChecked ok s d v).2 = none ∧ (indexChecked ok s d v).1 = indexDoc s d v) ∨
      ((indexChecked ok s d v).2 = some .TypeError ∧ Alike (indexChecked ok s d v).1 s))
    unfold indexChecked indexDoc
    by_cases hc : s.rev.contains d = true
    · rw [if_pos hc, if_pos hc]
      obtain ⟨w, hw⟩ := (SMap.contains_iff _ _).1 hc
      have hd := hs d w hw
      split
      · exact ⟨hs, Or.inl ⟨rfl, rfl⟩⟩
      · rw [insertChecked_ok _ v hd]
        exact ⟨hins _ d v (hun d) hd, Or.inl ⟨rfl, rfl⟩⟩
    · rw [if_neg hc, if_neg hc]
      cases hd : ok d with
      | true =>
        rw [insertChecked_ok _ v hd]
        exact ⟨hins _ d v hs hd, Or.inl ⟨rfl, rfl⟩⟩
      | false =>
        obtain ⟨h1, h2⟩ := insertChecked_reject s v hd
        refine ⟨?_, Or.inr ⟨h1, h2⟩⟩
        intro x w hx
        rw [h2.rev] at hx
        exact hs x w hx

theorem onlyOk_run (ok : D → Bool) (ops : List (Op D V)) : OnlyOk ok (runChecked ok ops) := by
  unfold runChecked
  have : ∀ s : Field D V, OnlyOk ok s → OnlyOk ok (ops.foldl (fun s op => (stepChecked ok s op).1) s) := by
    induction ops with
    | nil => exact fun s h => h
    | cons op t ih => exact fun s h => ih _ (stepChecked_spec h op).1
  exact this _ (fun d v h => by simp [new] at h)

theorem alike_run (ok : D → Bool) (ops : List (Op D V)) :
    Alike (runChecked ok ops) (run (Spec.fieldSucceeded ok new ops)) := by
  have key : ∀ (ops : List (Op D V)) (s t : Field D V), OnlyOk ok s → Alike s t →
      Alike (ops.foldl (fun s op => (stepChecked ok s op).1) s) ((Spec.fieldSucceeded ok s ops).foldl step t) := by
    intro ops
    induction ops with
    | nil => exact fun s t _ h => h
    | cons op ops ih =>
      intro s t hs h
      obtain ⟨h1, h2 | h2⟩ := stepChecked_spec hs op
      · have e : stepChecked ok s op = (s.step op, none) := Prod.ext h2.2 h2.1
        rw [h2.2] at h1
        rw [Spec.fieldSucceeded, List.foldl_cons, e]
        exact ih _ _ h1 (alike_step h op)
      · have e : stepChecked ok s op = ((stepChecked ok s op).1, some .TypeError) := Prod.ext rfl h2.1
        rw [Spec.fieldSucceeded, List.foldl_cons, e]
        exact ih _ _ h1 (h2.2.trans h)
  exact key ops new new (fun d v h => by simp [new] at h) (Alike.refl _)

end Verif.Field

namespace Verif.Keyword

variable {D W : Type} [LinearOrder D] [LinearOrder W]

/-- equal up to how the sets are stored and to empty sets in the forward index -/
structure Alike (s t : Keyword D W) : Prop where
  rev : s.rev = t.rev
  numDocs : s.numDocs = t.numDocs
  ids : ∀ w, s.docidsOf w = t.docidsOf w

theorem Alike.refl (s : Keyword D W) : Alike s s := ⟨rfl, rfl, fun _ => rfl⟩

theorem Alike.trans {a b c : Keyword D W} (h : Alike a b) (h' : Alike b c) : Alike a c :=
  ⟨h.rev.trans h'.rev, h.numDocs.trans h'.numDocs, fun v => (h.ids v).trans (h'.ids v)⟩

/-- the docids of a word in a forward index -/
def idsAt (f : SMap W (DocSet D)) (w : W) : SSet D := ((f.get? w).map (·.ids)).getD SMap.empty

theorem docidsOf_eq (s : Keyword D W) (w : W) : s.docidsOf w = idsAt s.fwd w := by
  unfold docidsOf idsAt
  cases s.fwd.get? w <;> rfl

theorem removeWord_ids (f : SMap W (DocSet D)) (d : D) (w : W) :
    ((idsAt f w).contains d = false ∧ removeWord f d w = none) ∨
    ((idsAt f w).contains d = true ∧ ∃ f', removeWord f d w = some f' ∧
      ∀ x, idsAt f' x = if x = w then SMap.del (idsAt f w) d else idsAt f x) := by
  unfold removeWord idsAt
  cases hg : f.get? w with
  | none => exact Or.inl ⟨rfl, rfl⟩
  | some set =>
    dsimp only [Option.map_some, Option.getD_some]
    cases hc : set.ids.contains d with
    | false => exact Or.inl ⟨rfl, rfl⟩
    | true =>
      refine Or.inr ⟨rfl, _, rfl, ?_⟩
      intro x
      by_cases hx : x = w
      · subst hx
        rw [if_pos rfl]
        split
        · rename_i he
          rw [SMap.get?_del_self]
          exact ((SMap.isEmpty_iff_eq _).1 he).symm
        · rw [SMap.get?_set_self]; rfl
      · rw [if_neg hx]
        split
        · rw [SMap.get?_del_ne _ hx, SMap.get?_set_ne _ hx]
        · rw [SMap.get?_set_ne _ hx]

theorem alike_removeWords (d : D) : ∀ (ws : List W) (f g : SMap W (DocSet D)), (∀ w, idsAt f w = idsAt g w) →
    (removeWords f d ws).2 = (removeWords g d ws).2 ∧
      ∀ w, idsAt (removeWords f d ws).1 w = idsAt (removeWords g d ws).1 w := by
  intro ws
  induction ws with
  | nil => intro f g h; exact ⟨rfl, h⟩
  | cons a t ih =>
    intro f g h
    unfold removeWords
    rcases removeWord_ids f d a with ⟨h1, h2⟩ | ⟨h1, f', h2, h3⟩
    · rcases removeWord_ids g d a with ⟨g1, g2⟩ | ⟨g1, _⟩
      · rw [h2, g2]; exact ⟨rfl, h⟩
      · rw [h a, g1] at h1; cases h1
    · rcases removeWord_ids g d a with ⟨g1, _⟩ | ⟨g1, g', g2, g3⟩
      · rw [h a, g1] at h1; cases h1
      · rw [h2, g2]
        apply ih
        intro w
        rw [h3, g3, h, h]

theorem insertWord_idsAt (th : Int) (d : D) (f : SMap W (DocSet D)) (a w : W) :
    idsAt (insertWord th d f a) w = if w = a then SSet.insert (idsAt f a) d else idsAt f w := by
  unfold idsAt
  rw [insertWord_ids]
  by_cases hw : w = a
  · rw [if_pos hw, if_pos hw]; rfl
  · rw [if_neg hw, if_neg hw]

theorem alike_insertForward (th th' : Int) (d : D) : ∀ (ws : List W) (f g : SMap W (DocSet D)), (∀ w, idsAt f w = idsAt g w) →
    ∀ w, idsAt (insertForward th f d ws) w = idsAt (insertForward th' g d ws) w := by
  intro ws
  induction ws with
  | nil => intro f g h; exact h
  | cons a t ih =>
    intro f g h
    apply ih
    intro w
    rw [insertWord_idsAt, insertWord_idsAt, h, h]

theorem Alike.fwd {s t : Keyword D W} (h : Alike s t) (w : W) : idsAt s.fwd w = idsAt t.fwd w := by
  rw [← docidsOf_eq, ← docidsOf_eq]; exact h.ids w

theorem Alike.of_fwd {s t : Keyword D W} (hr : s.rev = t.rev) (hn : s.numDocs = t.numDocs)
    (hf : ∀ w, idsAt s.fwd w = idsAt t.fwd w) : Alike s t :=
  ⟨hr, hn, fun w => by rw [docidsOf_eq, docidsOf_eq]; exact hf w⟩

theorem alike_unindex {s t : Keyword D W} (h : Alike s t) (d : D) : Alike (s.unindexDoc d) (t.unindexDoc d) := by
  unfold unindexDoc
  rw [h.rev]
  cases hg : t.rev.get? d with
  | none => exact h
  | some kws =>
    dsimp only
    obtain ⟨h1, h2⟩ := alike_removeWords d kws.keys s.fwd t.fwd h.fwd
    rw [h1]
    split
    · exact .of_fwd rfl h.numDocs h2
    · exact .of_fwd rfl (by simp only [h.numDocs]) h2

theorem alike_index (normalize : List W → List W) {s t : Keyword D W} (h : Alike s t) (d : D) (seq : SeqArg W) :
    Alike (s.indexDoc normalize d seq).1 (t.indexDoc normalize d seq).1 := by
  cases seq with
  | str => exact h
  | seq truthy items =>
    unfold indexDoc
    dsimp only
    rw [h.rev]
    cases truthy with
    | false =>
      simp only [Bool.not_false, if_true]
      cases hg : t.rev.get? d with
      | none => exact h
      | some kws =>
        dsimp only
        split
        · exact h
        · exact alike_unindex h d
    | true =>
      simp only [Bool.not_true, Bool.false_eq_true, if_false]
      cases hg : t.rev.get? d with
      | none =>
        exact .of_fwd rfl (by simp only [h.numDocs]) (alike_insertForward _ _ d _ _ _ h.fwd)
      | some kws =>
        dsimp only
        obtain ⟨h1, h2⟩ := alike_removeWords d (SSet.diff kws (SSet.ofList (normalize items))).keys s.fwd t.fwd h.fwd
        rw [h1]
        split
        · exact .of_fwd rfl h.numDocs h2
        · exact .of_fwd rfl h.numDocs (alike_insertForward _ _ d _ _ _ h2)

theorem same_alike {s t : Keyword D W} (h : Same s t) : Alike s t :=
  .of_fwd h.rev h.numDocs (fun w => by unfold idsAt; rw [h.fwd])

theorem Alike.symm {a b : Keyword D W} (h : Alike a b) : Alike b a :=
  ⟨h.rev.symm, h.numDocs.symm, fun w => (h.ids w).symm⟩

theorem alike_step (normalize : List W → List W) {s t : Keyword D W} (h : Alike s t) (op : Op D W) :
    Alike (s.step normalize op).1 (t.step normalize op).1 := by
  cases op with
  | index d seq => exact alike_index normalize h d seq
  | unindex d => exact alike_unindex h d
  | clear => exact ⟨rfl, rfl, fun _ => rfl⟩
  | optimize =>
    exact (same_alike (same_optimize s)).trans (h.trans (same_alike (same_optimize t)).symm)
  | setThreshold n => exact ⟨h.rev, h.numDocs, h.ids⟩

theorem alike_search {s t : Keyword D W} (h : Alike s t) (normalize : List W → List W) (q : QueryArg W) (op : Operator) :
    s.search normalize q op = t.search normalize q op := by
  have hset : s.docidsOf = t.docidsOf := funext h.ids
  unfold search
  rw [hset]

theorem insertForwardChecked_ok {ok : D → Bool} (th : Int) {d : D} (h : ok d = true) : ∀ (ws : List W) (f : SMap W (DocSet D)),
    insertForwardChecked ok th f d ws = (insertForward th f d ws, none) := by
  intro ws
  induction ws with
  | nil => intro f; rfl
  | cons w ws ih =>
    intro f
    unfold insertForwardChecked
    rw [h]
    simp only [if_true]
    rw [ih]
    rfl

theorem insertForwardChecked_reject {ok : D → Bool} (th : Int) {d : D} (h : ok d = false) (f : SMap W (DocSet D)) (w : W)
    (ws : List W) : (insertForwardChecked ok th f d (w :: ws)).2 = some .TypeError ∧
      ∀ x, idsAt (insertForwardChecked ok th f d (w :: ws)).1 x = idsAt f x := by
  unfold insertForwardChecked
  rw [h]
  simp only [Bool.false_eq_true, if_false, true_and]
  intro x
  cases hg : f.get? w with
  | some set => rfl
  | none =>
    dsimp only
    unfold idsAt
    by_cases hx : x = w
    · subst hx; rw [SMap.get?_set_self, hg]; rfl
    · rw [SMap.get?_set_ne _ hx]

/-- only accepted docids are in the reverse index -/
def OnlyOk (ok : D → Bool) (s : Keyword D W) : Prop := ∀ d ws, s.rev.get? d = some ws → ok d = true

theorem stepChecked_spec {ok : D → Bool} (normalize : List W → List W) {s : Keyword D W} (hs : OnlyOk ok s) (op : Op D W) :
    OnlyOk ok (stepChecked ok normalize s op).1 ∧
      (stepChecked ok normalize s op = s.step normalize op ∨
       ((stepChecked ok normalize s op).2 = some .TypeError ∧ Alike (stepChecked ok normalize s op).1 s)) := by
  have hun : ∀ d, OnlyOk ok (s.unindexDoc d) := by
    intro d x v hx
    unfold unindexDoc at hx
    cases hg : s.rev.get? d with
    | none => rw [hg] at hx; exact hs x v hx
    | some kws =>
      rw [hg] at hx
      dsimp only at hx
      split at hx
      · exact hs x v hx
      · have hx : (s.rev.del d).get? x = some v := hx
        rw [SMap.get?_del] at hx
        split at hx
        · simp at hx
        · exact hs x v hx
  have hrev : ∀ d kws, ok d = true → ∀ x v, (insertReverse s.rev d kws).get? x = some v → ok x = true := by
    intro d kws hd x v hx
    unfold insertReverse at hx
    split at hx
    · exact hs x v hx
    · rw [SMap.get?_set] at hx
      split at hx
      · rename_i e; rw [e]; exact hd
      · exact hs x v hx
  cases op with
  | unindex d => exact ⟨hun d, Or.inl rfl⟩
  | clear => exact ⟨fun d v h => by simp [stepChecked, clear] at h, Or.inl rfl⟩
  | optimize => exact ⟨fun d v h => hs d v h, Or.inl rfl⟩
  | setThreshold n => exact ⟨fun d v h => hs d v h, Or.inl rfl⟩
  | index d seq =>
    show OnlyOk ok (indexChecked ok normalize s d seq).1 ∧ (indexChecked ok normalize s d seq = indexDoc normalize s d seq ∨
      ((indexChecked ok normalize s d seq).2 = some .TypeError ∧ Alike (indexChecked ok normalize s d seq).1 s))
    cases seq with
    | str => exact ⟨hs, Or.inl rfl⟩
    | seq truthy items =>
      unfold indexChecked indexDoc
      dsimp only
      cases truthy with
      | false =>
        simp only [Bool.not_false, if_true]
        refine ⟨?_, Or.inl rfl⟩
        cases hg : s.rev.get? d with
        | none => exact hs
        | some kws =>
          dsimp only
          split
          · exact hs
          · exact hun d
      | true =>
        simp only [Bool.not_true, Bool.false_eq_true, if_false]
        cases hg : s.rev.get? d with
        | some kws =>
          dsimp only
          have hd := hs d kws hg
          split
          · exact ⟨fun x v hx => hs x v hx, Or.inl rfl⟩
          · rw [insertForwardChecked_ok _ hd]
            exact ⟨fun x v hx => hrev d _ hd x v hx, Or.inl rfl⟩
        | none =>
          dsimp only
          cases hd : ok d with
          | true =>
            rw [insertForwardChecked_ok _ hd]
            exact ⟨fun x v hx => hrev d _ hd x v hx, Or.inl rfl⟩
          | false =>
            cases hk : (SSet.ofList (normalize items)).keys with
            | nil =>
              have he : (SSet.ofList (normalize items)).isEmpty = true := by
                rw [SSet.isEmpty_iff_keys, hk]; simp
              refine ⟨?_, Or.inl rfl⟩
              intro x v hx
              have hx : (insertReverse s.rev d (SSet.ofList (normalize items))).get? x = some v := hx
              unfold insertReverse at hx
              rw [if_pos he] at hx
              exact hs x v hx
            | cons w ws =>
              obtain ⟨h1, h2⟩ := insertForwardChecked_reject s.treeThreshold hd s.fwd w ws
              rw [h1]
              exact ⟨fun x v hx => hs x v hx, Or.inr ⟨rfl, .of_fwd rfl rfl h2⟩⟩

theorem onlyOk_run (ok : D → Bool) (normalize : List W → List W) (ops : List (Op D W)) :
    OnlyOk ok (runChecked ok normalize ops) := by
  unfold runChecked
  have : ∀ s : Keyword D W, OnlyOk ok s → OnlyOk ok (ops.foldl (fun s op => (stepChecked ok normalize s op).1) s) := by
    induction ops with
    | nil => exact fun s h => h
    | cons op t ih => exact fun s h => ih _ (stepChecked_spec normalize h op).1
  exact this _ (fun d v h => by simp [new] at h)

theorem step_typeError (normalize : List W → List W) (s : Keyword D W) (op : Op D W)
    (h : (s.step normalize op).2 = some .TypeError) : (s.step normalize op).1 = s := by
  cases op with
  | unindex d => cases h
  | clear => cases h
  | optimize => cases h
  | setThreshold n => cases h
  | index d seq =>
    cases seq with
    | str => rfl
    | seq truthy items =>
      have h : (indexDoc normalize s d (.seq truthy items)).2 = some .TypeError := h
      unfold indexDoc at h
      dsimp only at h
      cases truthy with
      | false =>
        simp only [Bool.not_false, if_true] at h
        cases hg : s.rev.get? d with
        | none => rw [hg] at h; cases h
        | some kws => rw [hg] at h; dsimp only at h; split at h <;> cases h
      | true =>
        simp only [Bool.not_true, Bool.false_eq_true, if_false] at h
        cases hg : s.rev.get? d with
        | none => rw [hg] at h; cases h
        | some kws => rw [hg] at h; dsimp only at h; split at h <;> cases h

theorem alike_run (ok : D → Bool) (normalize : List W → List W) (ops : List (Op D W)) :
    Alike (runChecked ok normalize ops) (run normalize (Spec.keywordSucceeded ok normalize new ops)) := by
  have key : ∀ (ops : List (Op D W)) (s t : Keyword D W), OnlyOk ok s → Alike s t →
      Alike (ops.foldl (fun s op => (stepChecked ok normalize s op).1) s)
        ((Spec.keywordSucceeded ok normalize s ops).foldl (fun s op => (step normalize s op).1) t) := by
    intro ops
    induction ops with
    | nil => exact fun s t _ h => h
    | cons op ops ih =>
      intro s t hs h
      obtain ⟨h1, h2⟩ := stepChecked_spec normalize hs op
      cases he : stepChecked ok normalize s op with
      | mk s' err =>
        rw [he] at h1 h2
        dsimp only at h1 h2
        by_cases ht : err = some .TypeError
        · subst ht
          rw [Spec.keywordSucceeded, List.foldl_cons, he]
          refine ih _ _ h1 ?_
          rcases h2 with h2 | h2
          · have := step_typeError normalize s op (by rw [← h2])
            rw [← h2] at this
            dsimp only at this
            rw [this]; exact h
          · exact h2.2.trans h
        · rcases h2 with h2 | h2
          · have hs' : s' = (s.step normalize op).1 := by rw [← h2]
            have e : Spec.keywordSucceeded ok normalize s (op :: ops) = op :: Spec.keywordSucceeded ok normalize s' ops := by
              rw [Spec.keywordSucceeded, he]
              split
              · rename_i e'; cases e'; exact absurd rfl ht
              · rename_i e'; cases e'; rfl
            rw [e, List.foldl_cons, List.foldl_cons, he]
            refine ih _ _ h1 ?_
            rw [hs']
            exact alike_step normalize h op
          · exact absurd h2.1 ht
  exact key ops new new (fun d v h => by simp [new] at h) (Alike.refl _)

end Verif.Keyword
