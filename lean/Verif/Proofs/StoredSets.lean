import Verif.Model.StoredSets
import Verif.Spec.StoredSets
import Verif.Proofs.Stored
import Verif.Proofs.TxnField
import Verif.Proofs.KeywordHeap

/-! Whatever a call on a field or keyword index changes is marked; so a commit writes everything. -/

set_option autoImplicit false

namespace Verif

open Text (mark overlay mark_false overlay_eq)

namespace MStore

variable {D K S E : Type} [LinearOrder D] [LinearOrder K]

/-- what is not marked is as in the database -/
structure Agrees (saved : SetStore D K S E) (s : MStore D K S E) : Prop where
  sets : ∀ a, s.marks.sets a = false → s.st.heap.get? a = saved.heap.get? a
  fwd : ∀ k, s.marks.fwd k = false → s.st.fwd.get? k = saved.fwd.get? k
  rev : ∀ d, s.marks.rev d = false → s.st.rev.get? d = saved.rev.get? d
  numDocs : s.marks.numDocs = false → s.st.numDocs = saved.numDocs
  threshold : s.marks.threshold = false → s.st.threshold = saved.threshold

variable {saved : SetStore D K S E} {s : MStore D K S E}

theorem Agrees.putSet (h : Agrees saved s) (a : Nat) (x : S) : Agrees saved (s.putSet true a x) := by
  refine ⟨?_, h.fwd, h.rev, h.numDocs, h.threshold⟩
  intro b hm
  obtain ⟨h1, h2⟩ := mark_false hm
  show (s.st.heap.put a x).get? b = _
  rw [Heap.get?_put, if_neg h1]
  exact h.sets b h2

theorem Agrees.newSet (h : Agrees saved s) (x : S) : Agrees saved (s.newSet x) := by
  refine ⟨?_, h.fwd, h.rev, h.numDocs, h.threshold⟩
  intro b hm
  obtain ⟨h1, h2⟩ := mark_false hm
  show (s.st.heap.cells.set s.st.heap.next x).get? b = _
  rw [SMap.get?_set_ne _ h1]
  exact h.sets b h2

theorem Agrees.setFwd (h : Agrees saved s) (k : K) (a : Nat) : Agrees saved (s.setFwd k a) := by
  refine ⟨h.sets, ?_, h.rev, h.numDocs, h.threshold⟩
  intro b hm
  obtain ⟨h1, h2⟩ := mark_false hm
  show (s.st.fwd.set k a).get? b = _
  rw [SMap.get?_set_ne _ h1]
  exact h.fwd b h2

theorem Agrees.delFwd (h : Agrees saved s) (k : K) : Agrees saved (s.delFwd k) := by
  refine ⟨h.sets, ?_, h.rev, h.numDocs, h.threshold⟩
  intro b hm
  obtain ⟨h1, h2⟩ := mark_false hm
  show (s.st.fwd.del k).get? b = _
  rw [SMap.get?_del, if_neg h1]
  exact h.fwd b h2

theorem Agrees.setRev (h : Agrees saved s) (d : D) (e : E) : Agrees saved (s.setRev d e) := by
  refine ⟨h.sets, h.fwd, ?_, h.numDocs, h.threshold⟩
  intro b hm
  obtain ⟨h1, h2⟩ := mark_false hm
  show (s.st.rev.set d e).get? b = _
  rw [SMap.get?_set_ne _ h1]
  exact h.rev b h2

theorem Agrees.delRev (h : Agrees saved s) (d : D) : Agrees saved (s.delRev d) := by
  refine ⟨h.sets, h.fwd, ?_, h.numDocs, h.threshold⟩
  intro b hm
  obtain ⟨h1, h2⟩ := mark_false hm
  show (s.st.rev.del d).get? b = _
  rw [SMap.get?_del, if_neg h1]
  exact h.rev b h2

theorem Agrees.change (h : Agrees saved s) (n : Int) : Agrees saved (s.change n) :=
  ⟨h.sets, h.fwd, h.rev, fun e => (by cases e), h.threshold⟩

theorem Agrees.clear (h : Agrees saved s) : Agrees saved s.clear :=
  ⟨h.sets, fun _ e => (by cases e), fun _ e => (by cases e), fun e => (by cases e), h.threshold⟩

theorem Agrees.setThreshold (h : Agrees saved s) (n : Int) : Agrees saved (s.setThreshold n) :=
  ⟨h.sets, h.fwd, h.rev, h.numDocs, fun e => (by cases e)⟩

theorem Agrees.fresh (saved : SetStore D K S E) : Agrees saved ⟨saved, SetMarks.none⟩ :=
  ⟨fun _ _ => rfl, fun _ _ => rfl, fun _ _ => rfl, fun _ => rfl, fun _ => rfl⟩

theorem Agrees.write (h : Agrees saved s) (w : SetMarks D K) : (s.marks.or w).write saved s.st = s.st := by
  have hb : ∀ {a b : Bool}, (a || b) = false → a = false := by intro a b; cases a <;> simp
  have hif : ∀ {b c : Bool} {u v : Int}, (b = false → u = v) → (if (b || c) = true then u else v) = u := by
    intro b c u v h
    cases b with
    | true => rfl
    | false => cases c with
      | true => rfl
      | false => exact (h rfl).symm
  unfold SetMarks.write SetMarks.or
  dsimp only
  rw [overlay_eq (fun k e => h.sets k (hb e)), overlay_eq (fun k e => h.fwd k (hb e)), overlay_eq (fun k e => h.rev k (hb e)),
    hif h.numDocs, hif h.threshold]

end MStore

/-! ### Field index -/

namespace MField

open MStore (Agrees)

variable {D V : Type} [LinearOrder D] [LinearOrder V] {saved : SetStore D V (SSet D) V} {s : MField D V}

theorem removeDoc_ok (h : Agrees saved s) (d : D) (v : V) :
    Agrees saved (removeDoc true s d v) ∧ (removeDoc true s d v).st.field = s.st.field.removeDoc d v := by
  unfold removeDoc HField.removeDoc
  rw [show s.st.field.fwd = s.st.fwd from rfl]
  cases s.st.fwd.get? v with
  | none => exact ⟨h, rfl⟩
  | some a =>
    dsimp only
    rw [show s.st.field.setAt a = members s a from rfl]
    split
    · split
      · exact ⟨(h.putSet a _).delFwd v, rfl⟩
      · exact ⟨h.putSet a _, rfl⟩
    · exact ⟨h, rfl⟩

theorem unindexDoc_ok (h : Agrees saved s) (d : D) :
    Agrees saved (unindexDoc true s d) ∧ (unindexDoc true s d).st.field = s.st.field.unindexDoc d := by
  unfold unindexDoc HField.unindexDoc
  rw [show s.st.field.rev = s.st.rev from rfl]
  cases s.st.rev.get? d with
  | none => exact ⟨h, rfl⟩
  | some v =>
    obtain ⟨h1, h2⟩ := removeDoc_ok (h.delRev d) d v
    refine ⟨h1.change _, ?_⟩
    dsimp only
    rw [show ({ s.st.field with rev := s.st.rev.del d } : HField D V) = (s.delRev d).st.field from rfl, ← h2]
    rfl

theorem addDoc_ok (h : Agrees saved s) (d : D) (v : V) :
    Agrees saved (addDoc true s d v) ∧ (addDoc true s d v).st.field = s.st.field.addDoc d v := by
  unfold addDoc HField.addDoc
  rw [show s.st.field.fwd = s.st.fwd from rfl]
  cases s.st.fwd.get? v with
  | none => exact ⟨(h.newSet _).setFwd v _, rfl⟩
  | some a => exact ⟨h.putSet a _, rfl⟩

theorem insertDoc_ok (h : Agrees saved s) (d : D) (v : V) :
    Agrees saved (insertDoc true s d v) ∧ (insertDoc true s d v).st.field = s.st.field.insertDoc d v := by
  obtain ⟨h1, h2⟩ := addDoc_ok h d v
  refine ⟨(h1.change 1).setRev d v, ?_⟩
  unfold HField.insertDoc
  rw [← h2]
  rfl

theorem indexDoc_ok (h : Agrees saved s) (d : D) (v : V) :
    Agrees saved (indexDoc true s d v) ∧ (indexDoc true s d v).st.field = s.st.field.indexDoc d v := by
  unfold indexDoc HField.indexDoc
  rw [show s.st.field.rev = s.st.rev from rfl, show s.st.field.upToDate d v = upToDate s d v from rfl]
  split
  · split
    · exact ⟨h, rfl⟩
    · obtain ⟨h1, h2⟩ := unindexDoc_ok h d
      obtain ⟨h3, h4⟩ := insertDoc_ok h1 d v
      exact ⟨h3, by rw [h4, h2]⟩
  · exact insertDoc_ok h d v

theorem step_ok (h : Agrees saved s) (op : Field.Op D V) :
    Agrees saved (step true s op) ∧ (step true s op).st.field = s.st.field.step op := by
  cases op with
  | index d v => exact indexDoc_ok h d v
  | unindex d => exact unindexDoc_ok h d
  | clear => exact ⟨h.clear, rfl⟩

end MField

/-! ### Forgetting the addresses of a field index -/

namespace HField

variable {D V : Type} [LinearOrder D] [LinearOrder V]

/-- different values have different set objects, all of them created -/
structure Sep (s : HField D V) : Prop where
  inj : ∀ v v' a, s.fwd.get? v = some a → s.fwd.get? v' = some a → v = v'
  lt : ∀ v a, s.fwd.get? v = some a → a < s.heap.next

theorem fwd_view (s : HField D V) (v : V) : (view s).fwd.get? v = (s.fwd.get? v).map s.setAt :=
  SMap.get?_mapVals _ _ _

theorem view_fwd {s : HField D V} {f : SMap V (SSet D)} (h : ∀ v, (s.fwd.get? v).map s.setAt = f.get? v) : s.view.fwd = f := by
  ext1 v
  rw [fwd_view, h]

theorem removeDoc_view {s : HField D V} (hs : Sep s) (d : D) (v : V) :
    Sep (removeDoc s d v) ∧ (removeDoc s d v).rev = s.rev ∧ (removeDoc s d v).numDocs = s.numDocs ∧
    (removeDoc s d v).view.fwd =
      (match s.view.fwd.get? v with
       | none => s.view.fwd
       | some set =>
         if set.contains d then
           let set := SMap.del set d
           let fwd := s.view.fwd.set v set
           if set.isEmpty then fwd.del v else fwd
         else s.view.fwd) := by
  unfold removeDoc
  rw [fwd_view]
  cases hv : s.fwd.get? v with
  | none => exact ⟨hs, rfl, rfl, rfl⟩
  | some a =>
    dsimp only [Option.map]
    have hput : ∀ v', v' ≠ v → ∀ x, (s.fwd.get? v').map ({ s with heap := s.heap.put a x } : HField D V).setAt =
        (s.fwd.get? v').map s.setAt := by
      intro v' hne x
      cases hg : s.fwd.get? v' with
      | none => rfl
      | some b =>
        have hb : b ≠ a := by rintro rfl; exact hne (hs.inj _ _ _ hg hv)
        simp only [Option.map, setAt, Heap.get?_put, if_neg hb]
    split
    · split
      · refine ⟨⟨?_, ?_⟩, rfl, rfl, view_fwd ?_⟩
        · intro x y b hx hy
          dsimp only at hx hy
          rw [SMap.get?_del] at hx hy
          split at hx
          · cases hx
          · split at hy
            · cases hy
            · exact hs.inj _ _ _ hx hy
        · intro x b hx
          dsimp only at hx
          rw [SMap.get?_del] at hx
          split at hx
          · cases hx
          · exact hs.lt _ _ hx
        · intro v'
          dsimp only
          rw [SMap.get?_del, SMap.get?_del, SMap.get?_set]
          by_cases h : v' = v
          · rw [if_pos h, if_pos h]; rfl
          · rw [if_neg h, if_neg h, if_neg h, fwd_view]
            exact hput v' h _
      · refine ⟨⟨hs.inj, hs.lt⟩, rfl, rfl, view_fwd ?_⟩
        intro v'
        dsimp only
        rw [SMap.get?_set]
        by_cases h : v' = v
        · subst h
          rw [if_pos rfl, hv]
          simp only [Option.map, setAt, Heap.get?_put, if_pos, Option.getD]
        · rw [if_neg h, fwd_view]
          exact hput v' h _
    · exact ⟨hs, rfl, rfl, rfl⟩

theorem view_ext {s : HField D V} {t : Field D V} (h1 : s.view.fwd = t.fwd) (h2 : s.rev = t.rev) (h3 : s.numDocs = t.numDocs) :
    s.view = t := by
  cases t
  exact Field.mk.injEq .. |>.mpr ⟨h1, h2, h3⟩

theorem unindexDoc_view {s : HField D V} (hs : Sep s) (d : D) :
    Sep (s.unindexDoc d) ∧ (s.unindexDoc d).view = s.view.unindexDoc d := by
  unfold unindexDoc Field.unindexDoc
  rw [show s.view.rev = s.rev from rfl]
  cases s.rev.get? d with
  | none => exact ⟨hs, rfl⟩
  | some v =>
    obtain ⟨h1, h2, h3, h4⟩ := removeDoc_view (s := { s with rev := s.rev.del d }) ⟨hs.inj, hs.lt⟩ d v
    refine ⟨⟨h1.inj, h1.lt⟩, view_ext h4 h2 ?_⟩
    dsimp only
    rw [h3]
    rfl

theorem insertDoc_view {s : HField D V} (hs : Sep s) (d : D) (v : V) :
    Sep (s.insertDoc d v) ∧ (s.insertDoc d v).view = s.view.insertDoc d v := by
  unfold insertDoc Field.insertDoc addDoc
  rw [fwd_view]
  cases hv : s.fwd.get? v with
  | none =>
    refine ⟨⟨?_, ?_⟩, view_ext (view_fwd ?_) rfl rfl⟩
    · intro x y a hx hy
      dsimp only at hx hy
      rw [SMap.get?_set] at hx hy
      by_cases h1 : x = v <;> by_cases h2 : y = v
      · rw [h1, h2]
      · rw [if_pos h1] at hx; rw [if_neg h2] at hy; cases hx; exact absurd (hs.lt _ _ hy) (lt_irrefl _)
      · rw [if_neg h1] at hx; rw [if_pos h2] at hy; cases hy; exact absurd (hs.lt _ _ hx) (lt_irrefl _)
      · rw [if_neg h1] at hx; rw [if_neg h2] at hy; exact hs.inj _ _ _ hx hy
    · intro x a hx
      dsimp only at hx
      rw [SMap.get?_set] at hx
      show a < s.heap.next + 1
      split at hx
      · cases hx; exact Nat.lt_succ_self _
      · exact Nat.lt_succ_of_lt (hs.lt _ _ hx)
    · intro x
      dsimp only [Option.map]
      rw [SMap.get?_set, SMap.get?_set]
      by_cases h : x = v
      · rw [if_pos h, if_pos h]
        simp only [setAt, Heap.get?_alloc, if_pos, Option.getD]
      · rw [if_neg h, if_neg h, fwd_view]
        cases hg : s.fwd.get? x with
        | none => rfl
        | some b =>
          have hb : b ≠ s.heap.next := (hs.lt _ _ hg).ne
          simp only [setAt, Heap.get?_alloc, if_neg hb, Option.map]
  | some a =>
    refine ⟨⟨hs.inj, hs.lt⟩, view_ext (view_fwd ?_) rfl rfl⟩
    intro x
    dsimp only [Option.map]
    rw [SMap.get?_set]
    by_cases h : x = v
    · subst h
      rw [if_pos rfl, hv]
      simp only [setAt, Heap.get?_put, if_pos, Option.getD]
    · rw [if_neg h, fwd_view]
      cases hg : s.fwd.get? x with
      | none => rfl
      | some b =>
        have hb : b ≠ a := by rintro rfl; exact h (hs.inj _ _ _ hg hv)
        simp only [setAt, Heap.get?_put, if_neg hb, Option.map]

theorem indexDoc_view {s : HField D V} (hs : Sep s) (d : D) (v : V) :
    Sep (s.indexDoc d v) ∧ (s.indexDoc d v).view = s.view.indexDoc d v := by
  unfold indexDoc Field.indexDoc
  have hu : s.upToDate d v = s.view.upToDate d v := by
    unfold upToDate Field.upToDate
    rw [fwd_view]
    cases s.fwd.get? v <;> rfl
  rw [show s.view.rev = s.rev from rfl, hu]
  split
  · split
    · exact ⟨hs, rfl⟩
    · obtain ⟨h1, h2⟩ := unindexDoc_view hs d
      rw [← h2]
      exact insertDoc_view h1 d v
  · exact insertDoc_view hs d v

theorem step_view {s : HField D V} (hs : Sep s) (op : Field.Op D V) : Sep (s.step op) ∧ (s.step op).view = s.view.step op := by
  cases op with
  | index d v => exact indexDoc_view hs d v
  | unindex d => exact unindexDoc_view hs d
  | clear =>
    refine ⟨⟨?_, ?_⟩, rfl⟩
    · intro v v' a h; cases h
    · intro v a h; cases h

end HField

/-! ### Keyword index -/

namespace MKeyword

open MStore (Agrees)
open Keyword (SeqArg Op)

variable {D W : Type} [LinearOrder D] [LinearOrder W] {saved : SetStore D W (DocSet D) (SSet W)} {s : MKeyword D W}

theorem removeWord_ok (h : Agrees saved s) (d : D) (w : W) :
    (∀ t, removeWord true s d w = some t → Agrees saved t) ∧
    (removeWord true s d w).map (fun t => t.st.keyword) = s.st.keyword.removeWord d w := by
  unfold removeWord HKeyword.removeWord
  rw [show s.st.keyword.fwd = s.st.fwd from rfl]
  cases s.st.fwd.get? w with
  | none => exact ⟨fun _ e => (by cases e), rfl⟩
  | some a =>
    dsimp only
    rw [show s.st.keyword.setAt a = s.st.heap.setAt a from rfl]
    split
    · split
      · exact ⟨fun t e => by cases e; exact (h.putSet a _).delFwd w, rfl⟩
      · exact ⟨fun t e => by cases e; exact h.putSet a _, rfl⟩
    · exact ⟨fun _ e => (by cases e), rfl⟩

theorem removeWords_ok (h : Agrees saved s) (d : D) (ws : List W) :
    Agrees saved (removeWords true s d ws).1 ∧
    ((removeWords true s d ws).1.st.keyword, (removeWords true s d ws).2) = s.st.keyword.removeWords d ws := by
  induction ws generalizing s with
  | nil => exact ⟨h, rfl⟩
  | cons w ws ih =>
    unfold removeWords HKeyword.removeWords
    obtain ⟨h1, h2⟩ := removeWord_ok h d w
    rw [← h2]
    cases hr : removeWord true s d w with
    | none => exact ⟨h, rfl⟩
    | some t => exact ih (h1 t hr)

theorem unindexDoc_ok (h : Agrees saved s) (d : D) :
    Agrees saved (unindexDoc true s d) ∧ (unindexDoc true s d).st.keyword = s.st.keyword.unindexDoc d := by
  unfold unindexDoc HKeyword.unindexDoc
  rw [show s.st.keyword.rev = s.st.rev from rfl]
  cases s.st.rev.get? d with
  | none => exact ⟨h, rfl⟩
  | some words =>
    dsimp only
    obtain ⟨h1, h2⟩ := removeWords_ok h d words.keys
    rw [← h2]
    dsimp only
    split
    · exact ⟨h1, rfl⟩
    · exact ⟨(h1.delRev d).change _, rfl⟩

theorem insertWord_ok (h : Agrees saved s) (d : D) (w : W) :
    Agrees saved (insertWord true d s w) ∧ (insertWord true d s w).st.keyword = s.st.keyword.insertWord d w := by
  have hw : Agrees saved (wordIdx s w).1 ∧ ((wordIdx s w).1.st.keyword, (wordIdx s w).2) = s.st.keyword.wordIdx w := by
    unfold wordIdx HKeyword.wordIdx
    rw [show s.st.keyword.fwd = s.st.fwd from rfl]
    cases s.st.fwd.get? w with
    | none => exact ⟨(h.newSet _).setFwd w _, rfl⟩
    | some a => exact ⟨h, rfl⟩
  obtain ⟨h1, h2⟩ := hw
  unfold insertWord HKeyword.insertWord
  rw [← h2]
  generalize wordIdx s w = r at *
  dsimp only
  rw [show r.1.st.keyword.setAt r.2 = r.1.st.heap.setAt r.2 from rfl,
    show r.1.st.keyword.treeThreshold = (r.1.putSet true r.2
      { r.1.st.heap.setAt r.2 with ids := SSet.insert (r.1.st.heap.setAt r.2).ids d }).st.threshold from rfl]
  split
  · exact ⟨((h1.putSet _ _).newSet _).setFwd w _, rfl⟩
  · exact ⟨h1.putSet _ _, rfl⟩

theorem insertForward_ok (h : Agrees saved s) (d : D) (ws : List W) :
    Agrees saved (insertForward true s d ws) ∧ (insertForward true s d ws).st.keyword = s.st.keyword.insertForward d ws := by
  unfold insertForward HKeyword.insertForward
  induction ws generalizing s with
  | nil => exact ⟨h, rfl⟩
  | cons w ws ih =>
    obtain ⟨h1, h2⟩ := insertWord_ok h d w
    obtain ⟨h3, h4⟩ := ih h1
    rw [List.foldl_cons, List.foldl_cons, ← h2]
    exact ⟨h3, h4⟩

theorem insertReverse_ok (h : Agrees saved s) (d : D) (kw : SSet W) :
    Agrees saved (insertReverse s d kw) ∧
    (insertReverse s d kw).st.keyword = { s.st.keyword with rev := Keyword.insertReverse s.st.keyword.rev d kw } := by
  unfold insertReverse Keyword.insertReverse
  split
  · exact ⟨h, rfl⟩
  · exact ⟨h.setRev d kw, rfl⟩

theorem indexDoc_ok (normalize : List W → List W) (h : Agrees saved s) (d : D) (seq : SeqArg W) :
    Agrees saved (indexDoc true normalize s d seq) ∧
    (indexDoc true normalize s d seq).st.keyword = (s.st.keyword.indexDoc normalize d seq).1 := by
  unfold indexDoc HKeyword.indexDoc
  cases seq with
  | str => exact ⟨h, rfl⟩
  | seq truthy items =>
    dsimp only
    rw [show s.st.keyword.rev = s.st.rev from rfl]
    split
    · cases s.st.rev.get? d with
      | none => exact ⟨h, rfl⟩
      | some kw =>
        dsimp only
        split
        · exact ⟨h, rfl⟩
        · exact unindexDoc_ok h d
    · cases s.st.rev.get? d with
      | none =>
        dsimp only
        obtain ⟨h1, h2⟩ := insertForward_ok h d (SSet.ofList (normalize items)).keys
        obtain ⟨h3, h4⟩ := insertReverse_ok h1 d (SSet.ofList (normalize items))
        refine ⟨h3.change 1, ?_⟩
        rw [← h2]
        show ({ (insertReverse _ d _).st.keyword with numDocs := (insertReverse _ d _).st.keyword.numDocs + 1 } : HKeyword D W) = _
        rw [h4]
      | some oldKw =>
        dsimp only
        obtain ⟨h1, h2⟩ := removeWords_ok h d (SSet.diff oldKw (SSet.ofList (normalize items))).keys
        rw [← h2]
        dsimp only
        split
        · exact ⟨h1, rfl⟩
        · obtain ⟨h3, h4⟩ := insertForward_ok h1 d (SSet.diff (SSet.ofList (normalize items)) oldKw).keys
          obtain ⟨h5, h6⟩ := insertReverse_ok h3 d (SSet.ofList (normalize items))
          exact ⟨h5, by rw [h6, h4]⟩

theorem optimizeWord_ok (h : Agrees saved s) (p : W × Nat) :
    Agrees saved (optimizeWord s p) ∧ (optimizeWord s p).st.keyword = s.st.keyword.optimizeWord p := by
  unfold optimizeWord HKeyword.optimizeWord
  dsimp only
  rw [show s.st.keyword.setAt p.2 = s.st.heap.setAt p.2 from rfl, show s.st.keyword.treeThreshold = s.st.threshold from rfl]
  split
  · split
    · exact ⟨(h.newSet _).setFwd _ _, rfl⟩
    · exact ⟨h, rfl⟩
  · split
    · exact ⟨(h.newSet _).setFwd _ _, rfl⟩
    · exact ⟨h, rfl⟩

theorem optimize_ok (h : Agrees saved s) :
    Agrees saved (optimize s) ∧ (optimize s).st.keyword = s.st.keyword.optimize := by
  unfold optimize HKeyword.optimize
  rw [show s.st.keyword.fwd = s.st.fwd from rfl]
  generalize s.st.fwd.items = l
  induction l generalizing s with
  | nil => exact ⟨h, rfl⟩
  | cons w ws ih =>
    obtain ⟨h1, h2⟩ := optimizeWord_ok h w
    obtain ⟨h3, h4⟩ := ih h1
    rw [List.foldl_cons, List.foldl_cons, ← h2]
    exact ⟨h3, h4⟩

theorem step_ok (normalize : List W → List W) (h : Agrees saved s) (op : Op D W) :
    Agrees saved (step true normalize s op) ∧ (step true normalize s op).st.keyword = (s.st.keyword.step normalize op).1 := by
  cases op with
  | index d seq => exact indexDoc_ok normalize h d seq
  | unindex d => exact unindexDoc_ok h d
  | clear => exact ⟨h.clear, rfl⟩
  | optimize => exact optimize_ok h
  | setThreshold n => exact ⟨h.setThreshold n, rfl⟩

end MKeyword

/-! ### The connection -/

namespace StoreDb

open Spec.StoredSets
open MStore (Agrees)

variable {D K S E Op : Type} [LinearOrder D] [LinearOrder K] (f : MStore D K S E → Op → MStore D K S E)

/-- a call marks what it changes -/
def Marking : Prop := ∀ saved s op, Agrees saved s → Agrees saved (f s op)

variable {f} (hf : Marking f) (start : SetStore D K S E)

theorem run_snoc (steps : List (StoreStep Op D K)) (st : StoreStep Op D K) :
    run f start (steps ++ [st]) = step f (run f start steps) st := by
  simp [run]

omit [LinearOrder D] [LinearOrder K] in
theorem history_snoc (steps : List (StoreStep Op D K)) (st : StoreStep Op D K) :
    history (steps ++ [st]) = historyStep (history steps) st := by
  simp [history]

include hf

theorem run_agrees (steps : List (StoreStep Op D K)) : Agrees (run f start steps).saved (run f start steps).live := by
  induction steps using List.reverseRecOn with
  | nil => exact Agrees.fresh _
  | append_singleton l st ih =>
    rw [run_snoc]
    cases st with
    | call op => exact hf _ _ _ ih
    | commit w =>
      simp only [step]
      rw [ih.write w]
      exact Agrees.fresh _
    | evict w =>
      simp only [step]
      rw [ih.write w]
      exact ih
    | abort => exact Agrees.fresh _

theorem evict_eq (steps : List (StoreStep Op D K)) (w : SetMarks D K) :
    run f start (steps ++ [.evict w]) = run f start steps := by
  rw [run_snoc]
  simp only [step]
  rw [(run_agrees hf start steps).write w]

theorem commit_saved (steps : List (StoreStep Op D K)) (w : SetMarks D K) :
    (run f start (steps ++ [.commit w])).saved = (run f start steps).live.st := by
  rw [run_snoc]
  exact (run_agrees hf start steps).write w

/-- `R st ops`: the state `st` is what the calls `ops` give -/
theorem history_ok {R : SetStore D K S E → List Op → Prop} (h0 : R start [])
    (hR : ∀ steps ops op, R (run f start steps).live.st ops → R (f (run f start steps).live op).st (ops ++ [op]))
    (steps : List (StoreStep Op D K)) :
    R (run f start steps).live.st ((history steps).1 ++ (history steps).2) ∧ R (run f start steps).saved (history steps).1 := by
  induction steps using List.reverseRecOn with
  | nil => exact ⟨h0, h0⟩
  | append_singleton l st ih =>
    obtain ⟨h1, h2⟩ := ih
    rw [history_snoc]
    cases st with
    | call op =>
      rw [run_snoc]
      refine ⟨?_, h2⟩
      simp only [historyStep, step]
      rw [← List.append_assoc]
      exact hR l _ op h1
    | commit w =>
      rw [commit_saved hf start l w, run_snoc]
      simp only [historyStep, step, List.append_nil]
      exact ⟨h1, h1⟩
    | evict w =>
      rw [evict_eq hf start l w]
      exact ⟨h1, h2⟩
    | abort =>
      rw [run_snoc]
      simp only [historyStep, step, List.append_nil]
      exact ⟨h2, h2⟩

end StoreDb

theorem field_marking {D V : Type} [LinearOrder D] [LinearOrder V] :
    StoreDb.Marking (MField.step true : MField D V → Field.Op D V → MField D V) := fun _ _ op h => (MField.step_ok h op).1

theorem keyword_marking {D W : Type} [LinearOrder D] [LinearOrder W] (normalize : List W → List W) :
    StoreDb.Marking (MKeyword.step true normalize : MKeyword D W → Keyword.Op D W → MKeyword D W) :=
  fun _ _ op h => (MKeyword.step_ok normalize h op).1

end Verif
