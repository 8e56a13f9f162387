import Verif.Model.Stored
import Verif.Model.Txn

/-! # A field or keyword index in a ZODB connection: what is written at a commit

The functions of `HField` (`Verif.Model.Txn`) and `HKeyword` (`Verif.Model.KeywordHeap`) once more, with the information which
objects are marked as changed.  As in `Verif.Model.Stored`, the database writes marked objects only.  Everything these indexes keep
is in objects that mark themselves when they are changed: the two trees, the `Length`, the sets of docids in the forward tree, and
the index itself, whose attributes are assigned by `clear` and by a program that sets `tree_threshold`.

`Verif.Proofs.StoredSets` shows that forgetting the marks gives the other models. -/

set_option autoImplicit false

namespace Verif

open Text (mark overlay)

/-- what both kinds of indexes keep.  `S`: the sets of docids; `E`: what the reverse tree has for a docid.  `threshold` is the
attribute `tree_threshold` of a keyword index (a field index has none) -/
structure SetStore (D K S E : Type) [LinearOrder D] [LinearOrder K] where
  heap : Heap S
  fwd : SMap K Nat
  rev : SMap D E
  numDocs : Int
  threshold : Int

/-- the marks: addresses of marked sets, keys of the two trees whose bucket is marked, the `Length`, and the index itself -/
structure SetMarks (D K : Type) where
  sets : Nat → Bool
  fwd : K → Bool
  rev : D → Bool
  numDocs : Bool
  threshold : Bool

namespace SetMarks

variable {D K S E : Type}

/-- no marks -/
def none : SetMarks D K := { sets := fun _ => false, fwd := fun _ => false, rev := fun _ => false, numDocs := false, threshold := false }

/-- union of marks -/
def or (a b : SetMarks D K) : SetMarks D K :=
  { sets := fun k => a.sets k || b.sets k, fwd := fun k => a.fwd k || b.fwd k, rev := fun k => a.rev k || b.rev k,
    numDocs := a.numDocs || b.numDocs, threshold := a.threshold || b.threshold }

/-- the marked objects are written -/
def write [LinearOrder D] [LinearOrder K] (w : SetMarks D K) (saved live : SetStore D K S E) : SetStore D K S E :=
  { heap := { cells := overlay w.sets saved.heap.cells live.heap.cells, next := live.heap.next },
    fwd := overlay w.fwd saved.fwd live.fwd,
    rev := overlay w.rev saved.rev live.rev,
    numDocs := if w.numDocs then live.numDocs else saved.numDocs,
    threshold := if w.threshold then live.threshold else saved.threshold }

end SetMarks

/-- an index in memory, with its marks -/
structure MStore (D K S E : Type) [LinearOrder D] [LinearOrder K] where
  st : SetStore D K S E
  marks : SetMarks D K

namespace MStore

variable {D K S E : Type} [LinearOrder D] [LinearOrder K]

/-! ### What the libraries do -/

/-- a set of docids is changed.  `notices` tells whether it then marks itself; the sets of BTrees do, and the code depends on it
(theorem `C92_needs_marks`) -/
def putSet (notices : Bool) (s : MStore D K S E) (a : Nat) (x : S) : MStore D K S E :=
  { st := { s.st with heap := s.st.heap.put a x },
    marks := if notices then { s.marks with sets := mark s.marks.sets a } else s.marks }

/-- a set of docids is created, at address `s.st.heap.next`; new objects are written -/
def newSet (s : MStore D K S E) (x : S) : MStore D K S E :=
  { st := { s.st with heap := s.st.heap.alloc x }, marks := { s.marks with sets := mark s.marks.sets s.st.heap.next } }

/-- `self._fwd_index[key] = set` -/
def setFwd (s : MStore D K S E) (k : K) (a : Nat) : MStore D K S E :=
  { st := { s.st with fwd := s.st.fwd.set k a }, marks := { s.marks with fwd := mark s.marks.fwd k } }

/-- `del self._fwd_index[key]` -/
def delFwd (s : MStore D K S E) (k : K) : MStore D K S E :=
  { st := { s.st with fwd := s.st.fwd.del k }, marks := { s.marks with fwd := mark s.marks.fwd k } }

/-- `self._rev_index[docid] = e` -/
def setRev (s : MStore D K S E) (d : D) (e : E) : MStore D K S E :=
  { st := { s.st with rev := s.st.rev.set d e }, marks := { s.marks with rev := mark s.marks.rev d } }

/-- `del self._rev_index[docid]` -/
def delRev (s : MStore D K S E) (d : D) : MStore D K S E :=
  { st := { s.st with rev := s.st.rev.del d }, marks := { s.marks with rev := mark s.marks.rev d } }

/-- `self._num_docs.change(n)` -/
def change (s : MStore D K S E) (n : Int) : MStore D K S E :=
  { st := { s.st with numDocs := s.st.numDocs + n }, marks := { s.marks with numDocs := true } }

/-- field/index.py:49-55 and keyword/index.py:49-59 `clear`: new objects are assigned to attributes of the index, which is thereby
marked; the new objects are written with it -/
def clear (s : MStore D K S E) : MStore D K S E :=
  { st := { s.st with fwd := SMap.empty, rev := SMap.empty, numDocs := 0 },
    marks := { s.marks with fwd := fun _ => true, rev := fun _ => true, numDocs := true } }

/-- a program assigns `tree_threshold` -/
def setThreshold (s : MStore D K S E) (n : Int) : MStore D K S E :=
  { st := { s.st with threshold := n }, marks := { s.marks with threshold := true } }

end MStore

/-! ### Field index -/

/-- a field index in memory, with its marks -/
abbrev MField (D V : Type) [LinearOrder D] [LinearOrder V] := MStore D V (SSet D) V

/-- the index of `Verif.Model.Txn` -/
def SetStore.field {D V : Type} [LinearOrder D] [LinearOrder V] (s : SetStore D V (SSet D) V) : HField D V :=
  { heap := s.heap, fwd := s.fwd, rev := s.rev, numDocs := s.numDocs }

namespace MField

variable {D V : Type} [LinearOrder D] [LinearOrder V] (notices : Bool)

/-- a new field index -/
def new : SetStore D V (SSet D) V := { heap := Heap.empty, fwd := SMap.empty, rev := SMap.empty, numDocs := 0, threshold := 0 }

/-- the members of the set object at an address -/
def members (s : MField D V) (a : Nat) : SSet D := (s.st.heap.get? a).getD SMap.empty

/-- field/index.py:94-105 -/
def removeDoc (s : MField D V) (d : D) (v : V) : MField D V :=
  match s.st.fwd.get? v with
  | none => s                                        -- KeyError, caught
  | some a =>
    if (members s a).contains d then
      let set := SMap.del (members s a) d
      let s := s.putSet notices a set
      if set.isEmpty then s.delFwd v else s
    else s                                           -- KeyError, caught

/-- field/index.py:86-107 `unindex_doc` -/
def unindexDoc (s : MField D V) (d : D) : MField D V :=
  match s.st.rev.get? d with
  | none => s
  | some v => (removeDoc notices (s.delRev d) d v).change (-1)

/-- field/index.py:69 `docid in self._fwd_index.get(value, ())` -/
def upToDate (s : MField D V) (d : D) (v : V) : Bool :=
  match s.st.fwd.get? v with
  | none => false
  | some a => (members s a).contains d

/-- field/index.py:74-78 -/
def addDoc (s : MField D V) (d : D) (v : V) : MField D V :=
  match s.st.fwd.get? v with
  | none => (s.newSet (SSet.insert SMap.empty d)).setFwd v s.st.heap.next
  | some a => s.putSet notices a (SSet.insert (members s a) d)

/-- field/index.py:73-84, the inserting part of `index_doc` -/
def insertDoc (s : MField D V) (d : D) (v : V) : MField D V := ((addDoc notices s d v).change 1).setRev d v

/-- field/index.py:65-84 `index_doc` -/
def indexDoc (s : MField D V) (d : D) (v : V) : MField D V :=
  if s.st.rev.contains d then
    if upToDate s d v then s
    else insertDoc notices (unindexDoc notices s d) d v
  else insertDoc notices s d v

/-- effect of a call -/
def step (s : MField D V) : Field.Op D V → MField D V
  | .index d v => indexDoc notices s d v
  | .unindex d => unindexDoc notices s d
  | .clear => s.clear

end MField

/-! ### Keyword index -/

/-- a keyword index in memory, with its marks -/
abbrev MKeyword (D W : Type) [LinearOrder D] [LinearOrder W] := MStore D W (DocSet D) (SSet W)

/-- the index of `Verif.Model.KeywordHeap` -/
def SetStore.keyword {D W : Type} [LinearOrder D] [LinearOrder W] (s : SetStore D W (DocSet D) (SSet W)) : HKeyword D W :=
  { heap := s.heap, fwd := s.fwd, rev := s.rev, numDocs := s.numDocs, treeThreshold := s.threshold }

namespace MKeyword

variable {D W : Type} [LinearOrder D] [LinearOrder W] (notices : Bool)

open Keyword (SeqArg Op)

/-- keyword/index.py:42-59: a new index -/
def new : SetStore D W (DocSet D) (SSet W) :=
  { heap := Heap.empty, fwd := SMap.empty, rev := SMap.empty, numDocs := 0, threshold := 64 }

/-- keyword/index.py:107-110 and 121-123, one word -/
def removeWord (s : MKeyword D W) (d : D) (w : W) : Option (MKeyword D W) :=
  match s.st.fwd.get? w with
  | none => none
  | some a =>
    let set := s.st.heap.setAt a
    if set.ids.contains d then
      let ids := SMap.del set.ids d
      let s := s.putSet notices a { set with ids := ids }
      some (if ids.isEmpty then s.delFwd w else s)
    else none

/-- the loops of keyword/index.py:106-110 and 120-123 -/
def removeWords (s : MKeyword D W) (d : D) : List W → MKeyword D W × Bool
  | [] => (s, false)
  | w :: ws =>
    match removeWord notices s d w with
    | none => (s, true)
    | some s => removeWords s d ws

/-- keyword/index.py:116-134 `unindex_doc` -/
def unindexDoc (s : MKeyword D W) (d : D) : MKeyword D W :=
  match s.st.rev.get? d with
  | none => s
  | some words =>
    let r := removeWords notices s d words.keys
    if r.2 then r.1 else (r.1.delRev d).change (-1)

/-- keyword/index.py:145-147 -/
def wordIdx (s : MKeyword D W) (w : W) : MKeyword D W × Nat :=
  match s.st.fwd.get? w with
  | none => ((s.newSet emptySet).setFwd w s.st.heap.next, s.st.heap.next)
  | some a => (s, a)

/-- keyword/index.py:145-152, one word of `_insert_forward` -/
def insertWord (d : D) (s : MKeyword D W) (w : W) : MKeyword D W :=
  let r := wordIdx s w
  let set := r.1.st.heap.setAt r.2
  let set : DocSet D := { set with ids := SSet.insert set.ids d }
  let s := r.1.putSet notices r.2 set
  if !set.isTree && decide ((set.ids.len : Int) ≥ s.st.threshold) then
    (s.newSet { isTree := true, ids := set.ids }).setFwd w s.st.heap.next
  else s

/-- keyword/index.py:136-152 `_insert_forward` -/
def insertForward (s : MKeyword D W) (d : D) (words : List W) : MKeyword D W := words.foldl (insertWord notices d) s

/-- keyword/index.py:154-158 `_insert_reverse`: a new set is assigned to its place -/
def insertReverse (s : MKeyword D W) (d : D) (words : SSet W) : MKeyword D W :=
  if words.isEmpty then s else s.setRev d words

/-- keyword/index.py:81-114 `index_doc`; if it raises an exception, what was changed before stays changed -/
def indexDoc (normalize : List W → List W) (s : MKeyword D W) (d : D) (seq : SeqArg W) : MKeyword D W :=
  match seq with
  | .str => s
  | .seq truthy items =>
    let oldKw := s.st.rev.get? d
    if !truthy then
      match oldKw with
      | none => s
      | some kw => if kw.isEmpty then s else unindexDoc notices s d
    else
      let newKw := SSet.ofList (normalize items)
      match oldKw with
      | none => (insertReverse (insertForward notices s d newKw.keys) d newKw).change 1
      | some oldKw =>
        let added := SSet.diff newKw oldKw
        let removed := SSet.diff oldKw newKw
        let r := removeWords notices s d removed.keys
        if r.2 then r.1
        else insertReverse (insertForward notices r.1 d added.keys) d newKw

/-- keyword/index.py:210-218, one word of `optimize` -/
def optimizeWord (s : MKeyword D W) (p : W × Nat) : MKeyword D W :=
  let set := s.st.heap.setAt p.2
  if (set.ids.len : Int) ≥ s.st.threshold then
    if !set.isTree then (s.newSet { isTree := true, ids := set.ids }).setFwd p.1 s.st.heap.next else s
  else
    if set.isTree then (s.newSet { isTree := false, ids := set.ids }).setFwd p.1 s.st.heap.next else s

/-- keyword/index.py:199-218 `optimize` -/
def optimize (s : MKeyword D W) : MKeyword D W := s.st.fwd.items.foldl optimizeWord s

/-- effect of a call -/
def step (normalize : List W → List W) (s : MKeyword D W) : Op D W → MKeyword D W
  | .index d seq => indexDoc notices normalize s d seq
  | .unindex d => unindexDoc notices s d
  | .clear => s.clear
  | .optimize => optimize s
  | .setThreshold n => s.setThreshold n

end MKeyword

/-! ### The connection -/

/-- an index in a ZODB connection: what the program sees, and what the database holds -/
structure StoreDb (D K S E : Type) [LinearOrder D] [LinearOrder K] where
  live : MStore D K S E
  saved : SetStore D K S E

/-- a step of a program that uses the index through a connection.  As in `Text.DbStep`, a commit may write more than what is marked,
and the cache may drop unmarked objects between calls.  A call that raises an exception leaves its changes in memory; a program may
abort then, or go on. -/
inductive StoreStep (Op D K : Type)
  | call (op : Op)
  | commit (more : SetMarks D K)
  | evict (except : SetMarks D K)
  | abort                            -- also: another connection begins to use the index

namespace StoreDb

variable {D K S E Op : Type} [LinearOrder D] [LinearOrder K] (f : MStore D K S E → Op → MStore D K S E)

/-- effect of a step; `f` is the effect of a call -/
def step (t : StoreDb D K S E) : StoreStep Op D K → StoreDb D K S E
  | .call op => { t with live := f t.live op }
  | .commit w => { live := { t.live with marks := SetMarks.none }, saved := (t.live.marks.or w).write t.saved t.live.st }
  | .evict w => { t with live := { t.live with st := (t.live.marks.or w).write t.saved t.live.st } }
  | .abort => { t with live := ⟨t.saved, SetMarks.none⟩ }

/-- a program run that begins with a committed index -/
def run (start : SetStore D K S E) (steps : List (StoreStep Op D K)) : StoreDb D K S E :=
  steps.foldl (step f) ⟨⟨start, SetMarks.none⟩, start⟩

end StoreDb

/-- a program that uses a field index through a connection -/
def fieldDb {D V : Type} [LinearOrder D] [LinearOrder V] (notices : Bool) (steps : List (StoreStep (Field.Op D V) D V)) :
    StoreDb D V (SSet D) V :=
  StoreDb.run (MField.step notices) MField.new steps

/-- a program that uses a keyword index through a connection -/
def keywordDb {D W : Type} [LinearOrder D] [LinearOrder W] (notices : Bool) (normalize : List W → List W)
    (steps : List (StoreStep (Keyword.Op D W) D W)) : StoreDb D W (DocSet D) (SSet W) :=
  StoreDb.run (MKeyword.step notices normalize) MKeyword.new steps

end Verif
