import Verif.Model.Field
import Verif.Model.KeywordHeap
import Verif.Model.Lexicon

/-! # Concurrent transactions

The indexes of `/repo` are stored in a ZODB.  A transaction sees the state that was the latest one when it began (its
snapshot), changes objects, and commits.  If an object it changed was meanwhile changed by another committed transaction, the
database calls the `_p_resolveConflict` of the object, which merges the snapshot, the committed and the new state of that one
object, or refuses; then the whole transaction is aborted (`ConflictError`).  The index classes of `/repo` rely on this: all
their data is in `BTrees` objects, they use `BTrees.Length` for their counters, and text/lexicon.py:149-155 searches for a free
word id "to account for merged increments".

BTrees and ZODB are outside `/repo`; modelled here is what their conflict resolution does (BTrees' `MergeTemplate.c`, `bucket_merge`;
`Length._p_resolveConflict`).  BTrees splits its containers into buckets, and refuses to merge in more situations than are
modelled (splits, for instance): a transaction of the model may be refused at any time. -/

set_option autoImplicit false

namespace Verif

/-- equality of containers -/
instance SMap.decEq {K V : Type} [LinearOrder K] [DecidableEq V] : DecidableEq (SMap K V) := fun a b =>
  if h : a.items = b.items then .isTrue (by cases a; cases b; cases h; rfl)
  else .isFalse (fun e => h (by rw [e]))

/-- conflict resolution of a `BTree`, `TreeSet` or `Set` (BTrees, `bucket_merge`): `o` the state both transactions saw, `c` the
committed one, `n` the new one; `none` is `BTreesConflictError`.  Both transactions changed the same key, one of them emptied
the container, or the result is empty: conflict. -/
def mergeTree {K V : Type} [LinearOrder K] [DecidableEq V] (o c n : SMap K V) : Option (SMap K V) :=
  if c = o then some n                   -- not changed by others: nothing to resolve
  else if n = o then some c              -- not changed by this transaction: not stored
  else if c.isEmpty || n.isEmpty then none
  else
    let ks := o.keys ++ c.keys ++ n.keys
    if ks.all (fun k => decide (c.get? k = o.get? k) || decide (n.get? k = o.get? k)) then
      let r := SMap.build ks (fun k => if c.get? k = o.get? k then n.get? k else c.get? k)
      if r.isEmpty then none else some r
    else none

/-- `BTrees.Length.Length._p_resolveConflict(old, s1, s2)`: `s1 + s2 - old` -/
def mergeLength (o c n : Int) : Int := c + n - o

/-- the objects that exist in one or more of three states, each resolved by `merge`; objects are never deleted, and the two
transactions gave the objects they created different addresses -/
def mergeCell {V : Type} (merge : V → V → V → Option V) : Option V → Option V → Option V → Option (Option V)
  | some o, some c, some n => (merge o c n).map some
  | none, some c, none => some (some c)
  | none, none, some n => some (some n)
  | none, none, none => some none
  | _, _, _ => none

/-- `mergeCell` for all objects -/
def mergeHeap {V : Type} (merge : V → V → V → Option V) (o c n : Heap V) : Option (Heap V) :=
  let ks := o.cells.keys ++ c.cells.keys ++ n.cells.keys
  let f := fun a => mergeCell merge (o.get? a) (c.get? a) (n.get? a)
  if ks.all (fun a => (f a).isSome) then
    some { cells := SMap.build ks (fun a => (f a).getD none), next := n.next }
  else none

/-- the calls of a transaction: how many commits happened since it began, and whether the database refuses it for reasons outside
the model -/
structure Txn (O : Type) where
  back : Nat
  ops : List O
  refused : Bool

/-- a database holding one index: its latest committed state, the earlier ones (newest first), and the next unused address -/
structure Db (S : Type) where
  latest : S
  older : List S
  next : Nat

/-- how to run calls on a snapshot, creating objects from a given address on (giving the state and the next address), and how
to resolve conflicts.  `fails`: one of the calls raises an exception, and the transaction is aborted. -/
structure Engine (S O : Type) where
  run : Nat → S → List O → S × Nat
  merge : S → S → S → Option S
  fails : Nat → S → List O → Bool := fun _ _ _ => false

namespace Db

variable {S O : Type}

/-- a database holding a new index -/
def new (s : S) : Db S := { latest := s, older := [], next := 0 }

/-- all committed states, newest first -/
def states (db : Db S) : List S := db.latest :: db.older

/-- a transaction commits, or is aborted -/
def commit (E : Engine S O) (db : Db S) (t : Txn O) : Db S :=
  match db.states[t.back]? with
  | none => db                                       -- no such snapshot
  | some base =>
    let r := E.run db.next base t.ops
    match (if t.refused || E.fails db.next base t.ops then none else E.merge base db.latest r.1) with
    | none => { db with next := r.2 }                -- ConflictError, or aborted by the application
    | some s => { latest := s, older := db.states, next := r.2 }

/-- transactions in the order of their commits -/
def run (E : Engine S O) (s : S) (ts : List (Txn O)) : Db S := ts.foldl (commit E) (new s)

end Db

/-! ### The field index -/

/-- field/index.py:49-55: `_fwd_index` maps values to set objects -/
structure HField (D V : Type) [LinearOrder D] [LinearOrder V] where
  heap : Heap (SSet D)
  fwd : SMap V Nat
  rev : SMap D V
  numDocs : Int

namespace HField

variable {D V : Type} [LinearOrder D] [LinearOrder V]

/-- the members of the set object at an address -/
def setAt (s : HField D V) (a : Nat) : SSet D := (s.heap.get? a).getD SMap.empty

/-- field/index.py:44-55 `__init__`, `clear` -/
def new : HField D V := { heap := Heap.empty, fwd := SMap.empty, rev := SMap.empty, numDocs := 0 }

/-- the index of `Verif.Model.Field`: forget the addresses -/
def view (s : HField D V) : Field D V :=
  { fwd := s.fwd.mapVals (fun _ a => s.setAt a), rev := s.rev, numDocs := s.numDocs }

/-- field/index.py:94-105: the set object of the value is changed, and dropped when it became empty -/
def removeDoc (s : HField D V) (d : D) (v : V) : HField D V :=
  match s.fwd.get? v with
  | none => s                                        -- KeyError, caught
  | some a =>
    if (s.setAt a).contains d then
      let set := SMap.del (s.setAt a) d
      let s := { s with heap := s.heap.put a set }
      if set.isEmpty then { s with fwd := s.fwd.del v } else s
    else s                                           -- KeyError, caught

/-- field/index.py:86-107 `unindex_doc` -/
def unindexDoc (s : HField D V) (d : D) : HField D V :=
  match s.rev.get? d with
  | none => s
  | some v =>
    let s := removeDoc { s with rev := s.rev.del d } d v
    { s with numDocs := s.numDocs - 1 }

/-- field/index.py:69 `docid in self._fwd_index.get(value, ())` -/
def upToDate (s : HField D V) (d : D) (v : V) : Bool :=
  match s.fwd.get? v with
  | none => false
  | some a => (s.setAt a).contains d

/-- field/index.py:74-78: the set object of a value, created if there is none, gets the docid -/
def addDoc (s : HField D V) (d : D) (v : V) : HField D V :=
  match s.fwd.get? v with
  | none =>
    { s with heap := s.heap.alloc (SSet.insert SMap.empty d), fwd := s.fwd.set v s.heap.next }
  | some a => { s with heap := s.heap.put a (SSet.insert (s.setAt a) d) }

/-- field/index.py:73-84, the inserting part of `index_doc` -/
def insertDoc (s : HField D V) (d : D) (v : V) : HField D V :=
  let s := addDoc s d v
  { s with numDocs := s.numDocs + 1, rev := s.rev.set d v }

/-- field/index.py:65-84 `index_doc` -/
def indexDoc (s : HField D V) (d : D) (v : V) : HField D V :=
  if s.rev.contains d then
    if s.upToDate d v then s
    else insertDoc (s.unindexDoc d) d v
  else insertDoc s d v

/-- effect of a call.  `clear` replaces the containers by new ones; that objects named by the attributes of the index are
exchanged is not modelled, and the theorems leave `clear` out of the transactions. -/
def step (s : HField D V) : Field.Op D V → HField D V
  | .index d v => s.indexDoc d v
  | .unindex d => s.unindexDoc d
  | .clear => { s with fwd := SMap.empty, rev := SMap.empty, numDocs := 0 }

/-- a transaction's calls on a snapshot, creating objects from address `next` on -/
def exec (next : Nat) (s : HField D V) (ops : List (Field.Op D V)) : HField D V :=
  ops.foldl step { s with heap := { s.heap with next := next } }

/-- conflict resolution, object by object: the set objects, the two BTrees, and the `Length` -/
def merge (o c n : HField D V) : Option (HField D V) := do
  let heap ← mergeHeap mergeTree o.heap c.heap n.heap
  let fwd ← mergeTree o.fwd c.fwd n.fwd
  let rev ← mergeTree o.rev c.rev n.rev
  return { heap := heap, fwd := fwd, rev := rev, numDocs := mergeLength o.numDocs c.numDocs n.numDocs }

/-- transactions on a field index -/
def engine : Engine (HField D V) (Field.Op D V) where
  run next s ops := let s := exec next s ops; (s, s.heap.next)
  merge := merge

end HField

/-! ### The keyword index -/

/-- conflict resolution of a `Set` or a `TreeSet` -/
def mergeDocSet {D : Type} [LinearOrder D] (o c n : DocSet D) : Option (DocSet D) :=
  (mergeTree o.ids c.ids n.ids).map (fun ids => { isTree := o.isTree, ids := ids })

namespace HKeyword

variable {D W : Type} [LinearOrder D] [LinearOrder W]

/-- a transaction's calls on a snapshot, creating objects from address `next` on -/
def exec (normalize : List W → List W) (next : Nat) (s : HKeyword D W) (ops : List (Keyword.Op D W)) : HKeyword D W :=
  runFrom normalize { s with heap := { s.heap with next := next } } ops

/-- conflict resolution, object by object.  The values of `_rev_index` are `OO.Set` objects too; they are never changed, only
replaced, and are compared by content here (by identity in the code, which can only give more conflicts). -/
def merge (o c n : HKeyword D W) : Option (HKeyword D W) := do
  let heap ← mergeHeap mergeDocSet o.heap c.heap n.heap
  let fwd ← mergeTree o.fwd c.fwd n.fwd
  let rev ← mergeTree o.rev c.rev n.rev
  return { heap := heap, fwd := fwd, rev := rev, numDocs := mergeLength o.numDocs c.numDocs n.numDocs,
           treeThreshold := c.treeThreshold }

/-- transactions on a keyword index -/
def engine (normalize : List W → List W) : Engine (HKeyword D W) (Keyword.Op D W) where
  run next s ops := let s := exec normalize next s ops; (s, s.heap.next)
  merge := merge

end HKeyword

/-! ### The lexicon -/

namespace Lexicon

/-- conflict resolution of the two BTrees and the `Length` -/
def merge (o c n : Lexicon) : Option Lexicon := do
  let wids ← mergeTree o.wids c.wids n.wids
  let words ← mergeTree o.words c.words n.words
  return { wids := wids, words := words, count := mergeLength o.count c.count n.count }

/-- transactions on a lexicon: texts are passed to `sourceToWordIds`.  Text/lexicon.py:68-75 makes the counter be loaded anew by
each `sourceToWordIds` that meets a new word, from whatever was committed last; the number in front of each text is the value found. -/
def engine (pipeline : List Element) : Engine Lexicon (Int × TextArg) where
  run next s ops := (ops.foldl (fun s p => (sourceToWordIds pipeline { s with count := p.1 } p.2).1) s, next)
  merge := merge

end Lexicon
end Verif
