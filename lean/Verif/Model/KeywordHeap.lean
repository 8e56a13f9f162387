import Verif.Model.Keyword

/-! # The keyword index with object identity

Same code as `Verif.Model.Keyword` (`src/zope/index/keyword/index.py`), but the sets of docids in the forward index are
mutable objects, named by their address in a heap, and a search returns an address.  `Verif.Proofs.KeywordHeap` shows that
forgetting addresses gives the other model. -/

set_option autoImplicit false

namespace Verif

/-- a heap of mutable objects; `next` is the address of the next object created -/
structure Heap (V : Type) where
  cells : SMap Nat V
  next : Nat

namespace Heap

variable {V : Type}

/-- no objects -/
def empty : Heap V := { cells := SMap.empty, next := 0 }

/-- the object at an address -/
def get? (h : Heap V) (a : Nat) : Option V := h.cells.get? a

/-- change the object at an address -/
def put (h : Heap V) (a : Nat) (v : V) : Heap V := { h with cells := h.cells.set a v }

/-- the heap after the creation of an object, at address `h.next` -/
def alloc (h : Heap V) (v : V) : Heap V := { cells := h.cells.set h.next v, next := h.next + 1 }

end Heap

/-- an empty `IF.Set` -/
def emptySet {D : Type} [LinearOrder D] : DocSet D := { isTree := false, ids := SMap.empty }

namespace Heap

variable {D : Type} [LinearOrder D]

/-- the set object at an address -/
def setAt (h : Heap (DocSet D)) (a : Nat) : DocSet D := (h.get? a).getD emptySet

/-- the loop of keyword/index.py:178-182 (topic/index.py:92-96); `intersection(None, set)` is the object `set`,
`intersection(rs, set)` a new one -/
def interLoop (h : Heap (DocSet D)) (rs : Option Nat) : List Nat → Heap (DocSet D) × Option Nat
  | [] => (h, rs)
  | a :: rest =>
    match rs with
    | none => if (h.setAt a).ids.isEmpty then (h, some a) else interLoop h (some a) rest
    | some x =>
      let ids := SSet.inter (h.setAt x).ids (h.setAt a).ids
      let h' := h.alloc { isTree := false, ids := ids }
      if ids.isEmpty then (h', some h.next) else interLoop h' (some h.next) rest

/-- keyword/index.py:187-189 (topic/index.py:101-104): `if rs: return rs` else a new empty set -/
def finish (h : Heap (DocSet D)) (rs : Option Nat) : Heap (DocSet D) × Nat :=
  match rs with
  | none => (h.alloc emptySet, h.next)
  | some a => if (h.setAt a).ids.isEmpty then (h.alloc emptySet, h.next) else (h, a)

/-- keyword/index.py:172-189 (topic/index.py:86-104): combine set objects; the object returned, or `TypeError` -/
def combine (h : Heap (DocSet D)) (sets : List Nat) (op : Keyword.Operator) : Heap (DocSet D) × Except PyErr Nat :=
  match op with
  | .or =>
    let ids := SSet.multiunion (sets.map (fun a => (h.setAt a).ids))
    let f := finish (h.alloc { isTree := false, ids := ids }) (some h.next)
    (f.1, .ok f.2)
  | .and =>
    let l := interLoop h none (sets.insertionSort (fun a b => (h.setAt a).ids.len ≤ (h.setAt b).ids.len))
    let f := finish l.1 l.2
    (f.1, .ok f.2)
  | .other => (h, .error .TypeError)

end Heap

/-- keyword/index.py:49-59: `_fwd_index` maps words to set objects -/
structure HKeyword (D W : Type) [LinearOrder D] [LinearOrder W] where
  heap : Heap (DocSet D)
  fwd : SMap W Nat
  rev : SMap D (SSet W)
  numDocs : Int
  treeThreshold : Int

namespace HKeyword

variable {D W : Type} [LinearOrder D] [LinearOrder W]

open Keyword (SeqArg QueryArg Operator Op insertReverse)

/-- the set object at an address -/
def setAt (s : HKeyword D W) (a : Nat) : DocSet D := s.heap.setAt a

/-- keyword/index.py:44-59 `__init__` -/
def new : HKeyword D W :=
  { heap := Heap.empty, fwd := SMap.empty, rev := SMap.empty, numDocs := 0, treeThreshold := 64 }

/-- keyword/index.py:49-59 `clear` -/
def clear (s : HKeyword D W) : HKeyword D W :=
  { s with fwd := SMap.empty, rev := SMap.empty, numDocs := 0 }

/-- keyword/index.py:107-110 and 121-123, one word; `remove` changes the set object -/
def removeWord (s : HKeyword D W) (d : D) (w : W) : Option (HKeyword D W) :=
  match s.fwd.get? w with
  | none => none
  | some a =>
    let set := s.setAt a
    if set.ids.contains d then
      let ids := SMap.del set.ids d
      let s := { s with heap := s.heap.put a { set with ids := ids } }
      some (if ids.isEmpty then { s with fwd := s.fwd.del w } else s)
    else none

/-- the loops of keyword/index.py:106-110 and 120-123 -/
def removeWords (s : HKeyword D W) (d : D) : List W → HKeyword D W × Bool
  | [] => (s, false)
  | w :: ws =>
    match removeWord s d w with
    | none => (s, true)
    | some s => removeWords s d ws

/-- keyword/index.py:116-134 `unindex_doc` -/
def unindexDoc (s : HKeyword D W) (d : D) : HKeyword D W :=
  match s.rev.get? d with
  | none => s
  | some words =>
    let r := removeWords s d words.keys
    if r.2 then r.1
    else { r.1 with rev := r.1.rev.del d, numDocs := r.1.numDocs - 1 }

/-- keyword/index.py:145-147: the set object of a word, created if there is none -/
def wordIdx (s : HKeyword D W) (w : W) : HKeyword D W × Nat :=
  match s.fwd.get? w with
  | none => ({ s with heap := s.heap.alloc emptySet, fwd := s.fwd.set w s.heap.next }, s.heap.next)
  | some a => (s, a)

/-- keyword/index.py:145-152, one word of `_insert_forward`; the conversion to a TreeSet creates a new object -/
def insertWord (d : D) (s : HKeyword D W) (w : W) : HKeyword D W :=
  let r := s.wordIdx w
  let set := r.1.setAt r.2
  let set : DocSet D := { set with ids := SSet.insert set.ids d }
  let s := { r.1 with heap := r.1.heap.put r.2 set }
  if !set.isTree && decide ((set.ids.len : Int) ≥ s.treeThreshold) then
    { s with heap := s.heap.alloc { isTree := true, ids := set.ids }, fwd := s.fwd.set w s.heap.next }
  else s

/-- keyword/index.py:136-152 `_insert_forward` -/
def insertForward (s : HKeyword D W) (d : D) (words : List W) : HKeyword D W := words.foldl (insertWord d) s

/-- keyword/index.py:81-114 `index_doc` -/
def indexDoc (normalize : List W → List W) (s : HKeyword D W) (d : D) (seq : SeqArg W) :
    HKeyword D W × Option PyErr :=
  match seq with
  | .str => (s, some .TypeError)
  | .seq truthy items =>
    let oldKw := s.rev.get? d
    if !truthy then
      match oldKw with
      | none => (s, none)
      | some kw => if kw.isEmpty then (s, none) else (s.unindexDoc d, none)
    else
      let newKw := SSet.ofList (normalize items)
      match oldKw with
      | none =>
        let s := insertForward s d newKw.keys
        ({ s with rev := insertReverse s.rev d newKw, numDocs := s.numDocs + 1 }, none)
      | some oldKw =>
        let added := SSet.diff newKw oldKw
        let removed := SSet.diff oldKw newKw
        let r := removeWords s d removed.keys
        if r.2 then (r.1, some .KeyError)
        else
          let s := insertForward r.1 d added.keys
          ({ s with rev := insertReverse s.rev d newKw }, none)

/-- keyword/index.py:210-218, one word of `optimize`; a conversion creates a new object -/
def optimizeWord (s : HKeyword D W) (p : W × Nat) : HKeyword D W :=
  let set := s.setAt p.2
  if (set.ids.len : Int) ≥ s.treeThreshold then
    if !set.isTree then
      { s with heap := s.heap.alloc { isTree := true, ids := set.ids }, fwd := s.fwd.set p.1 s.heap.next }
    else s
  else
    if set.isTree then
      { s with heap := s.heap.alloc { isTree := false, ids := set.ids }, fwd := s.fwd.set p.1 s.heap.next }
    else s

/-- keyword/index.py:199-218 `optimize` -/
def optimize (s : HKeyword D W) : HKeyword D W := s.fwd.items.foldl optimizeWord s

/-- keyword/index.py:167-170: the set objects of the query words; a missing word gets a new empty set.  (Line 169
creates that default object also when it is not needed; this is left out.) -/
def setsOf (s : HKeyword D W) : List W → HKeyword D W × List Nat
  | [] => (s, [])
  | w :: ws =>
    match s.fwd.get? w with
    | none =>
      let r := setsOf { s with heap := s.heap.alloc emptySet } ws
      (r.1, s.heap.next :: r.2)
    | some a =>
      let r := setsOf s ws
      (r.1, a :: r.2)

/-- keyword/index.py:160-189 `search`: the state reached (new objects in the heap) and the object returned -/
def search (normalize : List W → List W) (s : HKeyword D W) (query : QueryArg W) (op : Operator) :
    HKeyword D W × Except PyErr Nat :=
  let query := match query with
    | .str w => [w]
    | .seq l => l
  let query := normalize query
  let r := s.setsOf query
  let c := r.1.heap.combine r.2 op
  ({ r.1 with heap := c.1 }, c.2)

/-- effect of a call, and the exception it raises -/
def step (normalize : List W → List W) (s : HKeyword D W) : Op D W → HKeyword D W × Option PyErr
  | .index d seq => s.indexDoc normalize d seq
  | .unindex d => (s.unindexDoc d, none)
  | .clear => (s.clear, none)
  | .optimize => (s.optimize, none)
  | .setThreshold n => ({ s with treeThreshold := n }, none)

/-- a history of calls on an index in state `s` -/
def runFrom (normalize : List W → List W) (s : HKeyword D W) (ops : List (Op D W)) : HKeyword D W :=
  ops.foldl (fun s op => (step normalize s op).1) s

/-- a history of calls on a new index -/
def run (normalize : List W → List W) (ops : List (Op D W)) : HKeyword D W := runFrom normalize new ops

/-- the caller changes the set object it was given, in any way -/
def mutate (s : HKeyword D W) (a : Nat) (set : DocSet D) : HKeyword D W := { s with heap := s.heap.put a set }

end HKeyword
end Verif
