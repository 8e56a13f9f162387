import Verif.Model.Base
import Mathlib.Data.List.Sort

/-! # Model of `src/zope/index/field/index.py` and `src/zope/index/field/sorting.py`

`D` is the type of document ids and `V` the type of field values. -/

set_option autoImplicit false

namespace Verif

/-- Field values.  The linear order is the one the forward `OOBTree` keeps its keys in.  Python's `<`
(used by `sorted`, `bisect`, `heapq`) is defined only between values of the same `kind`; a value of
kind `none` (Python's `None`) cannot be compared with anything, itself included.  `negOne` is the
int `-1`, the default key of sorting.py:53. -/
class PyValue (V : Type) extends LinearOrder V where
  kind : V → Option Nat
  negOne : V

/-- Python accepts `a < b` -/
def PyValue.orderable {V : Type} [PyValue V] (a b : V) : Bool :=
  (PyValue.kind a).isSome && decide (PyValue.kind a = PyValue.kind b)

/-- field/index.py:49-55, the attributes of `FieldIndex` -/
structure Field (D V : Type) [LinearOrder D] [LinearOrder V] where
  fwd : SMap V (SSet D)
  rev : SMap D V
  numDocs : Int

namespace Field

section core
variable {D V : Type} [LinearOrder D] [LinearOrder V]

/-- field/index.py:44-55 `__init__`, `clear` -/
def new : Field D V := { fwd := SMap.empty, rev := SMap.empty, numDocs := 0 }

/-- field/index.py:49-55 `clear` -/
def clear (_s : Field D V) : Field D V := new

/-- field/index.py:57-59 `documentCount` -/
def documentCount (s : Field D V) : Int := s.numDocs

/-- field/index.py:61-63 `wordCount` -/
def wordCount (s : Field D V) : Nat := s.fwd.len

/-- field/index.py:86-107 `unindex_doc`.  `self._fwd_index[value]` and `set.remove(docid)` raise
`KeyError` when the key is missing; the handler then sets `set = 1`, which is truthy. -/
def unindexDoc (s : Field D V) (d : D) : Field D V :=
  match s.rev.get? d with
  | none => s
  | some v =>
    let rev := s.rev.del d
    let fwd :=
      match s.fwd.get? v with
      | none => s.fwd                              -- KeyError, caught
      | some set =>
        if set.contains d then
          let set := SMap.del set d
          let fwd := s.fwd.set v set               -- the set is mutated in place
          if set.isEmpty then fwd.del v else fwd
        else s.fwd                                 -- KeyError, caught
    { fwd := fwd, rev := rev, numDocs := s.numDocs - 1 }

/-- field/index.py:86-107 `unindex_doc` again, with every operation that can raise made explicit: the
state reached and the exception that escaped, if any.  `C10` relates it to `unindexDoc`. -/
def unindexDocRaw (s : Field D V) (d : D) : Field D V × Option PyErr :=
  match s.rev.get? d with
  | none => (s, none)                                            -- value is _MARKER
  | some v =>
    if !s.rev.contains d then (s, some .KeyError) else           -- del rev_index[docid]
    let s1 := { s with rev := s.rev.del d }
    -- the try block: the new forward map, and `set` unless a KeyError was caught
    let tried : Field D V × Option (SSet D) :=
      match s1.fwd.get? v with
      | none => (s1, none)
      | some set =>
        if set.contains d then ({ s1 with fwd := s1.fwd.set v (SMap.del set d) }, some (SMap.del set d))
        else (s1, none)
    let s2 := tried.1
    let setIsFalsy := match tried.2 with
      | none => false                                            -- set = 1
      | some set => set.isEmpty
    if setIsFalsy then
      if !s2.fwd.contains v then (s2, some .KeyError)            -- del self._fwd_index[value]
      else ({ s2 with fwd := s2.fwd.del v, numDocs := s2.numDocs - 1 }, none)
    else ({ s2 with numDocs := s2.numDocs - 1 }, none)

/-- field/index.py:69 `docid in self._fwd_index.get(value, ())` -/
def upToDate (s : Field D V) (d : D) (v : V) : Bool :=
  match s.fwd.get? v with
  | none => false
  | some set => set.contains d

/-- field/index.py:73-84, the inserting part of `index_doc` -/
def insertDoc (s : Field D V) (d : D) (v : V) : Field D V :=
  let set := match s.fwd.get? v with
    | none => (SMap.empty : SSet D)
    | some set => set
  { fwd := s.fwd.set v (SSet.insert set d), rev := s.rev.set d v, numDocs := s.numDocs + 1 }

/-- field/index.py:65-84 `index_doc` -/
def indexDoc (s : Field D V) (d : D) (v : V) : Field D V :=
  if s.rev.contains d then
    if s.upToDate d v then s
    else insertDoc (s.unindexDoc d) d v
  else insertDoc s d v

/-- the argument of `apply`: a tuple, or something else with or without a length -/
inductive Query (V : Type)
  | tuple (l : List (Option V))
  | sized (n : Nat)
  | unsized

/-- field/index.py:109-113 `apply`.  `len()` of an object without length raises `TypeError`;
`BTree.values(lo, hi)` are the values for the keys in the closed range, `None` meaning unbounded. -/
def apply (s : Field D V) (q : Query V) : Except PyErr (SSet D) :=
  match q with
  | .tuple [lo, hi] => .ok (SSet.multiunion (s.fwd.range lo hi).values)
  | _ => .error .TypeError

/-- a call that changes the index -/
inductive Op (D V : Type)
  | index (d : D) (v : V)
  | unindex (d : D)
  | clear

/-- effect of a call -/
def step (s : Field D V) : Op D V → Field D V
  | .index d v => s.indexDoc d v
  | .unindex d => s.unindexDoc d
  | .clear => s.clear

/-- the index after a history of calls on a new one -/
def run (ops : List (Op D V)) : Field D V := ops.foldl step new

end core

section sorting
variable {D V : Type} [LinearOrder D] [PyValue V]

/-- order of the tuples `(value, docid)` -/
def tle (a b : V × D) : Bool := decide (a.1 < b.1) || (decide (a.1 = b.1) && decide (a.2 ≤ b.2))

/-- strict order of the tuples `(value, docid)` -/
def tlt (a b : V × D) : Bool := decide (a.1 < b.1) || (decide (a.1 = b.1) && decide (a.2 < b.2))

/-- Python compares two tuples by the first position where they differ (`==`); comparing the values
there raises `TypeError` when they are not orderable. -/
def tupleOk (a b : V × D) : Bool := decide (a.1 = b.1) || PyValue.orderable a.1 b.1

/-- `a <= b` for tuples -/
def pyLe (a b : V × D) : Except PyErr Bool := if tupleOk a b then .ok (tle a b) else .error .TypeError

/-- `a < b` for tuples -/
def pyLt (a b : V × D) : Except PyErr Bool := if tupleOk a b then .ok (tlt a b) else .error .TypeError

/-- all pairs of a list are comparable -/
def allOk {α : Type} (ok : α → α → Bool) (l : List α) : Bool := l.all (fun a => l.all (fun b => ok a b))

/-- `sorted(tuples)`: stable; it raises `TypeError` iff some two elements are not comparable.
(Comparability of tuples is an equivalence, and any correct sort makes a connected set of
comparisons, so it meets an incomparable pair if there is one.) -/
def pySortedTuples (l : List (V × D)) : Except PyErr (List (V × D)) :=
  if allOk tupleOk l then .ok (l.insertionSort (fun a b => tle a b)) else .error .TypeError

/-- `heapq.nlargest(n, it)`, documented as `sorted(it, reverse=True)[:n]`, raising like it -/
def pyNLargest (n : Nat) (l : List (V × D)) : Except PyErr (List (V × D)) :=
  if allOk tupleOk l then .ok ((l.insertionSort (fun a b => tle b a)).take n) else .error .TypeError

/-- the keys given to `sorted(docids, key=getValue)`: raises `TypeError` iff there are at least two
elements whose keys are not all of one kind -/
def keysOk (keys : List V) : Bool :=
  match keys with
  | a :: b :: t => (PyValue.kind a).isSome && (b :: t).all (fun x => decide (PyValue.kind x = PyValue.kind a))
  | _ => true

/-- loop of `bisect.bisect_right(a, x)`: `if x < a[mid]: hi = mid else: lo = mid + 1` -/
def bisectRightLoop (a : List (V × D)) (x : V × D) : Nat → Nat → Nat → Except PyErr Nat
  | 0, lo, _ => .ok lo
  | fuel + 1, lo, hi =>
    if lo < hi then
      let mid := (lo + hi) / 2
      match a[mid]? with
      | none => .error .IndexError
      | some y => do
        let lt ← pyLt x y
        if lt then bisectRightLoop a x fuel lo mid else bisectRightLoop a x fuel (mid + 1) hi
    else .ok lo

/-- `bisect.insort(result, elem)` -/
def pyInsort (result : List (V × D)) (elem : V × D) : Except PyErr (List (V × D)) := do
  let i ← bisectRightLoop result elem result.length 0 result.length
  return result.insertIdx i elem

/-- sorting.py:97-102, one iteration; the state is `result`, and `los = result[-1]` -/
def nsmallStep (result : List (V × D)) (elem : V × D) : Except PyErr (List (V × D)) :=
  match result.getLast? with
  | none => .error .IndexError
  | some los => do
    let le ← pyLe los elem
    if le then return result
    else do
      let result ← pyInsort result elem
      return result.dropLast

/-- sorting.py:90-104, the inlined `nsmallest` -/
def nsmallest (limit : Option Nat) (it : List (V × D)) : Except PyErr (List (V × D)) := do
  let result ← pySortedTuples (match limit with | none => it | some n => it.take n)
  if result.isEmpty then return []
  else (match limit with | none => [] | some n => it.drop n).foldlM nsmallStep result

/-- sorting.py:116-123 and 128-134: yield, count, and stop at the limit (`limit` is not 0 here) -/
def emit (limit : Option Nat) : Nat → List D → List D
  | _, [] => []
  | n, d :: t =>
    let n := n + 1
    match limit with
    | some k => if n ≥ k then [d] else d :: emit limit n t
    | none => d :: emit limit n t

/-- the comparison `sorted(docids, key=getValue, reverse=reverse)` sorts by (a stable sort; `reverse`
keeps the order of equal elements) -/
def keyLe (getValue : D → V) (reverse : Bool) (a b : D) : Bool :=
  if reverse then decide (getValue b ≤ getValue a) else decide (getValue a ≤ getValue b)

/-- sorting.py:67-134, with the two strategy flags given.  The generator's values are returned as a
list; in every branch anything that can raise happens before the first value is yielded.
`heapq.nlargest(None, ...)` is a `TypeError`. -/
def sortWith (s : Field D V) (useLazy useNbest : Bool) (docids : SSet D) (reverse : Bool)
    (limit : Option Nat) : Except PyErr (List D) :=
  if useNbest then
    let it := docids.keys.filterMap (fun d => (s.rev.get? d).map (fun v => (v, d)))
    if reverse then
      match limit with
      | none => .error .TypeError
      | some n => do
        let r ← pyNLargest n it
        return r.map (·.2)
    else do
      let r ← nsmallest limit it
      return r.map (·.2)
  else if useLazy && !reverse then
    .ok (emit limit 0 (s.fwd.values.flatMap (fun stored => (SSet.inter docids stored).keys)))
  else
    let getValue := fun d => (s.rev.get? d).getD PyValue.negOne
    let keys := docids.keys.map getValue
    if keysOk keys then
      let sorted := docids.keys.insertionSort (fun a b => keyLe getValue reverse a b)
      .ok (emit limit 0 (sorted.filter (fun d => s.rev.contains d)))
    else .error .TypeError

/-- sorting.py:58: `rlen > numdocs * (rlen / 100 + 1)`, in exact arithmetic -/
def chooseLazy (rlen : Nat) (numdocs : Int) : Bool := decide ((rlen : Int) * 100 > numdocs * (rlen + 100))

/-- sorting.py:59: `limit and limit * 4 < rlen` -/
def chooseNbest (limit : Option Nat) (rlen : Nat) : Bool :=
  match limit with
  | none => false
  | some n => decide (n * 4 < rlen)

/-- sorting.py:35-134 `sort`, all values of the generator.  `lazyOverride` and `nbestOverride` are the
attributes of sorting.py:61-65; `limit` is `None` or an int. -/
def sort (s : Field D V) (lazyOverride nbestOverride : Bool) (docids : List D) (reverse : Bool)
    (limit : Option Int) : Except PyErr (List D) :=
  match limit with
  | some n => if n < 1 then .error .ValueError else body (some n.toNat)
  | none => body none
where
  /-- sorting.py:39-134 -/
  body (limit : Option Nat) : Except PyErr (List D) :=
    if s.numDocs = 0 then .ok []
    else
      let ids := SSet.ofList docids
      if ids.isEmpty then .ok []
      else sortWith s (chooseLazy ids.len s.numDocs || lazyOverride)
        (chooseNbest limit ids.len || nbestOverride) ids reverse limit

end sorting
end Field
end Verif
