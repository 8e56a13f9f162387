import Verif.Model.Field

/-! # The generator of `src/zope/index/field/sorting.py`

`sort` is a generator function: the call runs nothing, and each `next()` runs up to the next `yield`.  Calls that change the index
may come between.  `Verif.Model.Field` has `sort` as a function giving all the values at once.

Simplification: the caller's `docids` object does not change while the generator is in use. -/

set_option autoImplicit false

namespace Verif.Field

variable {D V : Type} [LinearOrder D] [PyValue V]

/-- sorting.py:35, the arguments of `sort`, and the attributes of sorting.py:61-65 -/
structure SortArgs (D : Type) where
  useLazy : Bool
  useNbest : Bool
  docids : List D
  reverse : Bool
  limit : Option Int

/-- what `next()` does: it returns a docid, raises `StopIteration`, or raises another exception -/
inductive Out (D : Type)
  | value (d : D)
  | stop
  | raised (e : PyErr)
  deriving DecidableEq

/-- how far the generator has run -/
inductive Gen (D V : Type) [LinearOrder D] [LinearOrder V]
  /-- not started -/
  | start (a : SortArgs D)
  /-- sorting.py:86-87 or 103-104: the docids still to be yielded -/
  | values (rest : List D)
  /-- sorting.py:128-134: the rest of the sorted list, and `n`.  `old` is the BTree in the local variable `rev_index`, if `clear` has
  given the index another one. -/
  | scan (rest : List D) (limit : Option Nat) (n : Nat) (old : Option (SMap D V))
  /-- sorting.py:116-123: the rest of an intersection, the key it came from, and `n`.  `old` is as above, for `fwd_index`.  `dirty`:
  keys were added to or removed from that BTree since the iteration began. -/
  | walk (docids : SSet D) (rest : List D) (key : V) (limit : Option Nat) (n : Nat) (dirty : Bool) (old : Option (SMap V (SSet D)))
  /-- finished -/
  | done

/-- what iterating over a BTree gives when its keys have changed meanwhile depends on its buckets: some set objects, and perhaps
`RuntimeError` -/
structure Wild (D : Type) [LinearOrder D] where
  sets : List (SSet D)
  error : Option PyErr

/-- sorting.py:86-87 and 103-104: `for val in result: yield val[1]` -/
def nextValue : List D → Out D × Gen D V
  | [] => (.stop, .done)
  | d :: rest => (.value d, .values rest)

/-- sorting.py:129-134, up to the next `yield` -/
def nextScan (rev : SMap D V) (limit : Option Nat) (n : Nat) (old : Option (SMap D V)) : List D → Out D × Gen D V
  | [] => (.stop, .done)
  | d :: rest => if rev.contains d then (.value d, .scan rest limit (n + 1) old) else nextScan rev limit n old rest

/-- sorting.py:117-123, up to the next `yield`: the keys the iteration has not reached -/
def nextWalk (fwd : SMap V (SSet D)) (docids : SSet D) (limit : Option Nat) (n : Nat) (old : Option (SMap V (SSet D))) :
    List V → Out D × Gen D V
  | [] => (.stop, .done)
  | v :: vs =>
    match (SSet.inter docids ((fwd.get? v).getD SMap.empty)).keys with
    | [] => nextWalk fwd docids limit n old vs
    | d :: rest => (.value d, .walk docids rest v limit (n + 1) false old)

/-- sorting.py:117-123, up to the next `yield`, on a BTree whose keys have changed -/
def nextWild (error : Option PyErr) (docids : SSet D) (key : V) (limit : Option Nat) (n : Nat) (old : Option (SMap V (SSet D))) :
    List (SSet D) → Out D × Gen D V
  | [] => (match error with | none => .stop | some e => .raised e, .done)
  | stored :: sets =>
    match (SSet.inter docids stored).keys with
    | [] => nextWild error docids key limit n old sets
    | d :: rest => (.value d, .walk docids rest key limit (n + 1) true old)

/-- sorting.py:67-104: the n-best docids -/
def nbestDocs (s : Field D V) (docids : SSet D) (reverse : Bool) (limit : Option Nat) : Except PyErr (List D) :=
  let it := docids.keys.filterMap (fun d => (s.rev.get? d).map (fun v => (v, d)))
  if reverse then
    match limit with
    | none => .error .TypeError
    | some n => do
      let r ← pyNLargest n it
      return r.map (·.2)
  else do
    let r ← nsmallest limit it
    return r.map (·.2)

/-- sorting.py:39-134, the first `next()` with a valid limit -/
def beginSort (s : Field D V) (a : SortArgs D) (limit : Option Nat) : Out D × Gen D V :=
  if s.numDocs = 0 then (.stop, .done)
  else
    let ids := SSet.ofList a.docids
    if ids.isEmpty then (.stop, .done)
    else if chooseNbest limit ids.len || a.useNbest then
      match nbestDocs s ids a.reverse limit with
      | .error e => (.raised e, .done)
      | .ok l => nextValue l
    else if (chooseLazy ids.len s.numDocs || a.useLazy) && !a.reverse then
      nextWalk s.fwd ids limit 0 none s.fwd.keys
    else
      let getValue := fun d => (s.rev.get? d).getD PyValue.negOne
      if keysOk (ids.keys.map getValue) then
        nextScan s.rev limit 0 none (ids.keys.insertionSort (fun x y => keyLe getValue a.reverse x y))
      else (.raised .TypeError, .done)

/-- sorting.py:122 and 133: `if limit and n >= limit` -/
def reached (limit : Option Nat) (n : Nat) : Bool :=
  match limit with
  | none => false
  | some k => decide (n ≥ k)

/-- `next()`.  `w` is used only if the keys of the BTree iterated over have changed. -/
def next (s : Field D V) (w : Wild D) : Gen D V → Out D × Gen D V
  | .start a =>
    match a.limit with
    | some n => if n < 1 then (.raised .ValueError, .done) else beginSort s a (some n.toNat)
    | none => beginSort s a none
  | .values rest => nextValue rest
  | .scan rest limit n old =>
    if reached limit n then (.stop, .done) else nextScan (old.getD s.rev) limit n old rest
  | .walk docids rest key limit n dirty old =>
    if reached limit n then (.stop, .done)
    else
      match rest with
      | d :: rest => (.value d, .walk docids rest key limit (n + 1) dirty old)
      | [] =>
        if dirty then nextWild w.error docids key limit n old w.sets
        else nextWalk (old.getD s.fwd) docids limit n old ((old.getD s.fwd).keys.filter (fun v => decide (key < v)))
  | .done => (.stop, .done)

/-- a call on the index in state `s`, as the generator sees it: `clear` replaces the BTrees (field/index.py:52-54), and the generator
keeps the old ones, which no longer change -/
def Gen.onCall (s : Field D V) (op : Op D V) : Gen D V → Gen D V
  | .scan rest limit n none =>
    match op with
    | .clear => .scan rest limit n (some s.rev)
    | _ => .scan rest limit n none
  | .walk docids rest key limit n dirty none =>
    match op with
    | .clear => .walk docids rest key limit n dirty (some s.fwd)
    | op => .walk docids rest key limit n (dirty || decide (s.fwd.keys ≠ (step s op).fwd.keys)) none
  | g => g

/-- what happens while a generator is in use -/
inductive Event (D V : Type) [LinearOrder D]
  /-- a call that changes the index -/
  | call (op : Op D V)
  /-- `next()` on the generator -/
  | next (w : Wild D)

/-- what the calls of `next()` do, each with the history of the index at that time -/
def trace (hist : List (Op D V)) (g : Gen D V) : List (Event D V) → List (List (Op D V) × Out D)
  | [] => []
  | .call op :: es => trace (hist ++ [op]) (g.onCall (run hist) op) es
  | .next w :: es =>
    let r := next (run hist) w g
    (hist, r.1) :: trace hist r.2 es

end Verif.Field
