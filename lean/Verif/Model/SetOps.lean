import Verif.Model.NBest
import Mathlib.Data.List.Sort

/-! # Model of `src/zope/index/text/setops.py` -/

set_option autoImplicit false

namespace Verif

/-- The arithmetic that `IFBTree.weightedUnion`/`weightedIntersection` do on the stored values, with
no laws assumed: any rounding, overflow or NaN behaviour is an instance.  `isOne w` is `w == 1` and
`zero`, `one` are the weights `0` and `1`. -/
structure WArith (R : Type) where
  zero : R
  one : R
  add : R → R → R
  mul : R → R → R
  isOne : R → Bool

namespace SetOps

variable {K R : Type} [LinearOrder K]

/-- value of a key in `weightedUnion(x, y, wx, wy)[1]` (BTrees library): `wx*x[k] + wy*y[k]`, with
only the terms that exist -/
def wUnionVal (A : WArith R) (x y : SMap K R) (wx wy : R) (k : K) : Option R :=
  match x.get? k, y.get? k with
  | some a, some b => some (A.add (A.mul a wx) (A.mul b wy))
  | some a, none => some (A.mul a wx)
  | none, some b => some (A.mul b wy)
  | none, none => none

/-- `family.IF.weightedUnion(x, y, wx, wy)[1]` (BTrees library) -/
def wUnion (A : WArith R) (x y : SMap K R) (wx wy : R) : SMap K R :=
  SMap.build (x.keys ++ y.keys) (wUnionVal A x y wx wy)

/-- value of a key in `weightedIntersection(x, y, wx, wy)[1]` (BTrees library) -/
def wInterVal (A : WArith R) (x y : SMap K R) (wx wy : R) (k : K) : Option R :=
  match x.get? k, y.get? k with
  | some a, some b => some (A.add (A.mul a wx) (A.mul b wy))
  | _, _ => none

/-- `family.IF.weightedIntersection(x, y, wx, wy)[1]` (BTrees library) -/
def wInter (A : WArith R) (x y : SMap K R) (wx wy : R) : SMap K R :=
  SMap.build x.keys (wInterVal A x y wx wy)

/-- setops.py:56-66 `_trivial`.  (Object identity of the result is the subject of C66.) -/
def trivialOp (A : WArith R) (L : List (SMap K R × R)) : Except PyErr (SMap K R) :=
  match L with
  | [] => .ok SMap.empty
  | [(result, weight)] =>
    if !A.isOne weight then .ok (wUnion A SMap.empty result A.zero weight) else .ok result
  | _ => .error .AssertionError

/-- setops.py:24, dropping the `None` maps -/
def dropNone (L : List (Option (SMap K R) × R)) : List (SMap K R × R) :=
  L.filterMap (fun p => p.1.map (fun x => (x, p.2)))

/-- setops.py:30 `L.sort(key=lambda x: len(x[0]))`; Python's sort is stable, and so is insertion
sort -/
def sortByLen (L : List (SMap K R × R)) : List (SMap K R × R) :=
  L.insertionSort (fun a b => a.1.len ≤ b.1.len)

/-- setops.py:33-34, the loop body -/
def interStep (A : WArith R) (result : SMap K R) (p : SMap K R × R) : SMap K R :=
  wInter A result p.1 A.one p.2

/-- setops.py:22-35 `mass_weightedIntersection` -/
def massIntersection (A : WArith R) (L0 : List (Option (SMap K R) × R)) : Except PyErr (SMap K R) :=
  let L := dropNone L0
  if L.length < 2 then trivialOp A L
  else
    match sortByLen L with
    | (x, wx) :: (y, wy) :: rest => .ok (rest.foldl (interStep A) (wInter A x y wx wy))
    | _ => .error .ValueError

/-- setops.py:46-53, the merge loop and the final pop.  Each iteration shortens the queue by one, so
`fuel = len(L)` iterations are enough (C28 shows the error branch is not taken). -/
def unionLoop (A : WArith R) : Nat → NBest (SMap K R × R) Nat → Except PyErr (SMap K R)
  | 0, _ => .error .AssertionError
  | fuel + 1, merge =>
    if merge.len > 1 then do
      let (xw, merge) ← merge.popSmallest
      let (yw, merge) ← merge.popSmallest
      let z := wUnion A xw.1.1 yw.1.1 xw.1.2 yw.1.2
      let merge ← merge.add (z, A.one) z.len
      unionLoop A fuel merge
    else do
      let (r, _) ← merge.popSmallest
      return r.1.1

/-- setops.py:44-45, one iteration of the filling loop -/
def fillStep (merge : NBest (SMap K R × R) Nat) (p : SMap K R × R) :
    Except PyErr (NBest (SMap K R × R) Nat) := merge.add p p.1.len

/-- setops.py:38-53 `mass_weightedUnion` -/
def massUnion (A : WArith R) (L : List (SMap K R × R)) : Except PyErr (SMap K R) :=
  if L.length < 2 then trivialOp A L
  else do
    let merge ← NBest.new (L.length : Int)
    let merge ← L.foldlM fillStep merge
    unionLoop A L.length merge

end SetOps
end Verif
