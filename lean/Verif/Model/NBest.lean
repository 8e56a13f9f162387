import Verif.Model.Base

/-! # Model of `src/zope/index/nbest.py` -/

namespace Verif

/-- The loop of the standard library's `bisect.bisect_left(a, x)` (used by nbest.py:21):
`while lo < hi: mid = (lo+hi)//2; if a[mid] < x: lo = mid+1 else: hi = mid`.
Returns the position and the number of score comparisons made.  `fuel` bounds the number of
iterations; `bisectLeft` passes enough (theorem `bisectLeft_spec`). -/
def bisectLoop {S : Type} [LinearOrder S] (a : List S) (x : S) : Nat → Nat → Nat → Nat × Nat
  | 0, lo, _ => (lo, 0)
  | fuel + 1, lo, hi =>
    if lo < hi then
      let mid := (lo + hi) / 2
      match a[mid]? with
      | none => (lo, 0)
      | some y =>
        let r := if y < x then bisectLoop a x fuel (mid + 1) hi else bisectLoop a x fuel lo mid
        (r.1, r.2 + 1)
    else (lo, 0)

/-- `bisect_left(a, x)` with its comparison count -/
def bisectLeft {S : Type} [LinearOrder S] (a : List S) (x : S) : Nat × Nat :=
  bisectLoop a x a.length 0 a.length

/-- nbest.py:29-42, the instance attributes of `NBest` -/
structure NBest (ι S : Type) where
  capacity : Nat
  scores : List S
  items : List ι
  deriving Repr, DecidableEq

namespace NBest

variable {ι S : Type} [LinearOrder S]

/-- nbest.py:31-42 `NBest.__init__` -/
def new (N : Int) : Except PyErr (NBest ι S) :=
  if N < 1 then .error .ValueError else .ok { capacity := N.toNat, scores := [], items := [] }

/-- nbest.py:44-45 `__len__` -/
def len (b : NBest ι S) : Nat := b.scores.length

/-- The local variables of the loop in `addmany` (nbest.py:54-69); `cmps` counts score comparisons
and is not in the source. -/
structure LoopSt (ι S : Type) where
  scores : List S
  items : List ι
  n : Nat
  cmps : Nat

/-- nbest.py:56-68, one iteration of the loop.  `scores[0]` on an empty list would be an
`IndexError`. -/
def loopStep (capacity : Nat) (st : LoopSt ι S) (p : ι × S) : Except PyErr (LoopSt ι S) := do
  let skipCmp ←
    if st.n ≥ capacity then
      match st.scores with
      | [] => .error .IndexError
      | s0 :: _ => .ok (decide (p.2 ≤ s0), 1)
    else .ok (false, 0)
  if skipCmp.1 then
    return { st with cmps := st.cmps + skipCmp.2 }
  let i := bisectLeft st.scores p.2
  let scores := st.scores.insertIdx i.1 p.2
  let items := st.items.insertIdx i.1 p.1
  if st.n = capacity then
    return { scores := scores.drop 1, items := items.drop 1, n := st.n, cmps := st.cmps + skipCmp.2 + i.2 }
  else
    return { scores := scores, items := items, n := st.n + 1, cmps := st.cmps + skipCmp.2 + i.2 }

/-- nbest.py:53-69 `addmany`; the second component is the number of score comparisons -/
def addmanyC (b : NBest ι S) (seq : List (ι × S)) : Except PyErr (NBest ι S × Nat) := do
  let st ← seq.foldlM (loopStep b.capacity)
    { scores := b.scores, items := b.items, n := b.scores.length, cmps := 0 }
  if st.n = st.scores.length then
    return ({ b with scores := st.scores, items := st.items }, st.cmps)
  else .error .AssertionError

/-- nbest.py:53-69 `addmany` -/
def addmany (b : NBest ι S) (seq : List (ι × S)) : Except PyErr (NBest ι S) :=
  (b.addmanyC seq).map (·.1)

/-- nbest.py:50-51 `add` -/
def add (b : NBest ι S) (item : ι) (score : S) : Except PyErr (NBest ι S) :=
  b.addmany [(item, score)]

/-- nbest.py:71-74 `getbest` -/
def getbest (b : NBest ι S) : List (ι × S) := (List.zip b.items b.scores).reverse

/-- nbest.py:76-79 `pop_smallest`; `self._items.pop(0)` on an empty list is an `IndexError` -/
def popSmallest (b : NBest ι S) : Except PyErr ((ι × S) × NBest ι S) :=
  match b.scores with
  | [] => .error .IndexError
  | s :: ss =>
    match b.items with
    | [] => .error .IndexError
    | i :: is => .ok ((i, s), { b with scores := ss, items := is })

/-- a call on an `NBest` object -/
inductive Op (ι S : Type)
  | add (item : ι) (score : S)
  | addmany (seq : List (ι × S))
  | pop

/-- effect of a call; a call that raises leaves the object unchanged here
(`Verif.Proofs.NBest.addmany_ok` shows that the adding calls never raise) -/
def step (b : NBest ι S) : Op ι S → NBest ι S
  | .add i s => match b.add i s with | .ok b' => b' | .error _ => b
  | .addmany l => match b.addmany l with | .ok b' => b' | .error _ => b
  | .pop => match b.popSmallest with | .ok (_, b') => b' | .error _ => b

/-- the object after a history of calls on `NBest(N)` -/
def run (N : Nat) (ops : List (Op ι S)) : NBest ι S :=
  ops.foldl step { capacity := N, scores := [], items := [] }

end NBest
end Verif
