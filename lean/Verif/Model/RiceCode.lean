import Verif.Model.Base

/-! # Model of `src/zope/index/text/ricecode.py` -/

set_option autoImplicit false

namespace Verif.Rice

/-- ricecode.py:41-46, the attributes of `BitArray`; `bytes` is an `array.array('B')`, each element
`0..255` -/
structure BitArray where
  bytes : List Nat
  nbits : Nat
  bitsleft : Nat
  deriving DecidableEq, Repr

namespace BitArray

/-- ricecode.py:43-46 `__init__` -/
def new : BitArray := { bytes := [], nbits := 0, bitsleft := 0 }

/-- the position a Python sequence of length `n` uses for index `j`; `none` is an `IndexError` -/
def pyIndex (n : Nat) (j : Int) : Option Nat :=
  if 0 ≤ j then (if j < n then some j.toNat else none)
  else if -(n : Int) ≤ j then some (j + n).toNat else none

/-- ricecode.py:51-57 `__getitem__`; the result is `1` or `0` -/
def getitem (a : BitArray) (i : Int) : Except PyErr Nat :=
  match pyIndex a.bytes.length (i / 8) with
  | none => .error .IndexError
  | some j => if (a.bytes.getD j 0) &&& (2 ^ (i % 8).toNat) ≠ 0 then .ok 1 else .ok 0

/-- ricecode.py:59-65 `__setitem__`; `val` is the truth value of the argument.  `&= ~mask` on a byte
clears the bits of the mask, i.e. it is `&= 255 ^ mask`. -/
def setitem (a : BitArray) (i : Int) (val : Bool) : Except PyErr BitArray :=
  match pyIndex a.bytes.length (i / 8) with
  | none => .error .IndexError
  | some j =>
    let mask := 2 ^ (i % 8).toNat
    let b := a.bytes.getD j 0
    .ok { a with bytes := a.bytes.set j (if val then b ||| mask else b &&& (255 ^^^ mask)) }

/-- ricecode.py:67-68 `__len__` -/
def len (a : BitArray) : Nat := a.nbits

/-- ricecode.py:72-74, the growing part of `append` -/
def grow (a : BitArray) : BitArray :=
  if a.bitsleft = 0 then { a with bytes := a.bytes ++ [0], bitsleft := 8 } else a

/-- ricecode.py:70-77 `append`; returns the object and the exception, if any -/
def append (a : BitArray) (bit : Bool) : BitArray × Option PyErr :=
  let a := a.grow
  match a.setitem a.nbits bit with
  | .error e => (a, some e)
  | .ok a => ({ a with nbits := a.nbits + 1, bitsleft := a.bitsleft - 1 }, none)

/-- a loop of appends; stops at an exception -/
def appends (a : BitArray) : List Bool → BitArray × Option PyErr
  | [] => (a, none)
  | b :: t =>
    match a.append b with
    | (a', none) => appends a' t
    | (a', some e) => (a', some e)

/-- ricecode.py:79-80 `__getstate__` -/
def getstate (a : BitArray) : Nat × Nat × List Nat := (a.nbits, a.bitsleft, a.bytes)

/-- ricecode.py:82-86 `__setstate__` on a new object -/
def setstate (s : Nat × Nat × List Nat) : BitArray := { bytes := s.2.2, nbits := s.1, bitsleft := s.2.1 }

end BitArray

/-- ricecode.py:89-105, the attributes of `RiceCode` -/
structure RiceCode where
  m : Nat
  lower : Nat
  mask : Nat
  bits : BitArray
  len : Nat
  deriving DecidableEq, Repr

namespace RiceCode

/-- ricecode.py:102-105 `init` and 89-93 (class attribute `len = 0`), with the given `bits`;
`1 << (m - 1)` raises `ValueError` for `m = 0` -/
def initWith (m : Nat) (bits : BitArray) : Except PyErr RiceCode :=
  match m with
  | 0 => .error .ValueError
  | k + 1 => .ok { m := m, lower := (1 <<< m) - 1, mask := 1 <<< k, bits := bits, len := 0 }

/-- ricecode.py:95-100 `__init__` -/
def new (m : Int) : Except PyErr RiceCode :=
  if m < 0 ∨ m > 16 then .error .ValueError else initWith m.toNat BitArray.new

/-- ricecode.py:120-122: the bits appended by `while mask: self.bits.append(r & mask); mask >>= 1`.
`mask + 1` iterations are always enough. -/
def maskLoop (r : Nat) : Nat → Nat → List Bool
  | 0, _ => []
  | fuel + 1, mask => if mask = 0 then [] else decide (r &&& mask ≠ 0) :: maskLoop r fuel (mask >>> 1)

/-- ricecode.py:111-122: the bits appended for `val >= 1` -/
def code (c : RiceCode) (val : Nat) : List Bool :=
  let val := val - 1
  List.replicate (val >>> c.m) true ++ [false] ++ maskLoop (val &&& c.lower) (c.mask + 1) c.mask

/-- ricecode.py:107-123 `append`; returns the object and the exception, if any -/
def append (c : RiceCode) (val : Int) : RiceCode × Option PyErr :=
  if val < 1 then (c, some .ValueError)
  else
    match c.bits.appends (c.code val.toNat) with
    | (b, some e) => ({ c with bits := b }, some e)
    | (b, none) => ({ c with bits := b, len := c.len + 1 }, none)

/-- a loop of appends; stops at an exception -/
def appends (c : RiceCode) : List Int → RiceCode × Option PyErr
  | [] => (c, none)
  | v :: t =>
    match c.append v with
    | (c', none) => appends c' t
    | (c', some e) => (c', some e)

/-- ricecode.py:134-137 `while self.bits[i] == 1: unary += 1; i += 1`; returns `(unary, i)`.  Reading
past the last byte raises, so `8 * len(bytes) + 1` iterations are always enough. -/
def readUnary (b : BitArray) : Nat → Nat → Nat → Except PyErr (Nat × Nat)
  | 0, _, _ => .error .IndexError
  | fuel + 1, unary, i => do
    let x ← b.getitem i
    if x = 1 then readUnary b fuel (unary + 1) (i + 1) else return (unary, i)

/-- ricecode.py:140-143; returns `(binary, i)` -/
def readBinary (b : BitArray) : Nat → Nat → Nat → Except PyErr (Nat × Nat)
  | 0, binary, i => .ok (binary, i)
  | k + 1, binary, i => do
    let x ← b.getitem i
    readBinary b k ((binary <<< 1) ||| x) (i + 1)

/-- ricecode.py:133-144, `n` iterations of the outer loop from bit offset `i` -/
def tolistLoop (c : RiceCode) : Nat → Nat → Except PyErr (List Int)
  | 0, _ => .ok []
  | n + 1, i => do
    let (unary, i) ← readUnary c.bits (8 * c.bits.bytes.length + 1) 0 i
    let x ← c.bits.getitem i
    if x ≠ 0 then .error .AssertionError
    else do
      let (binary, i) ← readBinary c.bits c.m 0 (i + 1)
      let rest ← tolistLoop c n i
      return (((unary <<< c.m) + (binary + 1) : Nat) : Int) :: rest

/-- ricecode.py:128-145 `tolist` -/
def tolist (c : RiceCode) : Except PyErr (List Int) := tolistLoop c c.len 0

/-- ricecode.py:154-155 `__getstate__` (the bit array is pickled through its own state) -/
def getstate (c : RiceCode) : Nat × (Nat × Nat × List Nat) := (c.m, c.bits.getstate)

/-- ricecode.py:157-160 `__setstate__` on a new object, whose `len` is the class attribute `0` -/
def setstate (s : Nat × (Nat × Nat × List Nat)) : Except PyErr RiceCode :=
  initWith s.1 (BitArray.setstate s.2)

end RiceCode

/-- ricecode.py:163-171 `encode` -/
def encode (m : Int) (l : List Int) : Except PyErr RiceCode := do
  let c ← RiceCode.new m
  match c.appends l with
  | (_, some e) => .error e
  | (c, none) => do
    let l' ← c.tolist
    if l' = l then return c else .error .AssertionError

/-- ricecode.py:174-182: the second component of the result, `[]` or a `RiceCode` -/
inductive Deltas
  | emptyList
  | rice (c : RiceCode)
  deriving DecidableEq, Repr

/-- ricecode.py:179-181: the differences appended -/
def diffs : List Int → List Int
  | a :: b :: t => (b - a) :: diffs (b :: t)
  | _ => []

/-- ricecode.py:174-182 `encode_deltas`; `l_[1]` raises `IndexError` on the empty list -/
def encodeDeltas (l : List Int) : Except PyErr (Int × Deltas) :=
  match l with
  | [] => .error .IndexError
  | [a] => .ok (a, .emptyList)
  | a :: b :: t => do
    let c ← RiceCode.new 6
    match c.appends (diffs (a :: b :: t)) with
    | (_, some e) => .error e
    | (c, none) => .ok (a, .rice c)

/-- ricecode.py:190-191: `for i in range(1, len(deltas)): l_.append(l_[i - 1] + deltas[i])`, given
the last element so far and the remaining deltas; returns the elements appended -/
def sums (last : Int) : List Int → List Int
  | [] => []
  | d :: t => (last + d) :: sums (last + d) t

/-- ricecode.py:185-193 `decode_deltas`; in the loop `l_[i - 1]` is the last element, because
`len(l_) = i` -/
def decodeDeltas (start : Int) (enc : Deltas) : Except PyErr (List Int) :=
  match enc with
  | .emptyList => .ok [start]
  | .rice c =>
    if c.len = 0 then .ok [start]
    else do
      let deltas ← c.tolist
      let l := start :: sums start (deltas.drop 1)
      match l.getLast?, deltas.getLast? with
      | some x, some d => .ok (l ++ [x + d])
      | _, _ => .error .IndexError

end Verif.Rice
