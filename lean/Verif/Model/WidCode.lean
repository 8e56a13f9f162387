import Verif.Model.Base

/-! # Model of `src/zope/index/text/widcode.py`

Characters of an encoded string are their code points (`Nat`); word ids are Python ints. -/

set_option autoImplicit false

namespace Verif.WidCode

/-- widcode.py:75, 118-132: the table `_encoding`, filled by `_fill()`, as a function on the valid
indices `0 <= i < 0x4000` -/
def encTab (i : Nat) : List Nat :=
  if i < 0x80 then [i + 0x80] else [i / 0x80 + 0x80, i % 0x80]

/-- widcode.py:101, 118-132: the dict `_decoding`, filled by `_fill()`; its keys are the strings of
`encTab` -/
def decTab : List Nat → Option Nat
  | [a] => if 0x80 ≤ a ∧ a < 0x100 then some (a - 0x80) else none
  | [a, b] => if 0x81 ≤ a ∧ a < 0x100 ∧ b < 0x80 then some ((a - 0x80) * 0x80 + b) else none
  | _ => none

/-- widcode.py:78-87 `_encode` -/
def encodeBig (w : Int) : Except PyErr (List Nat) :=
  if 0x4000 ≤ w ∧ w < 0x10000000 then
    let b := w.toNat / 0x80
    let c := w.toNat % 0x80
    let a := b / 0x80
    let b := b % 0x80
    if a < 0x80 then .ok [a + 0x80, b, c]
    else
      let a' := a / 0x80
      let b' := a % 0x80
      if a' < 0x80 then .ok [a' + 0x80, b', b, c] else .error .AssertionError
  else .error .AssertionError

/-- widcode.py:72, one element of the comprehension: `w < n and wid2enc[w] or _encode(w)`.  A
negative index counts from the end of the table; table entries are non-empty, hence truthy. -/
def encodeOne (w : Int) : Except PyErr (List Nat) :=
  if w < 0x4000 then
    if 0 ≤ w then .ok (encTab w.toNat)
    else if -0x4000 ≤ w then .ok (encTab (w + 0x4000).toNat)
    else .error .IndexError
  else encodeBig w

/-- widcode.py:68-72 `encode` -/
def encode : List Int → Except PyErr (List Nat)
  | [] => .ok []
  | w :: t => do
    let s ← encodeOne w
    let r ← encode t
    return s ++ r

/-- `[\x80-\xFF]` -/
def isHead (c : Nat) : Bool := decide (0x80 ≤ c) && decide (c ≤ 0xFF)

/-- `[\x00-\x7F]` -/
def isLow (c : Nat) : Bool := decide (c ≤ 0x7F)

/-- widcode.py:90, 98: `_prog.findall(code)` for the pattern `[\x80-\xFF][\x00-\x7F]*`; leftmost,
greedy, non-overlapping.  `fuel` at least the length of the string. -/
def findallF : Nat → List Nat → List (List Nat)
  | 0, _ => []
  | _, [] => []
  | fuel + 1, c :: t =>
    if isHead c then (c :: t.takeWhile isLow) :: findallF fuel (t.dropWhile isLow)
    else findallF fuel t

/-- widcode.py:90, 98 `_prog.findall(code)` -/
def findall (code : List Nat) : List (List Nat) := findallF code.length code

/-- widcode.py:104-115 `_decode` -/
def decodeBig (s : List Nat) : Except PyErr Int :=
  if s = [0x80] then .ok 0
  else
    match s with
    | [a, b, c] =>
      if a &&& 0x80 = 0x80 ∧ b &&& 0x80 = 0 ∧ c &&& 0x80 = 0 then
        .ok ((((a &&& 0x7F) <<< 14) ||| (b <<< 7) ||| c : Nat) : Int)
      else .error .AssertionError
    | [a, b, c, d] =>
      if a &&& 0x80 = 0x80 ∧ b &&& 0x80 = 0 ∧ c &&& 0x80 = 0 ∧ d &&& 0x80 = 0 then
        .ok ((((a &&& 0x7F) <<< 21) ||| (b <<< 14) ||| (c <<< 7) ||| d : Nat) : Int)
      else .error .AssertionError
    | _ => .error .AssertionError

/-- widcode.py:98, one element of the comprehension: `get(p) or _decode(p)` -/
def decodeOne (p : List Nat) : Except PyErr Int :=
  match decTab p with
  | some (v + 1) => .ok ((v + 1 : Nat) : Int)
  | _ => decodeBig p

/-- widcode.py:93-98 `decode` -/
def decode (code : List Nat) : Except PyErr (List Int) := (findall code).mapM decodeOne

/-- `str.find` from position `i` on: index of the leftmost occurrence, or -1 -/
def pyFindFrom (pat : List Nat) : List Nat → Nat → Int
  | [], i => if pat.isPrefixOf [] then i else -1
  | c :: t, i => if pat.isPrefixOf (c :: t) then i else pyFindFrom pat t (i + 1)

/-- `s.find(pat)` -/
def pyFind (s pat : List Nat) : Int := pyFindFrom pat s 0

end Verif.WidCode
