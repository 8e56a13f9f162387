import Verif.Model.TextIndex
import Mathlib.Data.Multiset.AddSub

/-! # The C function `score` with references and exceptions

`src/zope/index/text/okascore.c`, lines 45-112.  The calls of Python's C API that the function makes may have any outcome: they are
parameters (`CApi`).  Modelled are the references the function holds, whether objects it uses are sure to exist, the exception set,
and the conversion of the length to a C `int`. -/

set_option autoImplicit false

namespace Verif.OkaScore

open Text

/-- the outcomes of the calls `score` makes: `W` is the state of the interpreter, `O` are its objects, `R` the C doubles.  A failing
call sets an exception. -/
structure CApi (W O R : Type) where
  /-- `PyObject_Length` -/
  length : W → O → W × Except PyErr Nat
  /-- `PySequence_GetItem` -/
  seqItem : W → O → Nat → W × Except PyErr O
  /-- the items of an exact tuple of length 2 (`PyTuple_CheckExact`, `PyTuple_GET_SIZE`, `PyTuple_GET_ITEM`); tuples do not change -/
  pair : O → Option (O × O)
  /-- `PyFloat_AsDouble` -/
  asDouble : W → O → W × Except PyErr R
  /-- `PyObject_GetItem` -/
  getItem : W → O → O → W × Except PyErr O
  /-- `PyFloat_FromDouble` -/
  fromDouble : W → R → W × Except PyErr O
  /-- `PyObject_SetItem` -/
  setItem : W → O → O → O → W × Option PyErr
  /-- `Py_None` -/
  none : O

/-- what a C program must not do -/
inductive Misuse
  /-- to use an object that may not exist any more -/
  | dead
  /-- to give back a reference it does not hold -/
  | released
  deriving DecidableEq, Repr

/-- the state of the interpreter, the references the function holds and the exception that is set -/
structure Frame (W O : Type) where
  world : W
  held : Multiset O
  exc : Option PyErr

/-- C code: it may misuse objects -/
abbrev CM (W O α : Type) := Frame W O → Except Misuse (α × Frame W O)

section

variable {W O R : Type} [DecidableEq O] (api : CApi W O R) (A : Arith R) (cdiv : R → R → R) (P : Bm25 R)

/-- an object is sure to exist if it is an argument (the caller holds it), the function holds a reference, or it is an item of a tuple
to which the function holds a reference -/
def Alive (args : List O) (held : Multiset O) (o : O) : Prop :=
  o ∈ args ∨ o ∈ held ∨ ∃ t ∈ held, (api.pair t).elim False (fun p => o = p.1 ∨ o = p.2)

instance (args : List O) (held : Multiset O) (o : O) : Decidable (Alive api args held o) := by
  unfold Alive
  have : ∀ t, Decidable ((api.pair t).elim False (fun p => o = p.1 ∨ o = p.2)) := fun t => by
    cases api.pair t with
    | none => exact instDecidableFalse
    | some p => exact inferInstanceAs (Decidable (o = p.1 ∨ o = p.2))
  have : Decidable (∃ t ∈ held, (api.pair t).elim False (fun p => o = p.1 ∨ o = p.2)) := Multiset.decidableExistsMultiset
  exact inferInstance

/-- objects are used -/
def use (args os : List O) : CM W O Unit := fun fr =>
  if ∀ o ∈ os, Alive api args fr.held o then .ok ((), fr) else .error .dead

/-- `Py_DECREF` -/
def decref (o : O) : CM W O Unit := fun fr =>
  if o ∈ fr.held then .ok ((), { fr with held := fr.held.erase o }) else .error .released

/-- `Py_INCREF` -/
def incref (args : List O) (o : O) : CM W O Unit := fun fr =>
  if o = api.none ∨ Alive api args fr.held o then .ok ((), { fr with held := o ::ₘ fr.held }) else .error .dead

/-- a call that returns a new reference, or `NULL` with an exception -/
def newRef (call : W → W × Except PyErr O) : CM W O (Option O) := fun fr =>
  match call fr.world with
  | (w, .ok o) => .ok (some o, { fr with world := w, held := o ::ₘ fr.held })
  | (w, .error e) => .ok (none, { fr with world := w, exc := some e })

/-- `PyFloat_AsDouble`: -1.0 with an exception if it fails -/
def toDouble (o : O) : CM W O R := fun fr =>
  match api.asDouble fr.world o with
  | (w, .ok x) => .ok (x, { fr with world := w })
  | (w, .error e) => .ok (A.sub (A.sub A.one A.one) A.one, { fr with world := w, exc := some e })

/-- `PyErr_SetString` -/
def setError (e : PyErr) : CM W O Unit := fun fr => .ok ((), { fr with exc := some e })

/-- `PyObject_SetItem`: whether the status is not negative -/
def store (result d o : O) : CM W O Bool := fun fr =>
  match api.setItem fr.world result d o with
  | (w, .none) => .ok (true, { fr with world := w })
  | (w, .some e) => .ok (false, { fr with world := w, exc := some e })

/-- one statement after the other -/
def andThen {α β : Type} (x : CM W O α) (f : α → CM W O β) : CM W O β := fun fr =>
  match x fr with
  | .ok (a, fr) => f a fr
  | .error e => .error e

/-- return a value -/
def give {α : Type} (a : α) : CM W O α := fun fr => .ok (a, fr)

local infixr:55 " ⊳ " => andThen

/-- okascore.c:100-110: store the score and give back the references; whether the loop goes on -/
def finish (args : List O) (result d dAndF doclen : O) (score : Option O) : CM W O Bool :=
  (match score with
    | none => give false
    | some s => use api args [result, d, s] ⊳ fun _ => store api result d s) ⊳ fun status =>
  decref dAndF ⊳ fun _ =>
  decref doclen ⊳ fun _ =>
  (match score with
    | none => give ()
    | some s => decref s) ⊳ fun _ =>
  give status

/-- okascore.c:87-110: a pair `(d, f)` -/
def scorePair (args : List O) (result d2len : O) (idf meandoclen : R) (dAndF d fo : O) : CM W O Bool :=
  use api args [fo] ⊳ fun _ =>
  toDouble api A fo ⊳ fun f =>
  use api args [d2len, d] ⊳ fun _ =>
  newRef (fun w => api.getItem w d2len d) ⊳ fun doclen =>
  match doclen with
  | none => decref dAndF ⊳ fun _ => give false
  | some doclen =>
    use api args [doclen] ⊳ fun _ =>
    toDouble api A doclen ⊳ fun len =>
    newRef (fun w => api.fromDouble w (A.mul (cTf A cdiv P f len meandoclen) idf)) ⊳ fun score =>
    finish api args result d dAndF doclen score

/-- okascore.c:67-111, one iteration; whether the loop goes on (else `NULL` is returned) -/
def iteration (args : List O) (result d2fitems d2len : O) (idf meandoclen : R) (i : Nat) : CM W O Bool :=
  use api args [d2fitems] ⊳ fun _ =>
  newRef (fun w => api.seqItem w d2fitems i) ⊳ fun dAndF =>
  match dAndF with
  | none => give false
  | some x =>
    use api args [x] ⊳ fun _ =>
    match api.pair x with
    | none => setError .TypeError ⊳ fun _ => decref x ⊳ fun _ => give false
    | some p => scorePair api A cdiv P args result d2len idf meandoclen x p.1 p.2

/-- the loop of okascore.c:67-112 -/
def loop (args : List O) (result d2fitems d2len : O) (idf meandoclen : R) : List Nat → CM W O Bool
  | [] => give true
  | i :: is => iteration api A cdiv P args result d2fitems d2len idf meandoclen i ⊳ fun go =>
    if go then loop args result d2fitems d2len idf meandoclen is else give false

/-- conversion of a `Py_ssize_t` to a C `int` of 32 bits -/
def toCInt (n : Int) : Int := (n + 2147483648) % 4294967296 - 2147483648

/-- okascore.c:66 `n = PyObject_Length(d2fitems)`; -1 with an exception if it fails -/
def lengthOf (o : O) : CM W O Int := fun fr =>
  match api.length fr.world o with
  | (w, .ok n) => .ok (toCInt n, { fr with world := w })
  | (w, .error e) => .ok (-1, { fr with world := w, exc := some e })

/-- okascore.c:62-64 `PyArg_ParseTuple(args, "OOOdd:score", ...)`: three objects, which are borrowed, and two doubles -/
def parseArgs (args : List O) : CM W O (Option (O × O × O × R × R)) := fun fr =>
  match args with
  | [result, d2fitems, d2len, idf, mean] =>
    match api.asDouble fr.world idf with
    | (w, .error e) => .ok (none, { fr with world := w, exc := some e })
    | (w, .ok idf) =>
      match api.asDouble w mean with
      | (w, .error e) => .ok (none, { fr with world := w, exc := some e })
      | (w, .ok mean) => .ok (some (result, d2fitems, d2len, idf, mean), { fr with world := w })
  | _ => .ok (none, { fr with exc := some .TypeError })

/-- okascore.c:45-115 `score`: the object returned, or `NULL` -/
def score (args : List O) : CM W O (Option O) :=
  parseArgs api args ⊳ fun parsed =>
  match parsed with
  | none => give none
  | some (result, d2fitems, d2len, idf, mean) =>
    use api args [d2fitems] ⊳ fun _ =>
    lengthOf api d2fitems ⊳ fun n =>
    loop api A cdiv P args result d2fitems d2len idf mean (List.range n.toNat) ⊳ fun ok =>
    if ok then incref api args api.none ⊳ fun _ => give (some api.none) else give none

/-- what the caller of a C function sees -/
inductive Outcome (O : Type)
  | value (o : O)
  | raised (e : PyErr)
  /-- `SystemError`, raised by the interpreter -/
  | systemError
  deriving DecidableEq, Repr

/-- what the interpreter makes of the outcome of a C function: a value together with an exception, or neither, is `SystemError` -/
def outcome (r : Option O × Frame W O) : Outcome O :=
  match r.1, r.2.exc with
  | some o, none => .value o
  | none, some e => .raised e
  | _, _ => .systemError

/-- the function called without exception set, holding nothing -/
def call (args : List O) (w : W) : Except Misuse (Option O × Frame W O) :=
  score api A cdiv P args { world := w, held := 0, exc := none }

end

end Verif.OkaScore
