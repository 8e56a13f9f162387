import Verif.Model.Field
import Verif.Spec.Common

/-! Specification of a field index: a function from docids to their current value. -/

set_option autoImplicit false

namespace Verif.Spec.Field

open Verif.Field

variable {D V : Type} [LinearOrder D] [LinearOrder V]

/-- effect of a call on the assignment docid -> value -/
def update (m : D → Option V) : Op D V → D → Option V
  | .index d v => fun x => if x = d then some v else m x
  | .unindex d => fun x => if x = d then none else m x
  | .clear => fun _ => none

/-- the current assignment after a history: the most recent value not since removed -/
def current (ops : List (Op D V)) : D → Option V := ops.foldl update (fun _ => none)

/-- `v` is within the bounds, `none` meaning unbounded -/
def InRange (lo hi : Option V) (v : V) : Prop := (∀ l, lo = some l → l ≤ v) ∧ (∀ h, hi = some h → v ≤ h)

end Verif.Spec.Field

namespace Verif.Spec.Field

variable {D V : Type} [LinearOrder D] [PyValue V]

/-- `L` lists the docids among `docids` that have a value, each once, by increasing `(value, docid)` -/
def IsListing (m : D → Option V) (docids : List D) (L : List D) : Prop :=
  (∀ d, d ∈ L ↔ d ∈ docids ∧ (m d).isSome) ∧
  L.Pairwise (fun a b => ∀ va vb, m a = some va → m b = some vb → va < vb ∨ (va = vb ∧ a < b))

/-- the first `n` elements, all of them when the limit is `None` -/
def cut {α : Type} (limit : Option Int) (L : List α) : List α :=
  match limit with
  | none => L
  | some n => L.take n.toNat

/-- the values of the docids (`-1` standing in for a missing one, as `sort` does) are mutually orderable -/
def Sortable (m : D → Option V) (docids : List D) : Prop :=
  ∃ k : Nat, ∀ d ∈ docids, PyValue.kind ((m d).getD PyValue.negOne) = some k

/-- the values of the indexed docids are mutually orderable -/
def ValuesOrderable (m : D → Option V) (docids : List D) : Prop :=
  ∃ k : Nat, ∀ d ∈ docids, ∀ v, m d = some v → PyValue.kind v = some k

end Verif.Spec.Field
