import Verif.Model.SetOps
import Mathlib.Algebra.Ring.Defs
import Mathlib.Algebra.BigOperators.Group.List.Basic

/-! Specification vocabulary for C28-C30. -/

set_option autoImplicit false

namespace Verif.Spec

variable {K R : Type} [LinearOrder K]

/-- exact arithmetic: the operations of a semiring -/
def exact (R : Type) [Semiring R] [DecidableEq R] : WArith R where
  zero := 0
  one := 1
  add := (· + ·)
  mul := (· * ·)
  isOne := fun w => decide (w = 1)

/-- what the map `p.1` with weight `p.2` contributes to the score of `k` -/
def contribution [Semiring R] (k : K) (p : SMap K R × R) : R :=
  match p.1.get? k with
  | some v => v * p.2
  | none => 0

/-- the entries of `L` whose map is not `None` -/
def presentMaps (L : List (Option (SMap K R) × R)) : List (SMap K R × R) :=
  L.filterMap (fun p => p.1.map (fun x => (x, p.2)))

/-- `k` is a key of some map of `L` -/
def InSome (k : K) (L : List (SMap K R × R)) : Prop := ∃ p ∈ L, k ∈ p.1.keys

/-- `L` is not empty and `k` is a key of every map of `L` -/
def InEvery (k : K) (L : List (SMap K R × R)) : Prop := L ≠ [] ∧ ∀ p ∈ L, k ∈ p.1.keys

end Verif.Spec
