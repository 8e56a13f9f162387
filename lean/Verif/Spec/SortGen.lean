import Verif.Model.SortGen
import Verif.Spec.Field
import Verif.Spec.Common

/-! Specification of a `sort()` generator that is consumed while the index changes. -/

set_option autoImplicit false

namespace Verif.Spec.Field

open Verif.Field (Op Event Out SortArgs)

variable {D V : Type} [LinearOrder D] [PyValue V]

/-- the `i`-th `next()` of a generator over the list `r`; an exception comes first, and ends it -/
def expected (r : Except PyErr (List D)) (i : Nat) : Out D :=
  match r with
  | .error e => if i = 0 then .raised e else .stop
  | .ok l =>
    match l[i]? with
    | some d => .value d
    | none => .stop

/-- the calls that change the index -/
def calls : List (Event D V) → List (Op D V)
  | [] => []
  | .call op :: es => op :: calls es
  | .next _ :: es => calls es

/-- the number of calls of `next()` -/
def nexts : List (Event D V) → Nat
  | [] => 0
  | .call _ :: es => nexts es
  | .next _ :: es => nexts es + 1

/-- the docids that `next()` returned -/
def yields : List (List (Op D V) × Out D) → List D
  | [] => []
  | (_, .value d) :: t => d :: yields t
  | (_, .stop) :: t => yields t
  | (_, .raised _) :: t => yields t

/-- the generator has ended -/
def Ended (t : List (List (Op D V) × Out D)) : Prop := ∃ h, (h, Out.stop) ∈ t

/-- the value of `d` stays the same -/
def Unchanged (hist : List (Op D V)) (es : List (Event D V)) (d : D) : Prop :=
  ∀ ops, ops <+: calls es → current (hist ++ ops) d = current hist d

open Classical in
/-- the values of the documents that stay the same -/
noncomputable def steady (hist : List (Op D V)) (es : List (Event D V)) : D → Option V :=
  fun d => if Unchanged hist es d then current hist d else none

/-- the set of values in the index stays the same -/
def SameValues (hist : List (Op D V)) (es : List (Event D V)) : Prop :=
  ∀ ops, ops <+: calls es → ∀ v, (∃ d, current (hist ++ ops) d = some v) ↔ (∃ d, current hist d = some v)

/-- `sort` works with the `limit` best docids: sorting.py:59, or an attribute set by tests -/
def PicksBest (a : SortArgs D) : Prop :=
  a.useNbest = true ∨ ∃ n k, a.limit = some n ∧ CountIs (fun d => d ∈ a.docids) k ∧ n * 4 < k

/-- `sort` goes through all the values of the index: sorting.py:58 and 107, or an attribute set by tests -/
def WalksIndex (m : D → Option V) (a : SortArgs D) : Prop :=
  a.reverse = false ∧ (a.useLazy = true ∨ ∃ k total, CountIs (fun d => d ∈ a.docids) k ∧ CountIs (fun d => (m d).isSome) total ∧
    (total : Int) * (k + 100) < k * 100)

/-- `L` lists the docids among `docids` that have a value, each once, by decreasing value -/
def IsDescending (m : D → Option V) (docids : List D) (L : List D) : Prop :=
  L.Nodup ∧ (∀ d, d ∈ L ↔ d ∈ docids ∧ (m d).isSome) ∧
  L.Pairwise (fun a b => ∀ va vb, m a = some va → m b = some vb → vb ≤ va)

end Verif.Spec.Field
