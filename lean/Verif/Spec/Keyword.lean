import Verif.Model.Keyword
import Verif.Spec.Common

/-! Specification of a keyword index: a function from docids to their current keywords. -/

set_option autoImplicit false

namespace Verif.Spec.Keyword

open Verif.Keyword

variable {D W : Type}

/-- effect of a call on the assignment docid -> keywords; `[]` means the document is not indexed -/
def update [DecidableEq D] (normalize : List W → List W) (m : D → List W) : Op D W → D → List W
  | .index _ .str => m
  | .index d (.seq truthy items) => fun x => if x = d then (if truthy then normalize items else []) else m x
  | .unindex d => fun x => if x = d then [] else m x
  | .clear => fun _ => []
  | .optimize => m
  | .setThreshold _ => m

/-- the keywords each document has after a history -/
def current [DecidableEq D] (normalize : List W → List W) (ops : List (Op D W)) : D → List W :=
  ops.foldl (update normalize) (fun _ => [])

/-- the words a query asks for, before normalization -/
def words : QueryArg W → List W
  | .str w => [w]
  | .seq l => l

/-- every sequence passed to `index_doc` that is not empty in the sense of `bool(seq)` holds at least one keyword
after normalization (true of lists and tuples with the two `normalize` methods of the package) -/
def Plain (normalize : List W → List W) (ops : List (Op D W)) : Prop :=
  ∀ d items, Op.index d (.seq true items) ∈ ops → normalize items ≠ []

end Verif.Spec.Keyword
