import Verif.Spec.Serial
import Verif.Model.Catalog

/-! Specification of transactions of a program that keeps two indexes. -/

set_option autoImplicit false

namespace Verif.Spec.Txn

/-- the calls of a transaction to one of the indexes -/
def part {O O' : Type} (f : O → O') (t : Verif.Txn O) : Verif.Txn O' := { t with ops := t.ops.map f }

/-- the document a call is about -/
def catNames {D V : Type} : CatOp D V → D → Prop
  | .index d _ _ _, x => x = d
  | .unindex d, x => x = d

end Verif.Spec.Txn
