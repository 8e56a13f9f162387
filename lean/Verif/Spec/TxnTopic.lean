import Verif.Spec.Txn
import Verif.Spec.Topic

/-! Specification of concurrent transactions on a topic index. -/

set_option autoImplicit false

namespace Verif.Spec.Txn

open Verif.Topic (Op)

variable {F D E X : Type} [LinearOrder D]

/-- the call is `index_doc` or `unindex_doc`, of the document `d` -/
inductive DocCall : Op F D E X → D → Prop
  | index (d : D) (obj : X) : DocCall (.index d obj) d
  | unindex (d : D) : DocCall (.unindex d) d

/-- effect of a call on which filter holds which document; `exprs` are the expressions of the filters -/
def topicUpdate (eval : E → D → X → Except Unit Bool) (exprs : F → Option E) (m : F × D → Prop) : Op F D E X → F × D → Prop
  | .index d obj => fun p => m p ∨ (p.2 = d ∧ ∃ e, exprs p.1 = some e ∧ eval e d obj = .ok true)
  | .unindex d => fun p => m p ∧ p.2 ≠ d
  | _ => m

end Verif.Spec.Txn
