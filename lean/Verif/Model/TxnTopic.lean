import Verif.Model.Txn
import Verif.Model.TopicHeap

/-! # Concurrent transactions on a topic index

Transactions that index and unindex documents of a topic index whose filters were registered before.  The `_ids` of the filters
(topic/filter.py:42) are `IF.Set` objects with their own conflict resolution (see `Verif.Model.Txn`). -/

set_option autoImplicit false

namespace Verif.HTopic

variable {F D E X : Type} [LinearOrder F] [LinearOrder D]

open Topic (Op)

/-- one of the calls raises an exception (topic/filter.py:44-45: a filter of the abstract class), which aborts the transaction -/
def raises (eval : E → D → X → Except Unit Bool) : HTopic F D E → List (Op F D E X) → Bool
  | _, [] => false
  | s, op :: ops => (step eval s op).2.isSome || raises eval (step eval s op).1 ops

/-- conflict resolution, object by object: the sets of the filters, and the BTree of the filters.  (Filters are compared by
content; `index_doc` and `unindex_doc` leave the BTree alone.) -/
def merge [DecidableEq E] (o c n : HTopic F D E) : Option (HTopic F D E) := do
  let heap ← mergeHeap mergeDocSet o.heap c.heap n.heap
  let filters ← mergeTree o.filters c.filters n.filters
  return { heap := heap, filters := filters }

/-- transactions on a topic index: topic/index.py:60-70 `index_doc` and `unindex_doc` create no database objects, so addresses do
not matter -/
def engine [DecidableEq E] (eval : E → D → X → Except Unit Bool) : Engine (HTopic F D E) (Op F D E X) where
  run next s ops := (runFrom eval s ops, next)
  merge := merge
  fails _ s ops := raises eval s ops

end Verif.HTopic
