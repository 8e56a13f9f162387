import Verif.Model.Topic
import Verif.Model.KeywordHeap

/-! # The topic index with object identity and with a database

Same code as `Verif.Model.Topic` (`src/zope/index/topic/index.py`, `topic/filter.py`), but the set of docids of a filter
(`_ids`) is a mutable object in a heap.

The second part adds a ZODB database.  `TopicIndex` is `Persistent`, `_filters` is a BTree, `_ids` an `IF.Set`: their changes
are noticed.  A filter is *not* persistent (topic/filter.py:24): it is pickled inside the bucket of `_filters`
that holds it, and assigning to its attributes (`_ids` in `clear`, topic/filter.py:42; `expr` in `setExpression`, line 60) does
not mark that bucket as changed. -/

set_option autoImplicit false

namespace Verif

/-- topic/filter.py:32-39, a filter; `ids` is the address of its set -/
structure HFilter (E : Type) where
  kind : FilterKind
  expr : E
  ids : Nat
  deriving DecidableEq

/-- topic/index.py:42-44 -/
structure HTopic (F D E : Type) [LinearOrder F] [LinearOrder D] where
  heap : Heap (DocSet D)
  filters : SMap F (HFilter E)

namespace HTopic

variable {F D E X : Type} [LinearOrder F] [LinearOrder D]

open Topic (Op QueryArg)

/-- a set object with given contents -/
def mkSet (ids : SSet D) : DocSet D := { isTree := false, ids := ids }

/-- topic/index.py:37-44 -/
def new : HTopic F D E := { heap := Heap.empty, filters := SMap.empty }

/-- topic/index.py:46-48 `addFilter`, of a filter with its own set object -/
def addFilter (s : HTopic F D E) (i : F) (f : Filter D E) : HTopic F D E :=
  { heap := s.heap.alloc (mkSet f.ids),
    filters := s.filters.set i { kind := f.kind, expr := f.expr, ids := s.heap.next } }

/-- topic/index.py:50-52 `delFilter` -/
def delFilter (s : HTopic F D E) (i : F) : HTopic F D E × Option PyErr :=
  if s.filters.contains i then ({ s with filters := s.filters.del i }, none) else (s, some .KeyError)

/-- topic/filter.py:41-42 `clear`: a new set object for filter `i` -/
def clearFilter (s : HTopic F D E) (p : F × HFilter E) : HTopic F D E :=
  { heap := s.heap.alloc (mkSet SMap.empty), filters := s.filters.set p.1 { p.2 with ids := s.heap.next } }

/-- topic/index.py:54-58 `clearFilters` -/
def clearFilters (s : HTopic F D E) : HTopic F D E := s.filters.items.foldl clearFilter s

/-- topic/index.py:63-64: the loop of `index_doc`; `insert` changes the set object (topic/filter.py:77) -/
def indexLoop (eval : E → D → X → Except Unit Bool) (d : D) (obj : X) (h : Heap (DocSet D)) :
    List (F × HFilter E) → Heap (DocSet D) × Option PyErr
  | [] => (h, none)
  | p :: ps =>
    match p.2.kind with
    | .base => (h, some .NotImplementedError)
    | .python =>
      match eval p.2.expr d obj with
      | .ok true => indexLoop eval d obj (h.put p.2.ids (mkSet (SSet.insert (h.setAt p.2.ids).ids d))) ps
      | _ => indexLoop eval d obj h ps

/-- topic/index.py:60-64 `index_doc` -/
def indexDoc (eval : E → D → X → Except Unit Bool) (s : HTopic F D E) (d : D) (obj : X) :
    HTopic F D E × Option PyErr :=
  let r := indexLoop eval d obj s.heap s.filters.items
  ({ s with heap := r.1 }, r.2)

/-- topic/filter.py:47-51: `remove` changes the set object of filter `p` -/
def unindexFilter (d : D) (h : Heap (DocSet D)) (p : F × HFilter E) : Heap (DocSet D) :=
  h.put p.2.ids (mkSet (SMap.del (h.setAt p.2.ids).ids d))

/-- topic/index.py:66-70 `unindex_doc` -/
def unindexDoc (s : HTopic F D E) (d : D) : HTopic F D E :=
  { s with heap := s.filters.items.foldl (unindexFilter d) s.heap }

/-- topic/index.py:80-84: the set objects of the filters asked for -/
def setsOf (s : HTopic F D E) (q : List F) : List Nat :=
  (s.filters.items.filter (fun p => decide (p.1 ∈ q))).map (fun p => p.2.ids)

/-- topic/index.py:72-104 `search` -/
def search (s : HTopic F D E) (query : QueryArg F) (op : Keyword.Operator) : HTopic F D E × Except PyErr Nat :=
  match query with
  | .str i => searchList s [i] op
  | .seq l => searchList s l op
  | .other => (s, .error .TypeError)
where
  /-- topic/index.py:80-104 -/
  searchList (s : HTopic F D E) (q : List F) (op : Keyword.Operator) : HTopic F D E × Except PyErr Nat :=
    let c := s.heap.combine (s.setsOf q) op
    ({ s with heap := c.1 }, c.2)

/-- effect of a call, and the exception it raises -/
def step (eval : E → D → X → Except Unit Bool) (s : HTopic F D E) : Op F D E X → HTopic F D E × Option PyErr
  | .addFilter i f => (s.addFilter i f, none)
  | .delFilter i => s.delFilter i
  | .clearFilters => (s.clearFilters, none)
  | .clear => ({ s with filters := SMap.empty }, none)
  | .index d obj => s.indexDoc eval d obj
  | .unindex d => (s.unindexDoc d, none)
  | .setExpression i e =>
    (match s.filters.get? i with
      | none => s
      | some f => { s with filters := s.filters.set i { f with expr := e } }, none)

/-- a history of calls on an index in state `s` -/
def runFrom (eval : E → D → X → Except Unit Bool) (s : HTopic F D E) (ops : List (Op F D E X)) : HTopic F D E :=
  ops.foldl (fun s op => (step eval s op).1) s

/-- a history of calls on a new index -/
def run (eval : E → D → X → Except Unit Bool) (ops : List (Op F D E X)) : HTopic F D E := runFrom eval new ops

/-- the caller changes the set object it was given, in any way -/
def mutate (s : HTopic F D E) (a : Nat) (set : DocSet D) : HTopic F D E := { s with heap := s.heap.put a set }

end HTopic

/-- a topic index in a ZODB connection: `live` is what the program sees, `saved` what the database holds, `touched` are
the filter ids whose bucket of `_filters` was marked as changed since the last commit -/
structure TopicDb (F D E : Type) [LinearOrder F] [LinearOrder D] where
  live : HTopic F D E
  saved : HTopic F D E
  touched : F → Bool

namespace TopicDb

variable {F D E X : Type} [LinearOrder F] [LinearOrder D]

open Topic (Op)

/-- a new index, committed -/
def new : TopicDb F D E := { live := HTopic.new, saved := HTopic.new, touched := fun _ => false }

/-- the filter ids a call marks as changed: `_filters[id] = f` and `del _filters[id]` mark the bucket of `id`
(topic/index.py:48, 52), `clear` replaces the whole BTree (line 44); changes inside a filter mark nothing -/
def touches : Op F D E X → F → Bool
  | .addFilter i _ => fun j => decide (j = i)
  | .delFilter i => fun j => decide (j = i)
  | .clear => fun _ => true
  | _ => fun _ => false

/-- a step of a program that uses the index through a connection -/
inductive Step (F D E X : Type) [LinearOrder D]
  | call (op : Op F D E X)
  | commit (neighbours : F → Bool)   -- the other filter ids stored in the buckets that are written
  | reload                           -- forget the objects in memory and read them again

/-- effect of a step.  A commit writes the entries of `_filters` that are touched, and their neighbours in the same
bucket, as they are now; it writes every changed set object.  (All set objects are copied: an unchanged one is in the
database already, and one that is reachable only from an entry that is not written is never read.)  New objects get new
addresses also after a reload. -/
def step (eval : E → D → X → Except Unit Bool) (t : TopicDb F D E) : Step F D E X → TopicDb F D E
  | .call op => { t with live := (t.live.step eval op).1, touched := fun j => t.touched j || touches op j }
  | .commit neighbours =>
    let written : F → Bool := fun j => t.touched j || neighbours j
    { t with
      saved := { heap := t.live.heap,
                 filters := SMap.build (t.live.filters.keys ++ t.saved.filters.keys)
                   (fun j => if written j then t.live.filters.get? j else t.saved.filters.get? j) }
      touched := fun _ => false }
  | .reload =>
    { t with live := { heap := { cells := t.saved.heap.cells, next := t.live.heap.next }, filters := t.saved.filters }
             touched := fun _ => false }

/-- a program run -/
def run (eval : E → D → X → Except Unit Bool) (steps : List (Step F D E X)) : TopicDb F D E :=
  steps.foldl (step eval) new

end TopicDb
end Verif
