import Verif.Model.Keyword

/-! # Model of `src/zope/index/topic/index.py` and `topic/filter.py`

`F` is the type of filter ids, `E` of expressions, `X` of indexed objects, `D` of docids.

`eval(self.expr)` is a parameter `eval : E → D → X → Except Unit Bool`: the truth value of the expression for the
local names `docid` and `context`, or an exception (of any class; also one raised by the truth test).  Expressions with side
effects on the index are not modelled.  Here a filter's set of docids is a value; object identity is added in
`Verif.Model.TopicHeap`. -/

set_option autoImplicit false

namespace Verif

/-- the class of a filter -/
inductive FilterKind
  | base      -- FilteredSetBase itself
  | python    -- PythonFilteredSet
  deriving DecidableEq

/-- topic/filter.py:32-39, the attributes of a filter (its `id` is the key it is stored under) -/
structure Filter (D E : Type) [LinearOrder D] where
  kind : FilterKind
  expr : E
  ids : SSet D

namespace Filter

variable {D E X : Type} [LinearOrder D]

/-- topic/filter.py:34-39 `__init__` -/
def new (kind : FilterKind) (expr : E) : Filter D E := { kind := kind, expr := expr, ids := SMap.empty }

/-- topic/filter.py:41-42 `clear` -/
def clear (f : Filter D E) : Filter D E := { f with ids := SMap.empty }

/-- topic/filter.py:44-45 and 74-79 `index_doc` -/
def indexDoc (eval : E → D → X → Except Unit Bool) (f : Filter D E) (d : D) (obj : X) : Filter D E × Option PyErr :=
  match f.kind with
  | .base => (f, some .NotImplementedError)
  | .python =>
    match eval f.expr d obj with
    | .error _ => (f, none)                               -- except BaseException: pass
    | .ok true => ({ f with ids := SSet.insert f.ids d }, none)
    | .ok false => (f, none)

/-- topic/filter.py:47-51 `unindex_doc` (`remove` of a missing docid raises `KeyError`, which is caught) -/
def unindexDoc (f : Filter D E) (d : D) : Filter D E := { f with ids := SMap.del f.ids d }

/-- topic/filter.py:59-60 `setExpression` -/
def setExpression (f : Filter D E) (expr : E) : Filter D E := { f with expr := expr }

/-- topic/filter.py:62-63 `getIds` -/
def getIds (f : Filter D E) : SSet D := f.ids

end Filter

/-- topic/index.py:42-44, the state of `TopicIndex` -/
structure Topic (F D E : Type) [LinearOrder F] [LinearOrder D] where
  filters : SMap F (Filter D E)

namespace Topic

variable {F D E X : Type} [LinearOrder F] [LinearOrder D]

/-- topic/index.py:37-44 `__init__` and `clear` -/
def new : Topic F D E := { filters := SMap.empty }

/-- topic/index.py:42-44 `clear` -/
def clear (_ : Topic F D E) : Topic F D E := { filters := SMap.empty }

/-- topic/index.py:46-48 `addFilter`, of a filter whose id is `i` -/
def addFilter (s : Topic F D E) (i : F) (f : Filter D E) : Topic F D E := { filters := s.filters.set i f }

/-- topic/index.py:50-52 `delFilter` -/
def delFilter (s : Topic F D E) (i : F) : Topic F D E × Option PyErr :=
  if s.filters.contains i then ({ filters := s.filters.del i }, none) else (s, some .KeyError)

/-- topic/index.py:54-58 `clearFilters` -/
def clearFilters (s : Topic F D E) : Topic F D E := { filters := s.filters.mapVals (fun _ f => f.clear) }

/-- topic/index.py:63-64: the loop of `index_doc` over the filters with the given ids, in order; an exception
leaves the remaining filters alone -/
def indexLoop (eval : E → D → X → Except Unit Bool) (d : D) (obj : X) (fs : SMap F (Filter D E)) :
    List F → SMap F (Filter D E) × Option PyErr
  | [] => (fs, none)
  | i :: is =>
    match fs.get? i with
    | none => indexLoop eval d obj fs is
    | some f =>
      match f.indexDoc eval d obj with
      | (f, some e) => (fs.set i f, some e)
      | (f, none) => indexLoop eval d obj (fs.set i f) is

/-- topic/index.py:60-64 `index_doc` -/
def indexDoc (eval : E → D → X → Except Unit Bool) (s : Topic F D E) (d : D) (obj : X) : Topic F D E × Option PyErr :=
  let r := indexLoop eval d obj s.filters s.filters.keys
  ({ filters := r.1 }, r.2)

/-- topic/index.py:66-70 `unindex_doc` -/
def unindexDoc (s : Topic F D E) (d : D) : Topic F D E :=
  { filters := s.filters.mapVals (fun _ f => f.unindexDoc d) }

/-- the `query` argument of `search` -/
inductive QueryArg (F : Type)
  | str (i : F)
  | seq (l : List F)        -- list or tuple
  | other                   -- anything else

/-- topic/index.py:72-104 `search`; the loop of lines 92-96 and the end of lines 101-104 are the same text as in
keyword/index.py -/
def search (s : Topic F D E) (query : QueryArg F) (op : Keyword.Operator) : Except PyErr (SSet D) :=
  match query with
  | .str i => searchList s [i] op
  | .seq l => searchList s l op
  | .other => .error .TypeError
where
  /-- topic/index.py:80-104 -/
  searchList (s : Topic F D E) (query : List F) (op : Keyword.Operator) : Except PyErr (SSet D) :=
    let sets := (s.filters.items.filter (fun p => decide (p.1 ∈ query))).map (fun p => p.2.getIds)
    match op with
    | .or => Keyword.search.finish (some (SSet.multiunion sets))
    | .and => Keyword.search.finish (Keyword.interLoop none (sets.insertionSort (fun a b => a.len ≤ b.len)))
    | .other => .error .TypeError

/-- the argument of `apply`: a dict with its `query` and `operator` entries, or anything else -/
inductive ApplyArg (F : Type)
  | plain (q : QueryArg F)
  | dict (query : Option (QueryArg F)) (operator : Option Keyword.Operator)

/-- topic/index.py:106-112 `apply`: the answer, and the argument as the caller sees it afterwards; line 110 pops
the operator before line 111 looks up `query` -/
def apply (s : Topic F D E) (a : ApplyArg F) : Except PyErr (SSet D) × ApplyArg F :=
  match a with
  | .plain q => (s.search q .and, a)
  | .dict query operator =>
    let op := match operator with
      | none => .and
      | some op => op
    let a := ApplyArg.dict query none
    match query with
    | none => (.error .KeyError, a)
    | some q => (s.search q op, a)

/-- a call that changes the index, or `setExpression` on a filter of it -/
inductive Op (F D E X : Type) [LinearOrder D]
  | addFilter (i : F) (f : Filter D E)
  | delFilter (i : F)
  | clearFilters
  | clear
  | index (d : D) (obj : X)
  | unindex (d : D)
  | setExpression (i : F) (expr : E)

/-- effect of a call, and the exception it raises -/
def step (eval : E → D → X → Except Unit Bool) (s : Topic F D E) : Op F D E X → Topic F D E × Option PyErr
  | .addFilter i f => (s.addFilter i f, none)
  | .delFilter i => s.delFilter i
  | .clearFilters => (s.clearFilters, none)
  | .clear => (s.clear, none)
  | .index d obj => s.indexDoc eval d obj
  | .unindex d => (s.unindexDoc d, none)
  | .setExpression i e =>
    (match s.filters.get? i with
      | none => s
      | some f => { filters := s.filters.set i (f.setExpression e) }, none)

/-- the index after a history of calls on a new one, exceptions being caught by the caller -/
def run (eval : E → D → X → Except Unit Bool) (ops : List (Op F D E X)) : Topic F D E :=
  ops.foldl (fun s op => (step eval s op).1) new

end Topic
end Verif
