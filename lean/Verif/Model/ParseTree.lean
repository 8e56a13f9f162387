import Verif.Model.SetOps
import Verif.Model.QueryParser

/-! # Model of `src/zope/index/text/parsetree.py`: terms and execution of parse trees -/

set_option autoImplicit false

namespace Verif

open SetOps

variable {D R : Type} [LinearOrder D]

/-- what `executeQuery` uses of an index: `search`, `search_phrase`, `search_glob` (text/baseindex.py:147-216).  A result `none`
stands for Python's `None`. -/
structure Searcher (D R : Type) [LinearOrder D] where
  search : Word → Except PyErr (Option (SMap D R))
  searchPhrase : List Word → Except PyErr (Option (SMap D R))
  searchGlob : Word → Except PyErr (Option (SMap D R))

/-- `family.IF.difference(x, y)` (BTrees library): the items of `x` whose key is not in `y` -/
def SetOps.difference (x y : SMap D R) : SMap D R := x.filter (fun p => !y.contains p.1)

namespace Node

mutual

/-- parsetree.py:46-50, 61-62, 110-111 `terms`; an atom or glob yields a string, a phrase a list of words -/
def terms : Node → List TextArg
  | .atom w => [.str w]
  | .phrase ws => [.list ws]
  | .glob w => [.str w]
  | .not _ => []
  | .and l => termsAll l
  | .or l => termsAll l

/-- parsetree.py:47-49, the loop -/
def termsAll : List Node → List TextArg
  | [] => []
  | n :: rest => n.terms ++ termsAll rest

end

variable (A : WArith R) (ix : Searcher D R)

mutual

/-- parsetree.py:65-66 (NOT), 73-95 (AND), 102-113 (OR), 118-119 (ATOM), 126-127 (PHRASE), 134-135 (GLOB) `executeQuery` -/
def execute : Node → Except PyErr (Option (SMap D R))
  | .atom w => ix.search w
  | .phrase ws => ix.searchPhrase ws
  | .glob w => ix.searchGlob w
  | .not _ => .error .NotQueryError
  | .and l => do
    let r ← executeAnd l
    let set ← massIntersection A (r.1.map (fun x => (some x, A.one)))
    if r.2.isEmpty then return some set
    else
      let notset ← massUnion A (r.2.map (fun x => (x, A.one)))
      return some (difference set notset)
  | .or l => do
    let w ← executeOr l
    let set ← massUnion A (w.map (fun x => (x, A.one)))
    return some set

/-- parsetree.py:76-90, the loop of AND: `L` and `Nots` (without the constant weights 1) -/
def executeAnd : List Node → Except PyErr (List (SMap D R) × List (SMap D R))
  | [] => .ok ([], [])
  | .not m :: rest => do
    let r ← m.execute
    let ms ← executeAnd rest
    return (ms.1, r.toList ++ ms.2)
  | n :: rest => do
    let r ← n.execute
    let ms ← executeAnd rest
    return (r.toList ++ ms.1, ms.2)

/-- parsetree.py:104-111, the loop of OR -/
def executeOr : List Node → Except PyErr (List (SMap D R))
  | [] => .ok []
  | n :: rest => do
    let r ← n.execute
    let ms ← executeOr rest
    return r.toList ++ ms

end

end Node
end Verif
