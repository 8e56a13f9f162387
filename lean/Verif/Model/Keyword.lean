import Verif.Model.Base
import Mathlib.Data.List.Sort

/-! # Model of `src/zope/index/keyword/index.py`

`D` is the type of document ids, `W` the type of keywords.  `normalize` (keyword/index.py:72-79), which
subclasses may override, is a parameter. -/

set_option autoImplicit false

namespace Verif

/-- a set of docids, stored as an `IF.Set` or as an `IF.TreeSet` -/
structure DocSet (D : Type) [LinearOrder D] where
  isTree : Bool
  ids : SSet D

/-- keyword/index.py:42 and 49-59, the attributes of `KeywordIndex` -/
structure Keyword (D W : Type) [LinearOrder D] [LinearOrder W] where
  fwd : SMap W (DocSet D)
  rev : SMap D (SSet W)
  numDocs : Int
  treeThreshold : Int

namespace Keyword

variable {D W : Type} [LinearOrder D] [LinearOrder W]

/-- keyword/index.py:44-59 `__init__`, with the class's `tree_threshold` -/
def new : Keyword D W := { fwd := SMap.empty, rev := SMap.empty, numDocs := 0, treeThreshold := 64 }

/-- keyword/index.py:49-59 `clear` (it does not touch `tree_threshold`) -/
def clear (s : Keyword D W) : Keyword D W :=
  { s with fwd := SMap.empty, rev := SMap.empty, numDocs := 0 }

/-- keyword/index.py:61-63 `documentCount` -/
def documentCount (s : Keyword D W) : Int := s.numDocs

/-- keyword/index.py:65-67 `wordCount` -/
def wordCount (s : Keyword D W) : Nat := s.fwd.len

/-- keyword/index.py:69-70 `has_doc` -/
def hasDoc (s : Keyword D W) (d : D) : Bool := s.rev.contains d

/-- keyword/index.py:107-110 and 121-123: remove the docid from the set of one word and drop the set when it
became empty; `none` is `KeyError` (no such word, or the docid is not in its set), which changes nothing -/
def removeWord (fwd : SMap W (DocSet D)) (d : D) (w : W) : Option (SMap W (DocSet D)) :=
  match fwd.get? w with
  | none => none
  | some set =>
    if set.ids.contains d then
      let ids := SMap.del set.ids d
      let fwd := fwd.set w { set with ids := ids }
      some (if ids.isEmpty then fwd.del w else fwd)
    else none

/-- the loops of keyword/index.py:106-110 and 120-123: the forward map reached, and whether `KeyError` stopped it -/
def removeWords (fwd : SMap W (DocSet D)) (d : D) : List W → SMap W (DocSet D) × Bool
  | [] => (fwd, false)
  | w :: ws =>
    match removeWord fwd d w with
    | none => (fwd, true)
    | some fwd => removeWords fwd d ws

/-- keyword/index.py:116-134 `unindex_doc` -/
def unindexDoc (s : Keyword D W) (d : D) : Keyword D W :=
  match s.rev.get? d with
  | none => s                                        -- KeyError, caught
  | some words =>
    let r := removeWords s.fwd d words.keys
    if r.2 then { s with fwd := r.1 }                -- KeyError, caught
    else { s with fwd := r.1, rev := s.rev.del d, numDocs := s.numDocs - 1 }

/-- keyword/index.py:145-152, one word of `_insert_forward` -/
def insertWord (threshold : Int) (d : D) (fwd : SMap W (DocSet D)) (w : W) : SMap W (DocSet D) :=
  let set : DocSet D := match fwd.get? w with
    | none => { isTree := false, ids := SMap.empty }
    | some set => set
  let set := { set with ids := SSet.insert set.ids d }
  if !set.isTree && decide ((set.ids.len : Int) ≥ threshold) then fwd.set w { isTree := true, ids := set.ids }
  else fwd.set w set

/-- keyword/index.py:136-152 `_insert_forward` -/
def insertForward (threshold : Int) (fwd : SMap W (DocSet D)) (d : D) (words : List W) : SMap W (DocSet D) :=
  words.foldl (insertWord threshold d) fwd

/-- keyword/index.py:154-158 `_insert_reverse` -/
def insertReverse (rev : SMap D (SSet W)) (d : D) (words : SSet W) : SMap D (SSet W) :=
  if words.isEmpty then rev else rev.set d words

/-- the `seq` argument of `index_doc`: a `str`, or an iterable with its truth value (`bool(seq)`; an
iterator is always truthy) and the items it yields -/
inductive SeqArg (W : Type)
  | str
  | seq (truthy : Bool) (items : List W)

/-- a Python list or tuple of keywords -/
def SeqArg.list (items : List W) : SeqArg W := .seq (!items.isEmpty) items

/-- keyword/index.py:81-114 `index_doc`: the state reached, and the exception that escaped, if any -/
def indexDoc (normalize : List W → List W) (s : Keyword D W) (d : D) (seq : SeqArg W) :
    Keyword D W × Option PyErr :=
  match seq with
  | .str => (s, some .TypeError)
  | .seq truthy items =>
    let oldKw := s.rev.get? d
    if !truthy then
      match oldKw with
      | none => (s, none)
      | some kw => if kw.isEmpty then (s, none) else (s.unindexDoc d, none)
    else
      let newKw := SSet.ofList (normalize items)
      match oldKw with
      | none =>
        ({ s with fwd := insertForward s.treeThreshold s.fwd d newKw.keys
                  rev := insertReverse s.rev d newKw
                  numDocs := s.numDocs + 1 }, none)
      | some oldKw =>
        let added := SSet.diff newKw oldKw
        let removed := SSet.diff oldKw newKw
        let r := removeWords s.fwd d removed.keys
        if r.2 then ({ s with fwd := r.1 }, some .KeyError)
        else
          ({ s with fwd := insertForward s.treeThreshold r.1 d added.keys
                    rev := insertReverse s.rev d newKw }, none)

/-- the `query` argument of `search` -/
inductive QueryArg (W : Type)
  | str (w : W)
  | seq (l : List W)

/-- the `operator` argument of `search` -/
inductive Operator
  | and | or | other
  deriving DecidableEq

/-- the loop of keyword/index.py:178-182; `rs = none` is Python's `None`, and `intersection(None, set)` is `set` -/
def interLoop (rs : Option (SSet D)) : List (SSet D) → Option (SSet D)
  | [] => rs
  | set :: rest =>
    let r := match rs with
      | none => set
      | some x => SSet.inter x set
    if r.isEmpty then some r else interLoop (some r) rest

/-- keyword/index.py:169 `self._fwd_index.get(word, self.family.IF.Set())` -/
def docidsOf (s : Keyword D W) (w : W) : SSet D :=
  match s.fwd.get? w with
  | none => SMap.empty
  | some set => set.ids

/-- keyword/index.py:160-189 `search` -/
def search (normalize : List W → List W) (s : Keyword D W) (query : QueryArg W) (op : Operator) :
    Except PyErr (SSet D) :=
  let query := match query with
    | .str w => [w]
    | .seq l => l
  let query := normalize query
  let sets := query.map s.docidsOf
  match op with
  | .or => finish (some (SSet.multiunion sets))
  | .and => finish (interLoop none (sets.insertionSort (fun a b => a.len ≤ b.len)))
  | .other => .error .TypeError
where
  /-- keyword/index.py:187-189: `if rs: return rs` else a new empty set -/
  finish (rs : Option (SSet D)) : Except PyErr (SSet D) :=
    match rs with
    | none => .ok SMap.empty
    | some rs => if rs.isEmpty then .ok SMap.empty else .ok rs

/-- the argument of `apply`: a dict with its `query` and `operator` entries, or anything else -/
inductive ApplyArg (W : Type)
  | plain (q : QueryArg W)
  | dict (query : Option (QueryArg W)) (operator : Option Operator)

/-- keyword/index.py:191-197 `apply`: the answer, and the argument as the caller sees it afterwards -/
def apply (normalize : List W → List W) (s : Keyword D W) (a : ApplyArg W) :
    Except PyErr (SSet D) × ApplyArg W :=
  match a with
  | .plain q => (s.search normalize q .and, a)
  | .dict query operator =>
    let op := match operator with
      | none => .and
      | some op => op
    match query with
    | none => (.error .KeyError, a)
    | some q => (s.search normalize q op, a)

/-- one word of keyword/index.py:210-218 -/
def optimizeSet (threshold : Int) (set : DocSet D) : DocSet D :=
  if (set.ids.len : Int) ≥ threshold then
    if !set.isTree then { isTree := true, ids := set.ids } else set
  else
    if set.isTree then { isTree := false, ids := set.ids } else set

/-- keyword/index.py:199-218 `optimize`: each entry is replaced by its converted set -/
def optimize (s : Keyword D W) : Keyword D W :=
  { s with fwd := s.fwd.mapVals (fun _ set => optimizeSet s.treeThreshold set) }

/-- keyword/index.py:224-228 `CaseInsensitiveKeywordIndex.normalize` -/
def normalizeLower (lower : W → W) (seq : List W) : List W := seq.map lower

/-- a call that changes the index (or an assignment to `tree_threshold`) -/
inductive Op (D W : Type)
  | index (d : D) (seq : SeqArg W)
  | unindex (d : D)
  | clear
  | optimize
  | setThreshold (n : Int)

/-- effect of a call, and the exception it raises -/
def step (normalize : List W → List W) (s : Keyword D W) : Op D W → Keyword D W × Option PyErr
  | .index d seq => s.indexDoc normalize d seq
  | .unindex d => (s.unindexDoc d, none)
  | .clear => (s.clear, none)
  | .optimize => (s.optimize, none)
  | .setThreshold n => ({ s with treeThreshold := n }, none)

/-- the index after a history of calls on a new one, exceptions being caught by the caller -/
def run (normalize : List W → List W) (ops : List (Op D W)) : Keyword D W :=
  ops.foldl (fun s op => (step normalize s op).1) new

end Keyword
end Verif
