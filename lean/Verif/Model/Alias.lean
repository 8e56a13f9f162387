import Verif.Model.TextIndex

/-! # Object identity of search results

`TextIndex.apply` divides the scores in the mapping it got from the search, in place.  If that mapping is one of the index's own
objects (a value of `_wordinfo`), the index changes.  Here every mapping carries the word id of the entry of `_wordinfo` it is, if
it is one.  Everything else is as in `Verif.Model.SetOps`, `ParseTree` and `TextIndex` (theorem `C66_same_results`). -/

set_option autoImplicit false

namespace Verif

open SetOps

variable {D R : Type} [LinearOrder D]

/-- a mapping object: its content, and the word id if it is the object `_wordinfo[wid]` -/
structure Obj (D R : Type) [LinearOrder D] where
  map : SMap D R
  own : Option Int

/-- an object made by the call -/
def Obj.fresh (m : SMap D R) : Obj D R := { map := m, own := none }

/-- forgetting the identity -/
def plain (p : Obj D R × R) : SMap D R × R := (p.1.map, p.2)

namespace SetOps

/-- setops.py:56-66 `_trivial`: with the weight 1 the argument itself is returned -/
def trivialObj (A : WArith R) (L : List (Obj D R × R)) : Except PyErr (Obj D R) :=
  match L with
  | [] => .ok (.fresh SMap.empty)
  | [(result, weight)] =>
    if !A.isOne weight then .ok (.fresh (wUnion A SMap.empty result.map A.zero weight)) else .ok result
  | _ => .error .AssertionError

/-- setops.py:22-35 `mass_weightedIntersection` (no `None` among the arguments); with two or more arguments the result is the bucket
made by the last `weightedIntersection` -/
def massIntersectionObj (A : WArith R) (L : List (Obj D R × R)) : Except PyErr (Obj D R) :=
  if L.length < 2 then trivialObj A L
  else (massIntersection A (L.map (fun p => (some p.1.map, p.2)))).map .fresh

/-- setops.py:46-53, the merge loop -/
def unionLoopObj (A : WArith R) : Nat → NBest (Obj D R × R) Nat → Except PyErr (Obj D R)
  | 0, _ => .error .AssertionError
  | fuel + 1, merge =>
    if merge.len > 1 then do
      let (xw, merge) ← merge.popSmallest
      let (yw, merge) ← merge.popSmallest
      let z : Obj D R := .fresh (wUnion A xw.1.1.map yw.1.1.map xw.1.2 yw.1.2)
      let merge ← merge.add (z, A.one) z.map.len
      unionLoopObj A fuel merge
    else do
      let (r, _) ← merge.popSmallest
      return r.1.1

/-- setops.py:44-45 -/
def fillStepObj (merge : NBest (Obj D R × R) Nat) (p : Obj D R × R) : Except PyErr (NBest (Obj D R × R) Nat) := merge.add p p.1.map.len

/-- setops.py:38-53 `mass_weightedUnion` -/
def massUnionObj (A : WArith R) (L : List (Obj D R × R)) : Except PyErr (Obj D R) :=
  if L.length < 2 then trivialObj A L
  else do
    let merge ← NBest.new (L.length : Int)
    let merge ← L.foldlM fillStepObj merge
    unionLoopObj A L.length merge

end SetOps

/-- the searches of an index -/
structure SearcherObj (D R : Type) [LinearOrder D] where
  search : Word → Except PyErr (Option (Obj D R))
  searchPhrase : List Word → Except PyErr (Option (Obj D R))
  searchGlob : Word → Except PyErr (Option (Obj D R))

namespace Node

variable (A : WArith R) (ix : SearcherObj D R)

mutual

/-- parsetree.py:65-66, 73-95, 102-113, 118-119, 126-127, 134-135 `executeQuery`; `difference` makes a new object -/
def executeObj : Node → Except PyErr (Option (Obj D R))
  | .atom w => ix.search w
  | .phrase ws => ix.searchPhrase ws
  | .glob w => ix.searchGlob w
  | .not _ => .error .NotQueryError
  | .and l => do
    let r ← executeAndObj l
    let set ← massIntersectionObj A (r.1.map (fun x => (x, A.one)))
    if r.2.isEmpty then return some set
    else
      let notset ← massUnionObj A (r.2.map (fun x => (x, A.one)))
      return some (.fresh (difference set.map notset.map))
  | .or l => do
    let w ← executeOrObj l
    let set ← massUnionObj A (w.map (fun x => (x, A.one)))
    return some set

/-- parsetree.py:76-90, the loop of AND -/
def executeAndObj : List Node → Except PyErr (List (Obj D R) × List (Obj D R))
  | [] => .ok ([], [])
  | .not m :: rest => do
    let r ← m.executeObj
    let ms ← executeAndObj rest
    return (ms.1, r.toList ++ ms.2)
  | n :: rest => do
    let r ← n.executeObj
    let ms ← executeAndObj rest
    return (r.toList ++ ms.1, ms.2)

/-- parsetree.py:104-111, the loop of OR -/
def executeOrObj : List Node → Except PyErr (List (Obj D R))
  | [] => .ok []
  | n :: rest => do
    let r ← n.executeObj
    let ms ← executeOrObj rest
    return r.toList ++ ms

end

end Node

namespace Text

variable (K : Kind D R) (owns : Ix D R → Int → Bool)

/-- okapiindex.py:295: OkapiIndex makes a new bucket for every word -/
def okapiOwns (_ : Ix D R) (_ : Int) : Bool := false

/-- cosineindex.py:75-79: CosineIndex copies dicts but passes on trees -/
def cosineOwns (s : Ix D R) (wid : Int) : Bool :=
  match s.wordinfo.get? wid with
  | none => false
  | some d2w => d2w.tree

/-- the object returned for a word -/
def wordObj (s : Ix D R) (wid : Int) (p : SMap D R × R) : Obj D R × R :=
  ({ map := p.1, own := if owns s wid then some wid else none }, p.2)

/-- okapiindex.py:271-301, cosineindex.py:66-80 `_search_wids` -/
def searchWidsObj (s : Ix D R) (wids : List Int) : Except PyErr (List (Obj D R × R)) := do
  let L ← K.searchWids s wids
  return List.zipWith (wordObj owns s) wids L

/-- baseindex.py:188-190, 194-195: from word ids to a result -/
def searchUnionObj (s : Ix D R) (wids : List Int) : Except PyErr (Obj D R) := do
  let L ← searchWidsObj K owns s (removeOov s wids)
  massUnionObj K.arith.toWArith L

/-- baseindex.py:185-190 `search` -/
def searchObj (pipeline : List Element) (lex : Lexicon) (s : Ix D R) (term : TextArg) : Except PyErr (Option (Obj D R)) := do
  let wids ← lex.termToWordIds pipeline term
  if wids.isEmpty then return none
  else
    let r ← searchUnionObj K owns s wids
    return some r

/-- baseindex.py:192-195 `search_glob` -/
def searchGlobObj (odd : Word → Except PyErr (Word → Bool)) (lex : Lexicon) (s : Ix D R) (pattern : Word) :
    Except PyErr (Obj D R) := do
  let wids ← lex.globToWordIds odd pattern
  searchUnionObj K owns s wids

/-- baseindex.py:197-213 `search_phrase` -/
def searchPhraseObj (pipeline : List Element) (lex : Lexicon) (s : Ix D R) (phrase : TextArg) : Except PyErr (Obj D R) := do
  let wids ← lex.termToWordIds pipeline phrase
  let cleaned := removeOov s wids
  if wids.length ≠ cleaned.length then return .fresh SMap.empty
  else
    let scores ← searchWidsObj K owns s wids
    let hits ← massIntersectionObj K.arith.toWArith scores
    if hits.map.isEmpty then return hits
    else
      let code ← WidCode.encode wids
      let r ← hits.map.items.foldlM (phraseLoop K s code) SMap.empty
      return .fresh r

/-- the searches of an index, as used by parse trees -/
def searcherObj (odd : Word → Except PyErr (Word → Bool)) (pipeline : List Element) (s : TI D R) : SearcherObj D R :=
  { search := fun w => searchObj K owns pipeline s.lex s.ix (.str w)
    searchPhrase := fun ws => (searchPhraseObj K owns pipeline s.lex s.ix (.list ws)).map some
    searchGlob := fun w => (searchGlobObj K owns odd s.lex s.ix w).map some }

/-- the index after the content of the object has become `m` -/
def writeObj (s : TI D R) (o : Obj D R) (m : SMap D R) : TI D R :=
  match o.own with
  | none => s
  | some wid =>
    match s.ix.wordinfo.get? wid with
    | none => s
    | some e => { s with ix := { s.ix with wordinfo := s.ix.wordinfo.set wid { e with map := m } } }

/-- textindex.py:73-91, after parsing: the result, and the index afterwards -/
def applyTreeObj (odd : Word → Except PyErr (Word → Bool)) (pipeline : List Element) (s : TI D R) (tree : Node) :
    Except PyErr (Option (SMap D R) × TI D R) := do
  let results ← tree.executeObj K.arith.toWArith (searcherObj K owns odd pipeline s)
  match results with
  | none => return (none, s)
  | some o =>
    if o.map.isEmpty then return (some o.map, s)
    else
      let qw ← queryWeight K pipeline s tree.terms
      let qw := if K.arith.isZero qw then K.arith.one else qw
      let qw := K.arith.mul qw K.arith.one
      let r ← o.map.items.foldlM (scaleStep K.arith qw) o.map
      return (some r, writeObj s o r)

/-- textindex.py:70-91 `apply`: the result, and the index afterwards -/
def applyObj (isSpace : Char → Bool) (upper : Word → Word) (odd : Word → Except PyErr (Word → Bool))
    (pipeline : List Element) (s : TI D R) (querytext : Word) : Except PyErr (Option (SMap D R) × TI D R) :=
  match QueryParser.parseQuery isSpace upper (Lexicon.parseTerms pipeline) querytext with
  | .error _ => .error .ParseError
  | .ok (tree, _) => applyTreeObj K owns odd pipeline s tree

end Text
end Verif
