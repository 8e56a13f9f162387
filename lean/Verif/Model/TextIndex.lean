import Verif.Model.WidCode
import Verif.Model.ParseTree

/-! # Model of `src/zope/index/text/baseindex.py`, `okapiindex.py`, `cosineindex.py`, `textindex.py` and of the loop of `okascore.c`

Numbers are elements of an arbitrary type `R` with operations `Arith R` and no laws: Python's integers and floats (and the mixed
operations on them), and the single precision values held in `IF` trees (`store`).  Division, logarithm and square root are
partial.

Not modelled: the upgrade paths for old pickles (`except AttributeError`/`TypeError` around `Length` objects), persistence, and
docids a tree of the family does not accept. -/

set_option autoImplicit false

namespace Verif

open SetOps

/-- the arithmetic of the text indexes -/
structure Arith (R : Type) extends WArith R where
  /-- a count, as a Python number -/
  ofNat : Nat → R
  ofInt : Int → R
  sub : R → R → R
  /-- division; `none` is `ZeroDivisionError` -/
  div : R → R → Option R
  /-- `math.log`; `none` is `ValueError` (math domain error) -/
  log : R → Option R
  /-- `math.sqrt`; `none` is `ValueError` (math domain error) -/
  sqrt : R → Option R
  /-- `x != y` -/
  neq : R → R → Bool
  /-- `x == 0` -/
  isZero : R → Bool
  /-- conversion to the single precision value kept in an `IF` tree or bucket -/
  store : R → R
  /-- `int(x)` -/
  toInt : R → Int

namespace Text

variable {D R : Type} [LinearOrder D]

/-- division as an expression that may raise -/
def pyDiv (A : Arith R) (x y : R) : Except PyErr R :=
  match A.div x y with
  | some z => .ok z
  | none => .error .ZeroDivisionError

/-- `math.log` as an expression that may raise -/
def pyLog (A : Arith R) (x : R) : Except PyErr R :=
  match A.log x with
  | some z => .ok z
  | none => .error .ValueError

/-- `math.sqrt` as an expression that may raise -/
def pySqrt (A : Arith R) (x : R) : Except PyErr R :=
  match A.sqrt x with
  | some z => .ok z
  | none => .error .ValueError

/-! ## Python dicts with word ids as keys: association lists in insertion order -/

/-- `d[k] = v` -/
def dset {V : Type} (k : Int) (v : V) : List (Int × V) → List (Int × V)
  | [] => [(k, v)]
  | (k', v') :: d => if k' = k then (k, v) :: d else (k', v') :: dset k v d

/-- `d.get(k)` -/
def dget? {V : Type} (k : Int) : List (Int × V) → Option V
  | [] => none
  | (k', v') :: d => if k' = k then some v' else dget? k d

/-- okapiindex.py:373-376, cosineindex.py:94-97: the counting loop -/
def countLoop (wids : List Int) : List (Int × Nat) :=
  wids.foldl (fun d wid => dset wid ((dget? wid d).getD 0 + 1) d) []

/-! ## State -/

/-- a value of `_wordinfo`: a dict, or an `IFBTree` -/
structure D2S (D R : Type) [LinearOrder D] where
  tree : Bool
  map : SMap D R

/-- baseindex.py:53-83: the attributes of an index (without the lexicon); `total` is `_totaldoclen` of okapiindex.py:237, which
CosineIndex does not have -/
structure Ix (D R : Type) [LinearOrder D] where
  wordinfo : SMap Int (D2S D R)
  docweight : SMap D R
  docwords : SMap D (List Nat)
  wordCount : Int
  documentCount : Int
  total : Int

/-- what the subclasses OkapiIndex and CosineIndex define -/
structure Kind (D R : Type) [LinearOrder D] where
  arith : Arith R
  /-- `_get_frequencies` -/
  freqs : List Int → Except PyErr (List (Int × R) × R)
  /-- whether the class keeps `_totaldoclen` -/
  hasTotal : Bool
  /-- `_search_wids` -/
  searchWids : Ix D R → List Int → Except PyErr (List (SMap D R × R))
  /-- `query_weight`, from the word ids of the terms on -/
  queryWeight : Ix D R → List Int → Except PyErr R

/-- baseindex.py:47-51 and okapiindex.py:223-237 `__init__` -/
def new : Ix D R :=
  { wordinfo := SMap.empty, docweight := SMap.empty, docwords := SMap.empty, wordCount := 0, documentCount := 0, total := 0 }

/-- baseindex.py:53-83 `clear`; OkapiIndex does not override it -/
def clear (s : Ix D R) : Ix D R :=
  { s with wordinfo := SMap.empty, docweight := SMap.empty, docwords := SMap.empty, wordCount := 0, documentCount := 0 }

/-- baseindex.py:97-99 `get_words` -/
def getWords (s : Ix D R) (docid : D) : Except PyErr (List Int) :=
  match s.docwords.get? docid with
  | none => .error .KeyError
  | some code => WidCode.decode code

/-- baseindex.py:168-169 `has_doc` -/
def hasDoc (s : Ix D R) (docid : D) : Bool := s.docwords.contains docid

/-! ## Indexing -/

section

variable (K : Kind D R)

/-- `doc2score[docid] = f` for a dict or a tree -/
def D2S.put (A : Arith R) (e : D2S D R) (docid : D) (f : R) : D2S D R :=
  { e with map := e.map.set docid (if e.tree then A.store f else f) }

/-- baseindex.py:273-276: conversion to a tree when the dict has `DICT_CUTOFF` (237: 10) entries -/
def D2S.grow (A : Arith R) (e : D2S D R) : D2S D R :=
  if !e.tree && e.map.len = 10 then { tree := true, map := e.map.mapVals (fun _ v => A.store v) } else e

/-- baseindex.py:239-280 `_add_wordinfo` -/
def addWordinfo (wid : Int) (f : R) (docid : D) (s : Ix D R) : Ix D R :=
  match s.wordinfo.get? wid with
  | none =>
    let doc2score : D2S D R := { tree := false, map := SMap.empty }
    { s with wordinfo := s.wordinfo.set wid (doc2score.put K.arith docid f), wordCount := s.wordCount + 1 }
  | some doc2score => { s with wordinfo := s.wordinfo.set wid ((doc2score.grow K.arith).put K.arith docid f) }

/-- baseindex.py:294-304, one iteration of `_mass_add_wordinfo`: the new `_wordinfo` and `new_word_count` -/
def massStep (docid : D) (st : SMap Int (D2S D R) × Int) (p : Int × R) : SMap Int (D2S D R) × Int :=
  match st.1.get? p.1 with
  | none =>
    let doc2score : D2S D R := { tree := false, map := SMap.empty }
    (st.1.set p.1 (doc2score.put K.arith docid p.2), st.2 + 1)
  | some doc2score => (st.1.set p.1 ((doc2score.grow K.arith).put K.arith docid p.2), st.2)

/-- baseindex.py:290-308 `_mass_add_wordinfo` -/
def massAdd (wid2weight : List (Int × R)) (docid : D) (s : Ix D R) : Ix D R :=
  let r := wid2weight.foldl (massStep K docid) (s.wordinfo, 0)
  { s with wordinfo := r.1, wordCount := s.wordCount + r.2 }

/-- baseindex.py:310-321 `_del_wordinfo` -/
def delWordinfo (wid : Int) (docid : D) (s : Ix D R) : Except PyErr (Ix D R) :=
  match s.wordinfo.get? wid with
  | none => .error .KeyError
  | some doc2score =>
    if doc2score.map.contains docid then
      let doc2score := { doc2score with map := doc2score.map.del docid }
      if doc2score.map.isEmpty then
        .ok { s with wordinfo := s.wordinfo.del wid, wordCount := s.wordCount - 1 }
      else .ok { s with wordinfo := s.wordinfo.set wid doc2score }
    else .error .KeyError

/-- okapiindex.py:255-262 `_change_doc_len` (nothing for the cosine index) -/
def changeDocLen (delta : Int) (s : Ix D R) : Ix D R :=
  if K.hasTotal then { s with total := s.total + delta } else s

/-- okapiindex.py:246, 252: `self._change_doc_len(-self._docweight[docid])`; `int` cuts towards zero, so the sign may be taken
before or after it -/
def subDocLen (docid : D) (s : Ix D R) : Except PyErr (Ix D R) :=
  if K.hasTotal then
    match s.docweight.get? docid with
    | none => .error .KeyError
    | some w => .ok (changeDocLen K (-(K.arith.toInt w)) s)
  else .ok s

/-- `wid2w[wid]` -/
def pick (d : List (Int × R)) (wid : Int) : Except PyErr R :=
  match dget? wid d with
  | none => .error .KeyError
  | some v => .ok v

/-- baseindex.py:140-142, the loop over the words only in the new text -/
def addStep (newW : List (Int × R)) (docid : D) (s : Ix D R) (wid : Int) : Except PyErr (Ix D R) := do
  let f ← pick newW wid
  return addWordinfo K wid f docid s

/-- baseindex.py:143-151, the loop over the words in both texts -/
def bothStep (oldW newW : List (Int × R)) (docid : D) (s : Ix D R) (wid : Int) : Except PyErr (Ix D R) := do
  let newscore ← pick newW wid
  let oldscore ← pick oldW wid
  if K.arith.neq oldscore newscore then return addWordinfo K wid newscore docid s else return s

/-- baseindex.py:121-155 `_reindex_doc`, with okapiindex.py:245-247; `wids` are the word ids of the new text.  The lexicon call
comes after reading the old words, which do not depend on it. -/
def reindexDoc (docid : D) (wids : List Int) (s : Ix D R) : Except PyErr (Ix D R) := do
  let s ← subDocLen K docid s
  let oldWids ← getWords s docid
  let old ← K.freqs oldWids
  let new ← K.freqs wids
  let oldSet := SSet.ofList (old.1.map (·.1))
  let newSet := SSet.ofList (new.1.map (·.1))
  let both := oldSet.inter newSet
  let s ← (oldSet.diff both).toList.foldlM (fun s wid => delWordinfo wid docid s) s
  let s ← (newSet.diff both).toList.foldlM (addStep K new.1 docid) s
  let s ← both.toList.foldlM (bothStep K old.1 new.1 docid) s
  let code ← WidCode.encode wids
  return { s with docweight := s.docweight.set docid (K.arith.store new.2), docwords := s.docwords.set docid code }

/-- baseindex.py:102-119 `index_doc` with okapiindex.py:240-243, from the word ids on -/
def indexDoc (docid : D) (wids : List Int) (s : Ix D R) : Except PyErr (Ix D R) :=
  if s.docwords.contains docid then do
    let s ← reindexDoc K docid wids s
    return changeDocLen K wids.length s
  else do
    let r ← K.freqs wids
    let s := massAdd K r.1 docid s
    let s := { s with docweight := s.docweight.set docid (K.arith.store r.2) }
    let code ← WidCode.encode wids
    let s := { s with docwords := s.docwords.set docid code, documentCount := s.documentCount + 1 }
    return changeDocLen K wids.length s

/-- baseindex.py:172-183 `unindex_doc` with okapiindex.py:249-253 -/
def unindexDoc (docid : D) (s : Ix D R) : Except PyErr (Ix D R) :=
  if s.docwords.contains docid then do
    let s ← subDocLen K docid s
    let wids ← getWords s docid
    let s ← (SSet.ofList wids).toList.foldlM (fun s wid => delWordinfo wid docid s) s
    return { s with docwords := s.docwords.del docid, docweight := s.docweight.del docid,
                    documentCount := s.documentCount - 1 }
  else .ok s

/-! ## Searching -/

/-- baseindex.py:215-216 `_remove_oov_wids` -/
def removeOov (s : Ix D R) (wids : List Int) : List Int := wids.filter (fun w => s.wordinfo.contains w)

/-- baseindex.py:188-190, 194-195: from word ids to a result -/
def searchUnion (s : Ix D R) (wids : List Int) : Except PyErr (SMap D R) := do
  let L ← K.searchWids s (removeOov s wids)
  massUnion K.arith.toWArith L

/-- baseindex.py:185-190 `search` -/
def search (pipeline : List Element) (lex : Lexicon) (s : Ix D R) (term : TextArg) : Except PyErr (Option (SMap D R)) := do
  let wids ← lex.termToWordIds pipeline term
  if wids.isEmpty then return none
  else
    let r ← searchUnion K s wids
    return some r

/-- baseindex.py:192-195 `search_glob` -/
def searchGlob (odd : Word → Except PyErr (Word → Bool)) (lex : Lexicon) (s : Ix D R) (pattern : Word) :
    Except PyErr (SMap D R) := do
  let wids ← lex.globToWordIds odd pattern
  searchUnion K s wids

/-- baseindex.py:208-212, the loop over the hits -/
def phraseLoop (s : Ix D R) (code : List Nat) (result : SMap D R) (p : D × R) : Except PyErr (SMap D R) :=
  match s.docwords.get? p.1 with
  | none => .error .KeyError
  | some docwords => if 0 ≤ WidCode.pyFind docwords code then .ok (result.set p.1 (K.arith.store p.2)) else .ok result

/-- baseindex.py:197-213 `search_phrase` -/
def searchPhrase (pipeline : List Element) (lex : Lexicon) (s : Ix D R) (phrase : TextArg) : Except PyErr (SMap D R) := do
  let wids ← lex.termToWordIds pipeline phrase
  let cleaned := removeOov s wids
  if wids.length ≠ cleaned.length then return SMap.empty
  else
    let scores ← K.searchWids s wids
    let hits ← massIntersection K.arith.toWArith (scores.map (fun p => (some p.1, p.2)))
    if hits.isEmpty then return hits
    else
      let code ← WidCode.encode wids
      hits.items.foldlM (phraseLoop K s code) SMap.empty

end

/-- baseindex.py:324-331 `inverse_doc_frequency` -/
def idf (A : Arith R) (termCount : Nat) (numItems : R) : Except PyErr R := do
  let q ← pyDiv A numItems (A.ofNat termCount)
  pyLog A (A.add A.one q)

/-! ## OkapiIndex -/

/-- okapiindex.py:217-221: the free parameters of the ranking -/
structure Bm25 (R : Type) where
  k1 : R
  b : R

/-- okapiindex.py:372-377 `_get_frequencies` -/
def okapiFreqs (A : Arith R) (wids : List Int) : Except PyErr (List (Int × R) × R) :=
  .ok ((countLoop wids).map (fun p => (p.1, A.ofNat p.2)), A.ofNat wids.length)

/-- okapiindex.py:297-298: the term frequency weight -/
def okapiTf (A : Arith R) (P : Bm25 R) (f doclen meandoclen : R) : Except PyErr R := do
  let q ← pyDiv A (A.mul P.b doclen) meandoclen
  let lenweight := A.add (A.sub A.one P.b) q
  pyDiv A (A.mul f (A.add P.k1 A.one)) (A.add f (A.mul P.k1 lenweight))

/-- okapiindex.py:296-299, one iteration of the scoring loop -/
def okapiScoreStep (A : Arith R) (P : Bm25 R) (docweight : SMap D R) (idf meandoclen : R) (result : SMap D R) (p : D × R) :
    Except PyErr (SMap D R) :=
  match docweight.get? p.1 with
  | none => .error .KeyError
  | some doclen => do
    let tf ← okapiTf A P p.2 doclen meandoclen
    return result.set p.1 (A.store (A.mul tf idf))

/-- okapiindex.py:293-300, the body of the loop over the words; items of a dict are taken in key order (the result does not
depend on it) -/
def okapiWord (A : Arith R) (P : Bm25 R) (s : Ix D R) (N meandoclen : R) (t : Int) : Except PyErr (SMap D R × R) :=
  match s.wordinfo.get? t with
  | none => .error .KeyError
  | some d2f => do
    let idf ← idf A d2f.map.len N
    let result ← d2f.map.items.foldlM (okapiScoreStep A P s.docweight idf meandoclen) SMap.empty
    return (result, A.one)

/-- okapiindex.py:271-301 `_python_search_wids` -/
def okapiSearchWids (A : Arith R) (P : Bm25 R) (s : Ix D R) (wids : List Int) : Except PyErr (List (SMap D R × R)) :=
  if wids.isEmpty then .ok []
  else do
    let N := A.ofInt s.documentCount
    let meandoclen ← pyDiv A (A.ofInt s.total) N
    wids.mapM (okapiWord A P s N meandoclen)

/-- okapiindex.py:369: one term of the sum -/
def okapiWeightStep (A : Arith R) (s : Ix D R) (N tfmax sum : R) (t : Int) : Except PyErr R :=
  match s.wordinfo.get? t with
  | none => .error .KeyError
  | some d2f => do
    let idf ← idf A d2f.map.len N
    return A.add sum (A.mul idf tfmax)

/-- okapiindex.py:364-370: `query_weight` after collecting the word ids -/
def okapiQueryWeight (A : Arith R) (P : Bm25 R) (s : Ix D R) (wids : List Int) : Except PyErr R :=
  (removeOov s wids).foldlM (okapiWeightStep A s (A.ofNat s.docweight.len) (A.add A.one P.k1)) A.zero

/-- okapiindex.py:212-377, with the scoring loop in Python -/
def okapi (A : Arith R) (P : Bm25 R) : Kind D R :=
  { arith := A, freqs := okapiFreqs A, hasTotal := true, searchWids := okapiSearchWids A P, queryWeight := okapiQueryWeight A P }

/-! ### the scoring loop in C (okascore.c) -/

/-- okascore.c:95-97: division of C doubles does not raise -/
def cTf (A : Arith R) (cdiv : R → R → R) (P : Bm25 R) (f doclen meandoclen : R) : R :=
  let lenweight := A.add (A.sub A.one P.b) (cdiv (A.mul P.b doclen) meandoclen)
  cdiv (A.mul f (A.add P.k1 A.one)) (A.add f (A.mul P.k1 lenweight))

/-- okascore.c:67-108, one iteration -/
def cScoreStep (A : Arith R) (cdiv : R → R → R) (P : Bm25 R) (docweight : SMap D R) (idf meandoclen : R) (result : SMap D R)
    (p : D × R) : Except PyErr (SMap D R) :=
  match docweight.get? p.1 with
  | none => .error .KeyError
  | some doclen => .ok (result.set p.1 (A.store (A.mul (cTf A cdiv P p.2 doclen meandoclen) idf)))

/-- okapiindex.py:343-349, with okascore.c:45-112 -/
def cWord (A : Arith R) (cdiv : R → R → R) (P : Bm25 R) (s : Ix D R) (N meandoclen : R) (t : Int) : Except PyErr (SMap D R × R) :=
  match s.wordinfo.get? t with
  | none => .error .KeyError
  | some d2f => do
    let idf ← idf A d2f.map.len N
    let result ← d2f.map.items.foldlM (cScoreStep A cdiv P s.docweight idf meandoclen) SMap.empty
    return (result, A.one)

/-- okapiindex.py:322-350 `_c_search_wids` -/
def cSearchWids (A : Arith R) (cdiv : R → R → R) (P : Bm25 R) (s : Ix D R) (wids : List Int) :
    Except PyErr (List (SMap D R × R)) :=
  if wids.isEmpty then .ok []
  else do
    let N := A.ofInt s.documentCount
    let meandoclen ← pyDiv A (A.ofInt s.total) N
    wids.mapM (cWord A cdiv P s N meandoclen)

/-- okapiindex.py:352: OkapiIndex with the scoring loop in C; okascore.c:38-39: `P` are the parameters compiled in -/
def okapiC (A : Arith R) (cdiv : R → R → R) (P : Bm25 R) : Kind D R := { okapi A P with searchWids := cSearchWids A cdiv P }

/-! ## CosineIndex -/

/-- cosineindex.py:112-115 `doc_term_weight` -/
def docTermWeight (A : Arith R) (count : Nat) : Except PyErr R := do
  let l ← pyLog A (A.ofNat count)
  return A.add A.one l

/-- cosineindex.py:98-102: the loop that computes the weights and the sum of their squares -/
def cosineWeights (A : Arith R) : List (Int × Nat) → R → Except PyErr (List (Int × R) × R)
  | [], sum => .ok ([], sum)
  | (wid, count) :: d, sum => do
    let w ← docTermWeight A count
    let r ← cosineWeights A d (A.add sum (A.mul w w))
    return ((wid, w) :: r.1, r.2)

/-- cosineindex.py:93-109 `_get_frequencies` -/
def cosineFreqs (A : Arith R) (wids : List Int) : Except PyErr (List (Int × R) × R) := do
  let r ← cosineWeights A (countLoop wids) A.zero
  let W ← pySqrt A r.2
  let d ← r.1.mapM (fun p => do
    let q ← pyDiv A p.2 W
    return (p.1, q))
  return (d, W)

/-- cosineindex.py:72-79, the body of the loop over the words: a dict is copied into an `IF` bucket -/
def cosineWord (A : Arith R) (s : Ix D R) (N : R) (wid : Int) : Except PyErr (SMap D R × R) :=
  match s.wordinfo.get? wid with
  | none => .error .AssertionError
  | some d2w => do
    let idf ← idf A d2w.map.len N
    return (if d2w.tree then d2w.map else d2w.map.mapVals (fun _ v => A.store v), idf)

/-- cosineindex.py:66-80 `_search_wids` -/
def cosineSearchWids (A : Arith R) (s : Ix D R) (wids : List Int) : Except PyErr (List (SMap D R × R)) :=
  if wids.isEmpty then .ok []
  else wids.mapM (cosineWord A s (A.ofNat s.docweight.len))

/-- cosineindex.py:88-90, one iteration -/
def cosineWeightStep (A : Arith R) (s : Ix D R) (N sum : R) (wid : Int) : Except PyErr R :=
  match s.wordinfo.get? wid with
  | none => .error .KeyError
  | some d2w => do
    let wt ← idf A d2w.map.len N
    return A.add sum (A.mul wt wt)

/-- cosineindex.py:86-91: `query_weight` after collecting the word ids -/
def cosineQueryWeight (A : Arith R) (s : Ix D R) (wids : List Int) : Except PyErr R := do
  let sum ← (removeOov s wids).foldlM (cosineWeightStep A s (A.ofNat s.docweight.len)) A.zero
  pySqrt A sum

/-- cosineindex.py:22-109 -/
def cosine (A : Arith R) : Kind D R :=
  { arith := A, freqs := cosineFreqs A, hasTotal := false, searchWids := cosineSearchWids A, queryWeight := cosineQueryWeight A }

/-! ## An index with its lexicon; TextIndex -/

/-- textindex.py:42-44: the pipeline of the lexicon that is made if none is given -/
def defaultPipeline (isW : Char → Bool) (lower : Word → Word) : List Element :=
  [Splitter.element isW, caseNormalizer lower, stopWordRemover isStop]

/-- textindex.py:39-51: an index and its lexicon -/
structure TI (D R : Type) [LinearOrder D] where
  lex : Lexicon
  ix : Ix D R

/-- a call that may change a text index or its lexicon.  `lexicon` are calls that reach the lexicon in other ways: another
index that shares it, or a reload of its counter. -/
inductive Op (D : Type)
  | index (docid : D) (text : TextArg)
  | unindex (docid : D)
  | clear
  | lexicon (op : Lexicon.Op)

/-- textindex.py:53-60: effect of a call -/
def step (K : Kind D R) (pipeline : List Element) (s : TI D R) : Op D → Except PyErr (TI D R)
  | .index docid text => do
    let r := s.lex.sourceToWordIds pipeline text
    let ix ← indexDoc K docid r.2 s.ix
    return { lex := r.1, ix := ix }
  | .unindex docid => do
    let ix ← unindexDoc K docid s.ix
    return { s with ix := ix }
  | .clear => .ok { s with ix := clear s.ix }
  | .lexicon op => .ok { s with lex := s.lex.step pipeline op }

/-- a history of calls on a new text index; it ends with the first call that raises an exception -/
def run (K : Kind D R) (pipeline : List Element) (ops : List (Op D)) : Except PyErr (TI D R) :=
  ops.foldlM (step K pipeline) { lex := Lexicon.new, ix := new }

/-- textindex.py:62-64 `documentCount` -/
def TI.documentCount (s : TI D R) : Int := s.ix.documentCount

/-- textindex.py:66-68 `wordCount` -/
def TI.wordCount (s : TI D R) : Int := s.ix.wordCount

/-- the searches of an index, as used by parse trees -/
def searcher (K : Kind D R) (odd : Word → Except PyErr (Word → Bool)) (pipeline : List Element) (s : TI D R) : Searcher D R :=
  { search := fun w => search K pipeline s.lex s.ix (.str w)
    searchPhrase := fun ws => (searchPhrase K pipeline s.lex s.ix (.list ws)).map some
    searchGlob := fun w => (searchGlob K odd s.lex s.ix w).map some }

/-- okapiindex.py:356-359, cosineindex.py:83-85: the word ids of the terms -/
def termWids (pipeline : List Element) (lex : Lexicon) : List TextArg → Except PyErr (List Int)
  | [] => .ok []
  | t :: ts => do
    let a ← lex.termToWordIds pipeline t
    let b ← termWids pipeline lex ts
    return a ++ b

/-- `index.query_weight(terms)` -/
def queryWeight (K : Kind D R) (pipeline : List Element) (s : TI D R) (terms : List TextArg) : Except PyErr R := do
  let wids ← termWids pipeline s.lex terms
  K.queryWeight s.ix wids

/-- textindex.py:83-85, one iteration of the loop that divides the scores.  Simplified: the branch `except TypeError` (86-89), which
stores `2**64 // 10`, is left out.  Scores and weights are numbers here, and dividing numbers raises no `TypeError`; the branch needs
an index whose scores are not numbers. -/
def scaleStep (A : Arith R) (qw : R) (results : SMap D R) (p : D × R) : Except PyErr (SMap D R) := do
  let q ← pyDiv A p.2 qw
  return results.set p.1 (A.store q)

/-- textindex.py:73-91, after parsing -/
def applyTree (K : Kind D R) (odd : Word → Except PyErr (Word → Bool)) (pipeline : List Element) (s : TI D R) (tree : Node) :
    Except PyErr (Option (SMap D R)) := do
  let results ← tree.execute K.arith.toWArith (searcher K odd pipeline s)
  match results with
  | none => return none
  | some results =>
    if results.isEmpty then return some results
    else
      let qw ← queryWeight K pipeline s tree.terms
      let qw := if K.arith.isZero qw then K.arith.one else qw
      let qw := K.arith.mul qw K.arith.one
      let r ← results.items.foldlM (scaleStep K.arith qw) results
      return some r

/-- textindex.py:70-91 `apply` -/
def apply (K : Kind D R) (isSpace : Char → Bool) (upper : Word → Word) (odd : Word → Except PyErr (Word → Bool))
    (pipeline : List Element) (s : TI D R) (querytext : Word) : Except PyErr (Option (SMap D R)) :=
  match QueryParser.parseQuery isSpace upper (Lexicon.parseTerms pipeline) querytext with
  | .error _ => .error .ParseError
  | .ok (tree, _) => applyTree K odd pipeline s tree

end Text
end Verif
