import Verif.Model.TextIndex

/-! # Model of indexes stored by older releases

Older releases stored no counters: `wordCount` and `documentCount` were methods of the class, and `_totaldoclen` was a number.  The
code upgrades such objects when it changes them (`except AttributeError`, `except TypeError`).  The functions here are those of
`Model/TextIndex.lean` on objects whose counters may be of either kind. -/

set_option autoImplicit false

namespace Verif.Text

variable {D R : Type} [LinearOrder D]

/-- an attribute `wordCount` or `documentCount`: the method of the class, or a `Length` object of the instance -/
inductive Counter
  | method
  | length (n : Int)
  deriving DecidableEq

/-- a call of the attribute; the methods (baseindex.py:85-95) raise `NotImplementedError`, and no subclass overrides them -/
def Counter.call : Counter → Except PyErr Int
  | .method => .error .NotImplementedError
  | .length n => .ok n

/-- `try: counter.change(delta)` / `except AttributeError: counter = Length(new)` (baseindex.py:110-114, 179-183, 264-269, 304-308,
317-321) -/
def Counter.change (c : Counter) (delta new : Int) : Counter :=
  match c with
  | .method => .length new
  | .length n => .length (n + delta)

/-- the attribute `_totaldoclen`: a number, or a `Length` object -/
inductive Total
  | plain (n : Int)
  | length (n : Int)
  deriving DecidableEq

/-- okapiindex.py:255-262 `_change_doc_len` -/
def Total.change (t : Total) (delta : Int) : Total :=
  match t with
  | .plain n => .length (n + delta)
  | .length n => .length (n + delta)

/-- okapiindex.py:275-279 and 326-330: the number read by a search -/
def Total.value : Total → Int
  | .plain n => n
  | .length n => n

/-- the attributes of an index whose counters may be those of an older release -/
structure LIx (D R : Type) [LinearOrder D] where
  wordinfo : SMap Int (D2S D R)
  docweight : SMap D R
  docwords : SMap D (List Nat)
  wordCount : Counter
  documentCount : Counter
  total : Total

namespace LIx

/-- baseindex.py:53-83 `clear`, which makes new counters -/
def clear (s : LIx D R) : LIx D R :=
  { s with wordinfo := SMap.empty, docweight := SMap.empty, docwords := SMap.empty, wordCount := .length 0, documentCount := .length 0 }

/-- baseindex.py:97-99 `get_words` -/
def getWords (s : LIx D R) (docid : D) : Except PyErr (List Int) :=
  match s.docwords.get? docid with
  | none => .error .KeyError
  | some code => WidCode.decode code

section

variable (K : Kind D R)

/-- baseindex.py:239-280 `_add_wordinfo`; the new counter (268-269) is made before the word is stored and then incremented -/
def addWordinfo (wid : Int) (f : R) (docid : D) (s : LIx D R) : LIx D R :=
  match s.wordinfo.get? wid with
  | none =>
    let doc2score : D2S D R := { tree := false, map := SMap.empty }
    { s with wordinfo := s.wordinfo.set wid (doc2score.put K.arith docid f),
             wordCount := s.wordCount.change 1 (s.wordinfo.len + 1) }
  | some doc2score => { s with wordinfo := s.wordinfo.set wid ((doc2score.grow K.arith).put K.arith docid f) }

/-- baseindex.py:290-308 `_mass_add_wordinfo`; the new counter (308) is made after the words are stored -/
def massAdd (wid2weight : List (Int × R)) (docid : D) (s : LIx D R) : LIx D R :=
  let r := wid2weight.foldl (massStep K docid) (s.wordinfo, 0)
  { s with wordinfo := r.1, wordCount := s.wordCount.change r.2 r.1.len }

/-- baseindex.py:310-321 `_del_wordinfo`; the new counter (321) is made after the word is removed -/
def delWordinfo (wid : Int) (docid : D) (s : LIx D R) : Except PyErr (LIx D R) :=
  match s.wordinfo.get? wid with
  | none => .error .KeyError
  | some doc2score =>
    if doc2score.map.contains docid then
      let doc2score := { doc2score with map := doc2score.map.del docid }
      if doc2score.map.isEmpty then
        .ok { s with wordinfo := s.wordinfo.del wid, wordCount := s.wordCount.change (-1) (s.wordinfo.del wid).len }
      else .ok { s with wordinfo := s.wordinfo.set wid doc2score }
    else .error .KeyError

/-- okapiindex.py:255-262 `_change_doc_len` (nothing for the cosine index) -/
def changeDocLen (delta : Int) (s : LIx D R) : LIx D R :=
  if K.hasTotal then { s with total := s.total.change delta } else s

/-- okapiindex.py:246, 252: `self._change_doc_len(-self._docweight[docid])` -/
def subDocLen (docid : D) (s : LIx D R) : Except PyErr (LIx D R) :=
  if K.hasTotal then
    match s.docweight.get? docid with
    | none => .error .KeyError
    | some w => .ok (changeDocLen K (-(K.arith.toInt w)) s)
  else .ok s

/-- baseindex.py:140-142, the loop over the words only in the new text -/
def addStep (newW : List (Int × R)) (docid : D) (s : LIx D R) (wid : Int) : Except PyErr (LIx D R) := do
  let f ← pick newW wid
  return addWordinfo K wid f docid s

/-- baseindex.py:143-151, the loop over the words in both texts -/
def bothStep (oldW newW : List (Int × R)) (docid : D) (s : LIx D R) (wid : Int) : Except PyErr (LIx D R) := do
  let newscore ← pick newW wid
  let oldscore ← pick oldW wid
  if K.arith.neq oldscore newscore then return addWordinfo K wid newscore docid s else return s

/-- baseindex.py:121-155 `_reindex_doc`, with okapiindex.py:245-247; it does not touch `documentCount` -/
def reindexDoc (docid : D) (wids : List Int) (s : LIx D R) : Except PyErr (LIx D R) := do
  let s ← subDocLen K docid s
  let oldWids ← getWords s docid
  let old ← K.freqs oldWids
  let new ← K.freqs wids
  let oldSet := SSet.ofList (old.1.map (·.1))
  let newSet := SSet.ofList (new.1.map (·.1))
  let both := oldSet.inter newSet
  let s ← (oldSet.diff both).toList.foldlM (fun s wid => delWordinfo wid docid s) s
  let s ← (newSet.diff both).toList.foldlM (addStep K new.1 docid) s
  let s ← both.toList.foldlM (bothStep K old.1 new.1 docid) s
  let code ← WidCode.encode wids
  return { s with docweight := s.docweight.set docid (K.arith.store new.2), docwords := s.docwords.set docid code }

/-- baseindex.py:102-119 `index_doc` with okapiindex.py:240-243, from the word ids on; the new counter (114) is made after the
document is stored -/
def indexDoc (docid : D) (wids : List Int) (s : LIx D R) : Except PyErr (LIx D R) :=
  if s.docwords.contains docid then do
    let s ← reindexDoc K docid wids s
    return changeDocLen K wids.length s
  else do
    let r ← K.freqs wids
    let s := massAdd K r.1 docid s
    let s := { s with docweight := s.docweight.set docid (K.arith.store r.2) }
    let code ← WidCode.encode wids
    let s := { s with docwords := s.docwords.set docid code, documentCount := s.documentCount.change 1 s.docweight.len }
    return changeDocLen K wids.length s

/-- baseindex.py:172-183 `unindex_doc` with okapiindex.py:249-253; the new counter (183) is made after the document is removed -/
def unindexDoc (docid : D) (s : LIx D R) : Except PyErr (LIx D R) :=
  if s.docwords.contains docid then do
    let s ← subDocLen K docid s
    let wids ← getWords s docid
    let s ← (SSet.ofList wids).toList.foldlM (fun s wid => delWordinfo wid docid s) s
    return { s with docwords := s.docwords.del docid, docweight := s.docweight.del docid,
                    documentCount := s.documentCount.change (-1) (s.docweight.del docid).len }
  else .ok s

end

/-- the part of the state a search reads; `documentCount` is supplied by `okapiLegacy`, and no search reads `wordCount` -/
def content (s : LIx D R) : Ix D R :=
  { wordinfo := s.wordinfo, docweight := s.docweight, docwords := s.docwords, wordCount := 0, documentCount := 0, total := s.total.value }

end LIx

/-- okapiindex.py:271-301 `_python_search_wids`, whose first step (274) is to call the attribute `documentCount` -/
def okapiLegacy (A : Arith R) (P : Bm25 R) (documentCount : Counter) : Kind D R :=
  { okapi A P with
    searchWids := fun s wids =>
      if wids.isEmpty then .ok []
      else do
        let n ← documentCount.call
        okapiSearchWids A P { s with documentCount := n } wids }

/-- textindex.py:39-51: an index and its lexicon -/
structure LTI (D R : Type) [LinearOrder D] where
  lex : Lexicon
  ix : LIx D R

/-- textindex.py:53-60: effect of a call -/
def LTI.step (K : Kind D R) (pipeline : List Element) (s : LTI D R) : Op D → Except PyErr (LTI D R)
  | .index docid text => do
    let r := s.lex.sourceToWordIds pipeline text
    let ix ← s.ix.indexDoc K docid r.2
    return { lex := r.1, ix := ix }
  | .unindex docid => do
    let ix ← s.ix.unindexDoc K docid
    return { s with ix := ix }
  | .clear => .ok { s with ix := s.ix.clear }
  | .lexicon op => .ok { s with lex := s.lex.step pipeline op }

/-- calls on an index, which may have been stored by an older release -/
def LTI.run (K : Kind D R) (pipeline : List Element) (s : LTI D R) (ops : List (Op D)) : Except PyErr (LTI D R) :=
  ops.foldlM (LTI.step K pipeline) s

/-- textindex.py:62-64 `documentCount` -/
def LTI.documentCount (s : LTI D R) : Except PyErr Int := s.ix.documentCount.call

/-- textindex.py:66-68 `wordCount` -/
def LTI.wordCount (s : LTI D R) : Except PyErr Int := s.ix.wordCount.call

/-- textindex.py:70-91 `apply` of an Okapi index -/
def LTI.applyOkapi (A : Arith R) (P : Bm25 R) (isSpace : Char → Bool) (upper : Word → Word)
    (odd : Word → Except PyErr (Word → Bool)) (pipeline : List Element) (s : LTI D R) (querytext : Word) :
    Except PyErr (Option (SMap D R)) :=
  apply (okapiLegacy A P s.ix.documentCount) isSpace upper odd pipeline { lex := s.lex, ix := s.ix.content } querytext

/-- textindex.py:70-91 `apply` of a cosine index, which calls no counter -/
def LTI.applyCosine (A : Arith R) (isSpace : Char → Bool) (upper : Word → Word)
    (odd : Word → Except PyErr (Word → Bool)) (pipeline : List Element) (s : LTI D R) (querytext : Word) :
    Except PyErr (Option (SMap D R)) :=
  apply (cosine A) isSpace upper odd pipeline { lex := s.lex, ix := s.ix.content } querytext

end Verif.Text

namespace Verif

/-- a lexicon that may have been stored by an older release: `count` is `none` while `wordCount` is the method of the class -/
structure LLexicon where
  wids : SMap Word Int
  words : SMap Int Word
  count : Option Int

namespace LLexicon

/-- text/lexicon.py:48-51: `wordCount()`, the method or the `Length` object -/
def wordCount (s : LLexicon) : Int :=
  match s.count with
  | none => s.wids.len
  | some n => n

/-- text/lexicon.py:68-70: the counter made if there is none -/
def upgrade (s : LLexicon) : Lexicon := { wids := s.wids, words := s.words, count := s.wordCount }

/-- a lexicon with its counter -/
def of (s : Lexicon) : LLexicon := { wids := s.wids, words := s.words, count := some s.count }

/-- text/lexicon.py:62-76 `sourceToWordIds` -/
def sourceToWordIds (pipeline : List Element) (s : LLexicon) (text : TextArg) : LLexicon × List Int :=
  let r := s.upgrade.sourceToWordIds pipeline text
  (of r.1, r.2)

/-- calls of `sourceToWordIds`, one after the other -/
def sources (pipeline : List Element) (s : LLexicon) : List TextArg → LLexicon × List (List Int)
  | [] => (s, [])
  | t :: ts =>
    let r := s.sourceToWordIds pipeline t
    let q := sources pipeline r.1 ts
    (q.1, r.2 :: q.2)

end LLexicon
end Verif
