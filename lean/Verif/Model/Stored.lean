import Verif.Model.TxnText

/-! # A text index in a ZODB connection: what is written at a commit

The functions of `Verif.Model.TxnText` once more, with the information which parts of which objects are marked as changed.  At a
commit the database writes marked objects only; whatever was changed in memory without being marked is lost when the object is
loaded again.  Objects of `BTrees` (trees, sets, `Length`) and attributes of `Persistent` objects mark themselves when they are
changed.  The dicts in `_wordinfo` do not: they are part of the bucket that holds them, and changing such a dict in place
marks nothing.  The code of baseindex.py therefore assigns the dict to its place again ("not redundant:  Persistency!").

`Verif.Proofs.Stored` shows that forgetting the marks gives the other model. -/

set_option autoImplicit false

namespace Verif.Text

/-- the marks of an index: keys of `_wordinfo`, `_docweight` and `_docwords` whose bucket is marked as changed, addresses of the
marked trees of `_wordinfo`, and the three `Length`s -/
structure IxMarks (D : Type) where
  wordinfo : Int → Bool
  trees : Nat → Bool
  docweight : D → Bool
  docwords : D → Bool
  wordCount : Bool
  documentCount : Bool
  total : Bool

/-- no marks -/
def IxMarks.none {D : Type} : IxMarks D :=
  { wordinfo := fun _ => false, trees := fun _ => false, docweight := fun _ => false, docwords := fun _ => false,
    wordCount := false, documentCount := false, total := false }

/-- the marks of a lexicon: keys of `_wids` and `_words`, and the `Length` -/
structure LexMarks where
  wids : Word → Bool
  words : Int → Bool
  count : Bool

/-- no marks -/
def LexMarks.none : LexMarks := { wids := fun _ => false, words := fun _ => false, count := false }

/-- one more mark -/
def mark {K : Type} [DecidableEq K] (m : K → Bool) (k : K) : K → Bool := fun j => decide (j = k) || m j

/-- an index in memory, with its marks -/
structure MIx (D R : Type) [LinearOrder D] where
  ix : HIx D R
  marks : IxMarks D

namespace MIx

variable {D R : Type} [LinearOrder D]

/-! ### What the libraries do -/

/-- a dict that is in `_wordinfo` under `wid` (if there is one) is changed in place: no mark -/
def poke (s : MIx D R) (wid : Int) (m : SMap D R) : MIx D R :=
  if s.ix.wordinfo.contains wid then { s with ix := { s.ix with wordinfo := s.ix.wordinfo.set wid (.dict m) } } else s

/-- `self._wordinfo[wid] = doc2score`.  `same`: the object was there already.  `notices` tells whether the tree marks its bucket
also then; BTrees does, and the code of baseindex.py:280, 304, 314 depends on it (theorem `C72_needs_marks`). -/
def assign (notices same : Bool) (s : MIx D R) (wid : Int) (p : Posting D R) : MIx D R :=
  { ix := { s.ix with wordinfo := s.ix.wordinfo.set wid p },
    marks := if same && !notices then s.marks else { s.marks with wordinfo := mark s.marks.wordinfo wid } }

/-- `del self._wordinfo[wid]` -/
def delete (s : MIx D R) (wid : Int) : MIx D R :=
  { ix := { s.ix with wordinfo := s.ix.wordinfo.del wid }, marks := { s.marks with wordinfo := mark s.marks.wordinfo wid } }

/-- a tree is changed -/
def putTree (s : MIx D R) (a : Nat) (m : SMap D R) : MIx D R :=
  { ix := { s.ix with heap := s.ix.heap.put a m }, marks := { s.marks with trees := mark s.marks.trees a } }

/-- a tree is created -/
def newTree (s : MIx D R) (m : SMap D R) : MIx D R :=
  { ix := { s.ix with heap := s.ix.heap.alloc m }, marks := { s.marks with trees := mark s.marks.trees s.ix.heap.next } }

/-- `self.wordCount.change(n)` -/
def changeWordCount (s : MIx D R) (n : Int) : MIx D R :=
  { ix := { s.ix with wordCount := s.ix.wordCount + n }, marks := { s.marks with wordCount := true } }

/-- `self.documentCount.change(n)` -/
def changeDocumentCount (s : MIx D R) (n : Int) : MIx D R :=
  { ix := { s.ix with documentCount := s.ix.documentCount + n }, marks := { s.marks with documentCount := true } }

/-- `self._docweight[docid] = w` and `self._docwords[docid] = code` -/
def setDoc (s : MIx D R) (docid : D) (w : R) (code : List Nat) : MIx D R :=
  { ix := { s.ix with docweight := s.ix.docweight.set docid w, docwords := s.ix.docwords.set docid code },
    marks := { s.marks with docweight := mark s.marks.docweight docid, docwords := mark s.marks.docwords docid } }

/-- `del self._docwords[docid]` and `del self._docweight[docid]` -/
def delDoc (s : MIx D R) (docid : D) : MIx D R :=
  { ix := { s.ix with docwords := s.ix.docwords.del docid, docweight := s.ix.docweight.del docid },
    marks := { s.marks with docwords := mark s.marks.docwords docid, docweight := mark s.marks.docweight docid } }

/-! ### baseindex.py and okapiindex.py -/

variable (notices : Bool) (K : Kind D R)

/-- baseindex.py:279-280 and 303-304: `doc2score[docid] = f`, then `self._wordinfo[wid] = doc2score`.  `same`: `doc2score` is the
object found under `wid` -/
def save (s : MIx D R) (same : Bool) (wid : Int) (p : Posting D R) (docid : D) (f : R) : MIx D R :=
  match p with
  | .dict m =>
    let s := if same then s.poke wid (m.set docid f) else s
    s.assign notices same wid (.dict (m.set docid f))
  | .tree a =>
    let s := s.putTree a ((s.ix.treeAt a).set docid (K.arith.store f))
    s.assign notices same wid (.tree a)

/-- baseindex.py:273-276 and 300-302: a dict with `DICT_CUTOFF` entries is replaced by a new tree; the Boolean tells whether
`doc2score` is still the object found under `wid` -/
def grow (s : MIx D R) (p : Posting D R) : MIx D R × Posting D R × Bool :=
  match p with
  | .dict m =>
    if m.len = 10 then (s.newTree (m.mapVals (fun _ v => K.arith.store v)), .tree s.ix.heap.next, false)
    else (s, .dict m, true)
  | .tree a => (s, .tree a, true)

/-- baseindex.py:239-280 `_add_wordinfo` -/
def addWordinfo (wid : Int) (f : R) (docid : D) (s : MIx D R) : MIx D R :=
  match s.ix.wordinfo.get? wid with
  | none =>
    let s := s.changeWordCount 1
    save notices K s false wid (.dict SMap.empty) docid f
  | some p =>
    let r := grow K s p
    save notices K r.1 r.2.2 wid r.2.1 docid f

/-- baseindex.py:294-304, one iteration of `_mass_add_wordinfo`; the number is `new_word_count` -/
def massStep (docid : D) (st : MIx D R × Int) (p : Int × R) : MIx D R × Int :=
  match st.1.ix.wordinfo.get? p.1 with
  | none => (save notices K st.1 false p.1 (.dict SMap.empty) docid p.2, st.2 + 1)
  | some q =>
    let r := grow K st.1 q
    (save notices K r.1 r.2.2 p.1 r.2.1 docid p.2, st.2)

/-- baseindex.py:290-308 `_mass_add_wordinfo` -/
def massAdd (wid2weight : List (Int × R)) (docid : D) (s : MIx D R) : MIx D R :=
  let r := wid2weight.foldl (massStep notices K docid) (s, 0)
  r.1.changeWordCount r.2

/-- baseindex.py:312: `del doc2score[docid]`, for a docid that is there; `doc2score` is the object under `wid` -/
def remove (s : MIx D R) (wid : Int) (p : Posting D R) (docid : D) : MIx D R × Posting D R :=
  match p with
  | .dict m => (s.poke wid (m.del docid), .dict (m.del docid))
  | .tree a => (s.putTree a ((s.ix.treeAt a).del docid), .tree a)

/-- baseindex.py:310-321 `_del_wordinfo` -/
def delWordinfo (wid : Int) (docid : D) (s : MIx D R) : Except PyErr (MIx D R) :=
  match s.ix.wordinfo.get? wid with
  | none => .error .KeyError
  | some p =>
    if (s.ix.entry p).map.contains docid then
      let r := remove s wid p docid
      if (r.1.ix.entry r.2).map.isEmpty then .ok ((r.1.delete wid).changeWordCount (-1))
      else .ok (r.1.assign notices true wid r.2)
    else .error .KeyError

/-- okapiindex.py:255-262 `_change_doc_len` (nothing for the cosine index) -/
def changeDocLen (delta : Int) (s : MIx D R) : MIx D R :=
  if K.hasTotal then { ix := { s.ix with total := s.ix.total + delta }, marks := { s.marks with total := true } } else s

/-- okapiindex.py:246, 252: `self._change_doc_len(-self._docweight[docid])` -/
def subDocLen (docid : D) (s : MIx D R) : Except PyErr (MIx D R) :=
  if K.hasTotal then
    match s.ix.docweight.get? docid with
    | none => .error .KeyError
    | some w => .ok (changeDocLen K (-(K.arith.toInt w)) s)
  else .ok s

/-- baseindex.py:140-142, the loop over the words only in the new text -/
def addStep (newW : List (Int × R)) (docid : D) (s : MIx D R) (wid : Int) : Except PyErr (MIx D R) := do
  let f ← pick newW wid
  return addWordinfo notices K wid f docid s

/-- baseindex.py:143-151, the loop over the words in both texts -/
def bothStep (oldW newW : List (Int × R)) (docid : D) (s : MIx D R) (wid : Int) : Except PyErr (MIx D R) := do
  let newscore ← pick newW wid
  let oldscore ← pick oldW wid
  if K.arith.neq oldscore newscore then return addWordinfo notices K wid newscore docid s else return s

/-- baseindex.py:121-155 `_reindex_doc`, with okapiindex.py:245-247 -/
def reindexDoc (docid : D) (wids : List Int) (s : MIx D R) : Except PyErr (MIx D R) := do
  let s ← subDocLen K docid s
  let oldWids ← s.ix.getWords docid
  let old ← K.freqs oldWids
  let new ← K.freqs wids
  let oldSet := SSet.ofList (old.1.map (·.1))
  let newSet := SSet.ofList (new.1.map (·.1))
  let both := oldSet.inter newSet
  let s ← (oldSet.diff both).toList.foldlM (fun s wid => delWordinfo notices wid docid s) s
  let s ← (newSet.diff both).toList.foldlM (addStep notices K new.1 docid) s
  let s ← both.toList.foldlM (bothStep notices K old.1 new.1 docid) s
  let code ← WidCode.encode wids
  return s.setDoc docid (K.arith.store new.2) code

/-- baseindex.py:102-119 `index_doc` with okapiindex.py:240-243, from the word ids on -/
def indexDoc (docid : D) (wids : List Int) (s : MIx D R) : Except PyErr (MIx D R) :=
  if s.ix.docwords.contains docid then do
    let s ← reindexDoc notices K docid wids s
    return changeDocLen K wids.length s
  else do
    let r ← K.freqs wids
    let s := massAdd notices K r.1 docid s
    let code ← WidCode.encode wids
    let s := (s.setDoc docid (K.arith.store r.2) code).changeDocumentCount 1
    return changeDocLen K wids.length s

/-- baseindex.py:172-183 `unindex_doc` with okapiindex.py:249-253 -/
def unindexDoc (docid : D) (s : MIx D R) : Except PyErr (MIx D R) :=
  if s.ix.docwords.contains docid then do
    let s ← subDocLen K docid s
    let wids ← s.ix.getWords docid
    let s ← (SSet.ofList wids).toList.foldlM (fun s wid => delWordinfo notices wid docid s) s
    return (s.delDoc docid).changeDocumentCount (-1)
  else .ok s

/-- baseindex.py:53-83 `clear`: new objects are assigned to attributes of the index, which is thereby marked; the new objects are
written with it.  `_totaldoclen` is left as it is. -/
def clear (s : MIx D R) : MIx D R :=
  { ix := { s.ix with wordinfo := SMap.empty, docweight := SMap.empty, docwords := SMap.empty, wordCount := 0, documentCount := 0 },
    marks := { s.marks with wordinfo := fun _ => true, docweight := fun _ => true, docwords := fun _ => true,
                            wordCount := true, documentCount := true } }

end MIx

/-- a lexicon in memory, with its marks -/
structure MLex where
  lex : Lexicon
  marks : LexMarks

namespace MLex

/-- text/lexicon.py:141-155 `_getWordIdCreate` and `_new_wid` -/
def getWordIdCreate (s : MLex) (word : Word) : MLex × Int :=
  match s.lex.wids.get? word with
  | some wid => (s, wid)
  | none =>
    let wid := s.lex.newWid
    ({ lex := { wids := s.lex.wids.set word wid, words := s.lex.words.set wid word, count := wid },
       marks := { wids := mark s.marks.wids word, words := mark s.marks.words wid, count := true } }, wid)

/-- text/lexicon.py:76 `list(map(self._getWordIdCreate, last))` -/
def createAll (s : MLex) : List Word → MLex × List Int
  | [] => (s, [])
  | w :: ws =>
    let r := s.getWordIdCreate w
    let t := createAll r.1 ws
    (t.1, r.2 :: t.2)

/-- text/lexicon.py:75 `self.wordCount._p_deactivate()`: a counter that is not marked is loaded again when it is used, from what the
database holds; one that is marked is left alone -/
def deactivate (saved : Lexicon) (s : MLex) : MLex :=
  if s.marks.count then s else { s with lex := { s.lex with count := saved.count } }

/-- text/lexicon.py:62-76 `sourceToWordIds` -/
def sourceToWordIds (saved : Lexicon) (pipeline : List Element) (s : MLex) (text : TextArg) : MLex × List Int :=
  (deactivate saved s).createAll (Lexicon.runPipeline pipeline (Lexicon.sourceText text))

end MLex

/-- what is in the database afterwards: the written keys as they are in memory, the others as they were -/
def overlay {K V : Type} [LinearOrder K] (written : K → Bool) (saved live : SMap K V) : SMap K V :=
  SMap.build (live.keys ++ saved.keys) (fun k => if written k then live.get? k else saved.get? k)

/-- the marked objects of an index are written -/
def IxMarks.write {D R : Type} [LinearOrder D] (w : IxMarks D) (saved live : HIx D R) : HIx D R :=
  { heap := { cells := overlay w.trees saved.heap.cells live.heap.cells, next := live.heap.next },
    wordinfo := overlay w.wordinfo saved.wordinfo live.wordinfo,
    docweight := overlay w.docweight saved.docweight live.docweight,
    docwords := overlay w.docwords saved.docwords live.docwords,
    wordCount := if w.wordCount then live.wordCount else saved.wordCount,
    documentCount := if w.documentCount then live.documentCount else saved.documentCount,
    total := if w.total then live.total else saved.total }

/-- the marked objects of a lexicon are written -/
def LexMarks.write (w : LexMarks) (saved live : Lexicon) : Lexicon :=
  { wids := overlay w.wids saved.wids live.wids, words := overlay w.words saved.words live.words,
    count := if w.count then live.count else saved.count }

/-- a text index with its lexicon in a ZODB connection: what the program sees, and what the database holds -/
structure TextDb (D R : Type) [LinearOrder D] where
  ix : MIx D R
  lex : MLex
  savedIx : HIx D R
  savedLex : Lexicon

/-- a call of a program -/
inductive SOp (D : Type)
  | index (docid : D) (text : TextArg)
  | unindex (docid : D)
  | clear

/-- a step of a program that uses the index through a connection.  Buckets hold several keys, and all of a marked bucket is
written: `commit` also writes the parts in `ix` and `lex`, which may be any.  The cache of the connection may drop unmarked objects
between calls, which are then loaded again when they are used: `evict` drops all of them except the parts in `ix` and `lex`. -/
inductive DbStep (D : Type)
  | call (op : SOp D)
  | commit (ix : IxMarks D) (lex : LexMarks)
  | evict (ix : IxMarks D) (lex : LexMarks)
  | abort                            -- also: another connection begins to use the index

namespace TextDb

variable {D R : Type} [LinearOrder D]

/-- a new index and lexicon, committed -/
def new : TextDb D R :=
  { ix := ⟨HIx.new, IxMarks.none⟩, lex := ⟨Lexicon.new, LexMarks.none⟩, savedIx := HIx.new, savedLex := Lexicon.new }

/-- what the program sees -/
def live (t : TextDb D R) : HTI D R := { lex := t.lex.lex, ix := t.ix.ix }

/-- what the database holds -/
def saved (t : TextDb D R) : HTI D R := { lex := t.savedLex, ix := t.savedIx }

/-- changes since the last commit are forgotten -/
def abort (t : TextDb D R) : TextDb D R :=
  { t with ix := ⟨t.savedIx, IxMarks.none⟩, lex := ⟨t.savedLex, LexMarks.none⟩ }

variable (notices : Bool) (K : Kind D R) (pipeline : List Element)

/-- textindex.py:53-60: effect of a call -/
def call (t : TextDb D R) : SOp D → Except PyErr (TextDb D R)
  | .index docid text => do
    let r := MLex.sourceToWordIds t.savedLex pipeline t.lex text
    let ix ← MIx.indexDoc notices K docid r.2 t.ix
    return { t with lex := r.1, ix := ix }
  | .unindex docid => do
    let ix ← MIx.unindexDoc notices K docid t.ix
    return { t with ix := ix }
  | .clear => .ok { t with ix := t.ix.clear }

/-- union of marks -/
def _root_.Verif.Text.IxMarks.or (a b : IxMarks D) : IxMarks D :=
  { wordinfo := fun k => a.wordinfo k || b.wordinfo k, trees := fun k => a.trees k || b.trees k,
    docweight := fun k => a.docweight k || b.docweight k, docwords := fun k => a.docwords k || b.docwords k,
    wordCount := a.wordCount || b.wordCount, documentCount := a.documentCount || b.documentCount, total := a.total || b.total }

/-- union of marks -/
def _root_.Verif.Text.LexMarks.or (a b : LexMarks) : LexMarks :=
  { wids := fun k => a.wids k || b.wids k, words := fun k => a.words k || b.words k, count := a.count || b.count }

/-- effect of a step; a call that raises an exception ends the transaction, which is aborted -/
def step (t : TextDb D R) : DbStep D → TextDb D R
  | .call op =>
    match call notices K pipeline t op with
    | .ok t => t
    | .error _ => t.abort
  | .commit wi wl =>
    { ix := { t.ix with marks := IxMarks.none }, lex := { t.lex with marks := LexMarks.none },
      savedIx := (t.ix.marks.or wi).write t.savedIx t.ix.ix, savedLex := (t.lex.marks.or wl).write t.savedLex t.lex.lex }
  | .evict wi wl =>
    { t with ix := { t.ix with ix := (t.ix.marks.or wi).write t.savedIx t.ix.ix },
             lex := { t.lex with lex := (t.lex.marks.or wl).write t.savedLex t.lex.lex } }
  | .abort => t.abort

/-- a program run -/
def run (steps : List (DbStep D)) : TextDb D R := steps.foldl (step notices K pipeline) new

end TextDb
end Verif.Text
