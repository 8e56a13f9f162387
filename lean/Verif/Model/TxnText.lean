import Verif.Model.Txn
import Verif.Model.TextIndex

/-! # Concurrent transactions on a text index

The functions of `Verif.Model.TextIndex` that change an index, once more, with the database objects the index consists of: a value of
`_wordinfo` is either a dict, which is stored as part of `_wordinfo`, or an `IFBTree`, which is an object of its own.
`Verif.Proofs.TxnText` shows that forgetting addresses gives the other model. -/

set_option autoImplicit false

namespace Verif.Text

/-- a value of `_wordinfo`: a dict (baseindex.py:262), or the address of an `IFBTree` (baseindex.py:276) -/
inductive Posting (D R : Type) [LinearOrder D]
  | dict (map : SMap D R)
  | tree (a : Nat)

instance {D R : Type} [LinearOrder D] [DecidableEq R] : DecidableEq (Posting D R)
  | .dict m, .dict m' => if h : m = m' then .isTrue (by rw [h]) else .isFalse (fun e => h (by injection e))
  | .tree a, .tree a' => if h : a = a' then .isTrue (by rw [h]) else .isFalse (fun e => h (by injection e))
  | .dict _, .tree _ => .isFalse (fun e => by cases e)
  | .tree _, .dict _ => .isFalse (fun e => by cases e)

/-- baseindex.py:53-83: the attributes of an index; `heap` holds the `IFBTree`s of `_wordinfo` -/
structure HIx (D R : Type) [LinearOrder D] where
  heap : Heap (SMap D R)
  wordinfo : SMap Int (Posting D R)
  docweight : SMap D R
  docwords : SMap D (List Nat)
  wordCount : Int
  documentCount : Int
  total : Int

namespace HIx

variable {D R : Type} [LinearOrder D]

/-- baseindex.py:47-51 and okapiindex.py:223-237 `__init__` -/
def new : HIx D R :=
  { heap := Heap.empty, wordinfo := SMap.empty, docweight := SMap.empty, docwords := SMap.empty, wordCount := 0,
    documentCount := 0, total := 0 }

/-- the content of the tree at an address -/
def treeAt (s : HIx D R) (a : Nat) : SMap D R := (s.heap.get? a).getD SMap.empty

/-- the mapping a value of `_wordinfo` stands for -/
def entry (s : HIx D R) : Posting D R → D2S D R
  | .dict m => { tree := false, map := m }
  | .tree a => { tree := true, map := s.treeAt a }

/-- the index of `Verif.Model.TextIndex`: forget the addresses -/
def view (s : HIx D R) : Ix D R :=
  { wordinfo := s.wordinfo.mapVals (fun _ p => s.entry p), docweight := s.docweight, docwords := s.docwords,
    wordCount := s.wordCount, documentCount := s.documentCount, total := s.total }

variable (K : Kind D R)

/-- baseindex.py:279-280: `doc2score[docid] = f`, then `self._wordinfo[wid] = doc2score` -/
def save (s : HIx D R) (wid : Int) (p : Posting D R) (docid : D) (f : R) : HIx D R :=
  match p with
  | .dict m => { s with wordinfo := s.wordinfo.set wid (.dict (m.set docid f)) }
  | .tree a => { s with heap := s.heap.put a ((s.treeAt a).set docid (K.arith.store f)), wordinfo := s.wordinfo.set wid (.tree a) }

/-- baseindex.py:273-276: a dict with `DICT_CUTOFF` entries is replaced by a new tree -/
def grow (s : HIx D R) (p : Posting D R) : HIx D R × Posting D R :=
  match p with
  | .dict m =>
    if m.len = 10 then
      ({ s with heap := s.heap.alloc (m.mapVals (fun _ v => K.arith.store v)) }, .tree s.heap.next)
    else (s, .dict m)
  | .tree a => (s, .tree a)

/-- baseindex.py:239-280 `_add_wordinfo` -/
def addWordinfo (wid : Int) (f : R) (docid : D) (s : HIx D R) : HIx D R :=
  match s.wordinfo.get? wid with
  | none =>
    let s := save K s wid (.dict SMap.empty) docid f
    { s with wordCount := s.wordCount + 1 }
  | some p =>
    let r := grow K s p
    save K r.1 wid r.2 docid f

/-- baseindex.py:294-304, one iteration of `_mass_add_wordinfo`; the number is `new_word_count` -/
def massStep (docid : D) (st : HIx D R × Int) (p : Int × R) : HIx D R × Int :=
  match st.1.wordinfo.get? p.1 with
  | none => (save K st.1 p.1 (.dict SMap.empty) docid p.2, st.2 + 1)
  | some q =>
    let r := grow K st.1 q
    (save K r.1 p.1 r.2 docid p.2, st.2)

/-- baseindex.py:290-308 `_mass_add_wordinfo` -/
def massAdd (wid2weight : List (Int × R)) (docid : D) (s : HIx D R) : HIx D R :=
  let r := wid2weight.foldl (massStep K docid) (s, 0)
  { r.1 with wordCount := r.1.wordCount + r.2 }

/-- baseindex.py:312: `del doc2score[docid]`, for a docid that is there -/
def remove (s : HIx D R) (p : Posting D R) (docid : D) : HIx D R × Posting D R :=
  match p with
  | .dict m => (s, .dict (m.del docid))
  | .tree a => ({ s with heap := s.heap.put a ((s.treeAt a).del docid) }, .tree a)

/-- baseindex.py:310-321 `_del_wordinfo` -/
def delWordinfo (wid : Int) (docid : D) (s : HIx D R) : Except PyErr (HIx D R) :=
  match s.wordinfo.get? wid with
  | none => .error .KeyError
  | some p =>
    if (s.entry p).map.contains docid then
      let r := remove s p docid
      if (r.1.entry r.2).map.isEmpty then
        .ok { r.1 with wordinfo := r.1.wordinfo.del wid, wordCount := r.1.wordCount - 1 }
      else .ok { r.1 with wordinfo := r.1.wordinfo.set wid r.2 }
    else .error .KeyError

/-- baseindex.py:97-99 `get_words` -/
def getWords (s : HIx D R) (docid : D) : Except PyErr (List Int) :=
  match s.docwords.get? docid with
  | none => .error .KeyError
  | some code => WidCode.decode code

/-- okapiindex.py:255-262 `_change_doc_len` (nothing for the cosine index) -/
def changeDocLen (delta : Int) (s : HIx D R) : HIx D R :=
  if K.hasTotal then { s with total := s.total + delta } else s

/-- okapiindex.py:246, 252: `self._change_doc_len(-self._docweight[docid])` -/
def subDocLen (docid : D) (s : HIx D R) : Except PyErr (HIx D R) :=
  if K.hasTotal then
    match s.docweight.get? docid with
    | none => .error .KeyError
    | some w => .ok (changeDocLen K (-(K.arith.toInt w)) s)
  else .ok s

/-- baseindex.py:140-142, the loop over the words only in the new text -/
def addStep (newW : List (Int × R)) (docid : D) (s : HIx D R) (wid : Int) : Except PyErr (HIx D R) := do
  let f ← pick newW wid
  return addWordinfo K wid f docid s

/-- baseindex.py:143-151, the loop over the words in both texts -/
def bothStep (oldW newW : List (Int × R)) (docid : D) (s : HIx D R) (wid : Int) : Except PyErr (HIx D R) := do
  let newscore ← pick newW wid
  let oldscore ← pick oldW wid
  if K.arith.neq oldscore newscore then return addWordinfo K wid newscore docid s else return s

/-- baseindex.py:121-155 `_reindex_doc`, with okapiindex.py:245-247 -/
def reindexDoc (docid : D) (wids : List Int) (s : HIx D R) : Except PyErr (HIx D R) := do
  let s ← subDocLen K docid s
  let oldWids ← getWords s docid
  let old ← K.freqs oldWids
  let new ← K.freqs wids
  let oldSet := SSet.ofList (old.1.map (·.1))
  let newSet := SSet.ofList (new.1.map (·.1))
  let both := oldSet.inter newSet
  let s ← (oldSet.diff both).toList.foldlM (fun s wid => delWordinfo wid docid s) s
  let s ← (newSet.diff both).toList.foldlM (addStep K new.1 docid) s
  let s ← both.toList.foldlM (bothStep K old.1 new.1 docid) s
  let code ← WidCode.encode wids
  return { s with docweight := s.docweight.set docid (K.arith.store new.2), docwords := s.docwords.set docid code }

/-- baseindex.py:102-119 `index_doc` with okapiindex.py:240-243, from the word ids on -/
def indexDoc (docid : D) (wids : List Int) (s : HIx D R) : Except PyErr (HIx D R) :=
  if s.docwords.contains docid then do
    let s ← reindexDoc K docid wids s
    return changeDocLen K wids.length s
  else do
    let r ← K.freqs wids
    let s := massAdd K r.1 docid s
    let s := { s with docweight := s.docweight.set docid (K.arith.store r.2) }
    let code ← WidCode.encode wids
    let s := { s with docwords := s.docwords.set docid code, documentCount := s.documentCount + 1 }
    return changeDocLen K wids.length s

/-- baseindex.py:172-183 `unindex_doc` with okapiindex.py:249-253 -/
def unindexDoc (docid : D) (s : HIx D R) : Except PyErr (HIx D R) :=
  if s.docwords.contains docid then do
    let s ← subDocLen K docid s
    let wids ← getWords s docid
    let s ← (SSet.ofList wids).toList.foldlM (fun s wid => delWordinfo wid docid s) s
    return { s with docwords := s.docwords.del docid, docweight := s.docweight.del docid,
                    documentCount := s.documentCount - 1 }
  else .ok s

/-- conflict resolution, object by object: the trees of `_wordinfo`, `_wordinfo` itself, `_docweight`, `_docwords`, and the three
`Length`s.  Dicts are compared by content, trees by identity. -/
def merge [DecidableEq R] (o c n : HIx D R) : Option (HIx D R) := do
  let heap ← mergeHeap mergeTree o.heap c.heap n.heap
  let wordinfo ← mergeTree o.wordinfo c.wordinfo n.wordinfo
  let docweight ← mergeTree o.docweight c.docweight n.docweight
  let docwords ← mergeTree o.docwords c.docwords n.docwords
  return { heap := heap, wordinfo := wordinfo, docweight := docweight, docwords := docwords,
           wordCount := mergeLength o.wordCount c.wordCount n.wordCount,
           documentCount := mergeLength o.documentCount c.documentCount n.documentCount,
           total := mergeLength o.total c.total n.total }

end HIx

/-- textindex.py:39-51: an index and its lexicon -/
structure HTI (D R : Type) [LinearOrder D] where
  lex : Lexicon
  ix : HIx D R

/-- a call of a transaction.  `counter` is what the lexicon finds when it loads its counter anew (text/lexicon.py:68-75). -/
inductive TOp (D : Type)
  | index (docid : D) (text : TextArg) (counter : Int)
  | unindex (docid : D)

namespace HTI

variable {D R : Type} [LinearOrder D] (K : Kind D R) (pipeline : List Element)

/-- a new text index with a new lexicon -/
def new : HTI D R := { lex := Lexicon.new, ix := HIx.new }

/-- the text index of `Verif.Model.TextIndex`: forget the addresses -/
def view (s : HTI D R) : TI D R := { lex := s.lex, ix := s.ix.view }

/-- textindex.py:53-60: effect of a call -/
def step (s : HTI D R) : TOp D → Except PyErr (HTI D R)
  | .index docid text counter => do
    let r := Lexicon.sourceToWordIds pipeline { s.lex with count := counter } text
    let ix ← HIx.indexDoc K docid r.2 s.ix
    return { lex := r.1, ix := ix }
  | .unindex docid => do
    let ix ← HIx.unindexDoc K docid s.ix
    return { s with ix := ix }

/-- a transaction's calls on a snapshot, creating objects from address `next` on -/
def exec (next : Nat) (s : HTI D R) (ops : List (TOp D)) : Except PyErr (HTI D R) :=
  ops.foldlM (step K pipeline) { s with ix := { s.ix with heap := { s.ix.heap with next := next } } }

/-- conflict resolution of the lexicon and of the index -/
def merge [DecidableEq R] (o c n : HTI D R) : Option (HTI D R) := do
  let lex ← Lexicon.merge o.lex c.lex n.lex
  let ix ← HIx.merge o.ix c.ix n.ix
  return { lex := lex, ix := ix }

/-- transactions on a text index with its lexicon; if a call raises an exception the transaction is aborted -/
def engine [DecidableEq R] : Engine (HTI D R) (TOp D) where
  run next s ops :=
    match exec K pipeline next s ops with
    | .ok s => (s, s.ix.heap.next)
    | .error _ => (s, next)
  fails next s ops :=
    match exec K pipeline next s ops with
    | .ok _ => false
    | .error _ => true
  merge := merge

end HTI
end Verif.Text
