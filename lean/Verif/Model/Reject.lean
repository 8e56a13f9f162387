import Verif.Model.Field
import Verif.Model.Keyword
import Verif.Model.TextIndex

/-! # Calls with a docid the trees do not accept

The trees and sets of a family take only some objects as docids: anything but an int is a `TypeError` when it is stored.
`ok d` says that `d` is accepted.  Looking a docid up (`in`, `get`) never raises: an unacceptable docid is just not there.
The functions below are those of `field/index.py`, `keyword/index.py` and `text/baseindex.py` once more, with the state each
leaves behind when storing the docid raises.

Not modelled: ints too large for the trees, values and words an `OOBTree` does not accept (these raise in the first lookup, before
anything is changed), and words that are not strings. -/

set_option autoImplicit false

namespace Verif

namespace Field

variable {D V : Type} [LinearOrder D] [LinearOrder V]

/-- field/index.py:73-84, the inserting part of `index_doc`: the new empty set is stored in the forward index before the docid
is put into it -/
def insertChecked (ok : D → Bool) (s : Field D V) (d : D) (v : V) : Field D V × Option PyErr :=
  let set := match s.fwd.get? v with
    | none => (SMap.empty : SSet D)
    | some set => set
  let s := match s.fwd.get? v with
    | none => { s with fwd := s.fwd.set v set }
    | some _ => s
  if ok d then
    ({ fwd := s.fwd.set v (SSet.insert set d), rev := s.rev.set d v, numDocs := s.numDocs + 1 }, none)
  else (s, some .TypeError)

/-- field/index.py:65-84 `index_doc`: the state reached, and the exception that escaped, if any -/
def indexChecked (ok : D → Bool) (s : Field D V) (d : D) (v : V) : Field D V × Option PyErr :=
  if s.rev.contains d then
    if s.upToDate d v then (s, none)
    else insertChecked ok (s.unindexDoc d) d v
  else insertChecked ok s d v

/-- effect of a call, and the exception it raises -/
def stepChecked (ok : D → Bool) (s : Field D V) : Op D V → Field D V × Option PyErr
  | .index d v => s.indexChecked ok d v
  | .unindex d => (s.unindexDoc d, none)
  | .clear => (s.clear, none)

/-- the index after a history of calls on a new one, exceptions being caught by the caller -/
def runChecked (ok : D → Bool) (ops : List (Op D V)) : Field D V :=
  ops.foldl (fun s op => (stepChecked ok s op).1) new

end Field

namespace Keyword

variable {D W : Type} [LinearOrder D] [LinearOrder W]

/-- keyword/index.py:144-152, the loop of `_insert_forward`: `word_idx.insert(docid)` raises after the empty set of a new word was
stored -/
def insertForwardChecked (ok : D → Bool) (threshold : Int) (fwd : SMap W (DocSet D)) (d : D) :
    List W → SMap W (DocSet D) × Option PyErr
  | [] => (fwd, none)
  | w :: ws =>
    let stored := match fwd.get? w with
      | none => fwd.set w { isTree := false, ids := SMap.empty }
      | some _ => fwd
    if ok d then insertForwardChecked ok threshold (insertWord threshold d fwd w) d ws
    else (stored, some .TypeError)

/-- keyword/index.py:81-114 `index_doc`: the state reached, and the exception that escaped, if any.  When no keyword is left
after `normalize`, nothing is stored, and the docid is counted although no tree ever saw it. -/
def indexChecked (ok : D → Bool) (normalize : List W → List W) (s : Keyword D W) (d : D) (seq : SeqArg W) :
    Keyword D W × Option PyErr :=
  match seq with
  | .str => (s, some .TypeError)
  | .seq truthy items =>
    let oldKw := s.rev.get? d
    if !truthy then
      match oldKw with
      | none => (s, none)
      | some kw => if kw.isEmpty then (s, none) else (s.unindexDoc d, none)
    else
      let newKw := SSet.ofList (normalize items)
      match oldKw with
      | none =>
        let r := insertForwardChecked ok s.treeThreshold s.fwd d newKw.keys
        match r.2 with
        | some e => ({ s with fwd := r.1 }, some e)
        | none =>
          ({ s with fwd := r.1, rev := insertReverse s.rev d newKw, numDocs := s.numDocs + 1 }, none)
      | some oldKw =>
        let added := SSet.diff newKw oldKw
        let removed := SSet.diff oldKw newKw
        let r := removeWords s.fwd d removed.keys
        if r.2 then ({ s with fwd := r.1 }, some .KeyError)
        else
          let r' := insertForwardChecked ok s.treeThreshold r.1 d added.keys
          match r'.2 with
          | some e => ({ s with fwd := r'.1 }, some e)
          | none => ({ s with fwd := r'.1, rev := insertReverse s.rev d newKw }, none)

/-- effect of a call, and the exception it raises -/
def stepChecked (ok : D → Bool) (normalize : List W → List W) (s : Keyword D W) : Op D W → Keyword D W × Option PyErr
  | .index d seq => s.indexChecked ok normalize d seq
  | .unindex d => (s.unindexDoc d, none)
  | .clear => (s.clear, none)
  | .optimize => (s.optimize, none)
  | .setThreshold n => ({ s with treeThreshold := n }, none)

/-- the index after a history of calls on a new one, exceptions being caught by the caller -/
def runChecked (ok : D → Bool) (normalize : List W → List W) (ops : List (Op D W)) : Keyword D W :=
  ops.foldl (fun s op => (stepChecked ok normalize s op).1) new

end Keyword

namespace Text

variable {D R : Type} [LinearOrder D]

/-- baseindex.py:273-276, conversion of a dict with `DICT_CUTOFF` entries: `IF.BTree(doc2score)` raises when one of its keys is
not a docid -/
def D2S.growChecked (ok : D → Bool) (A : Arith R) (e : D2S D R) : Except PyErr (D2S D R) :=
  if !e.tree && e.map.len = 10 then
    if e.map.keys.all ok then .ok { tree := true, map := e.map.mapVals (fun _ v => A.store v) } else .error .TypeError
  else .ok e

/-- `doc2score[docid] = weight`: a dict takes anything, a tree does not -/
def D2S.putChecked (ok : D → Bool) (A : Arith R) (e : D2S D R) (docid : D) (f : R) : Except PyErr (D2S D R) :=
  if e.tree && !ok docid then .error .TypeError else .ok (e.put A docid f)

/-- baseindex.py:290-308 `_mass_add_wordinfo`: the new `_wordinfo`, `new_word_count` and the exception that stopped the loop -/
def massLoopChecked (ok : D → Bool) (A : Arith R) (docid : D) (wordinfo : SMap Int (D2S D R)) (count : Int) :
    List (Int × R) → SMap Int (D2S D R) × Int × Option PyErr
  | [] => (wordinfo, count, none)
  | (wid, weight) :: rest =>
    match wordinfo.get? wid with
    | none =>
      let doc2score : D2S D R := { tree := false, map := SMap.empty }
      match doc2score.putChecked ok A docid weight with
      | .error e => (wordinfo, count + 1, some e)
      | .ok doc2score => massLoopChecked ok A docid (wordinfo.set wid doc2score) (count + 1) rest
    | some doc2score =>
      match doc2score.growChecked ok A with
      | .error e => (wordinfo, count, some e)
      | .ok doc2score =>
        match doc2score.putChecked ok A docid weight with
        | .error e => (wordinfo, count, some e)
        | .ok doc2score => massLoopChecked ok A docid (wordinfo.set wid doc2score) count rest

/-- baseindex.py:102-110 `index_doc` of a docid that is not in the index, up to the assignment to `_docweight`: the state reached
and the exception; okapiindex.py:240-243 adds to the total only when this returns -/
def indexNewChecked (ok : D → Bool) (K : Kind D R) (docid : D) (wids : List Int) (s : Ix D R) : Ix D R × Option PyErr :=
  match K.freqs wids with
  | .error e => (s, some e)
  | .ok r =>
    let m := massLoopChecked ok K.arith docid s.wordinfo 0 r.1
    match m.2.2 with
    | some e => ({ s with wordinfo := m.1 }, some e)
    | none =>
      let s := { s with wordinfo := m.1, wordCount := s.wordCount + m.2.1 }
      if !ok docid then (s, some .TypeError)
      else
        let s := { s with docweight := s.docweight.set docid (K.arith.store r.2) }
        match WidCode.encode wids with
        | .error e => (s, some e)
        | .ok code =>
          (changeDocLen K wids.length
            { s with docwords := s.docwords.set docid code, documentCount := s.documentCount + 1 }, none)

/-- textindex.py:53-56 `index_doc` of a docid that is not in the index, with its lexicon -/
def TI.indexNewChecked (ok : D → Bool) (K : Kind D R) (pipeline : List Element) (s : TI D R) (docid : D) (text : TextArg) :
    TI D R × Option PyErr :=
  let r := s.lex.sourceToWordIds pipeline text
  let x := Text.indexNewChecked ok K docid r.2 s.ix
  ({ lex := r.1, ix := x.1 }, x.2)

end Text
end Verif
