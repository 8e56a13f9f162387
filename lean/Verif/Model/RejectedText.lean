import Verif.Model.TextIndex

/-! # Texts the pipeline rejects

`Lexicon.sourceToWordIds` (lexicon.py:64-76) passes the text through all elements of the pipeline before it looks up a word.  An
element may raise an exception: the regular expressions of `Splitter` and `HTMLWordSplitter` (lexicon.py:190-196,
htmlsplitter.py:26-32) raise TypeError for anything but text, so that `index_doc` raises for a number or a byte string. -/

set_option autoImplicit false

namespace Verif.Text

variable {D R : Type} [LinearOrder D]

/-- baseindex.py:102-130 `index_doc` and `_reindex_doc`, okapiindex.py:240-247, when `sourceToWordIds` raises `e`: what has been
changed by then, and the exception that reaches the caller -/
def rejectedDoc (K : Kind D R) (docid : D) (e : PyErr) (s : Ix D R) : Ix D R × PyErr :=
  if s.docwords.contains docid then
    match subDocLen K docid s with
    | .error e' => (s, e')
    | .ok s' =>
      match getWords s' docid with
      | .error e' => (s', e')
      | .ok oldWids =>
        match K.freqs oldWids with
        | .error e' => (s', e')
        | .ok _ => (s', e)
  else (s, e)

/-- a call on a text index: one with arguments the pipeline accepts, or an `index_doc` with a text on which it raises `e` -/
inductive Attempt (D : Type)
  | made (op : Op D)
  | rejected (docid : D) (e : PyErr)

/-- textindex.py:53-60 with lexicon.py:64-76: effect of a call; the caller catches the exception of a rejected text and goes on with the
index as the call has left it.  The lexicon has not been changed by then. -/
def stepAttempt (K : Kind D R) (pipeline : List Element) (s : TI D R) : Attempt D → Except PyErr (TI D R)
  | .made op => step K pipeline s op
  | .rejected docid e => .ok { s with ix := (rejectedDoc K docid e s.ix).1 }

/-- textindex.py:39-60: a history of such calls on a new text index -/
def runAttempts (K : Kind D R) (pipeline : List Element) (calls : List (Attempt D)) : Except PyErr (TI D R) :=
  calls.foldlM (stepAttempt K pipeline) { lex := Lexicon.new, ix := new }

end Verif.Text
