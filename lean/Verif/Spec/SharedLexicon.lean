import Verif.Model.TextIndex
import Verif.Model.ParseTree

/-! # Answers that do not depend on the lexicon (C73) -/

set_option autoImplicit false

namespace Verif.Spec

open Text

/-- the words of a document: `[lexicon.get_word(wid) for wid in index.get_words(docid)]` -/
def wordsAt {D R : Type} [LinearOrder D] (s : TI D R) (d : D) : Except PyErr (List Word) := do
  let wids ← getWords s.ix d
  wids.mapM s.lex.getWord

/-- two text indexes answer alike, scores included, to all calls but those with phrases; word ids may differ -/
structure SameWords {D R : Type} [LinearOrder D] (K : Kind D R) (pipeline : List Element) (s s' : TI D R) : Prop where
  documentCount : s.documentCount = s'.documentCount
  wordCount : s.wordCount = s'.wordCount
  hasDoc : ∀ d, hasDoc s.ix d = hasDoc s'.ix d
  words : ∀ d, wordsAt s d = wordsAt s' d
  search : ∀ t, Text.search K pipeline s.lex s.ix t = Text.search K pipeline s'.lex s'.ix t
  searchGlob : ∀ odd w, Text.searchGlob K odd s.lex s.ix w = Text.searchGlob K odd s'.lex s'.ix w
  queryWeight : ∀ terms, Text.queryWeight K pipeline s terms = Text.queryWeight K pipeline s' terms

mutual
/-- the phrases of a query -/
def phrases : Node → List (List Word)
  | .atom _ => []
  | .phrase ws => [ws]
  | .glob _ => []
  | .not n => phrases n
  | .and l => phrasesAll l
  | .or l => phrasesAll l

/-- the phrases of several queries -/
def phrasesAll : List Node → List (List Word)
  | [] => []
  | n :: rest => phrases n ++ phrasesAll rest
end

/-- the calls to the index, without those of the other users of the lexicon -/
def ownCalls {D : Type} (ops : List (Text.Op D)) : List (Text.Op D) :=
  ops.filter (fun op => match op with | .lexicon _ => false | _ => true)

end Verif.Spec
