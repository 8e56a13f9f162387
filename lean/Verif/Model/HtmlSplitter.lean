import Verif.Model.Lexicon

/-! # Model of `src/zope/index/text/htmlsplitter.py` -/

set_option autoImplicit false

namespace Verif.Html

/-- `[A-Za-z]` -/
def isLetter (c : Char) : Bool := decide ('A' ≤ c ∧ c ≤ 'Z') || decide ('a' ≤ c ∧ c ≤ 'z')

/-- what follows `[^<>]*>` at the beginning of a string, if it begins so -/
def tagRest (s : Word) : Option Word :=
  match s.dropWhile (fun c => c ≠ '<' && c ≠ '>') with
  | '>' :: r => some r
  | _ => none

/-- what follows `[A-Za-z]+;` at the beginning of a string, if it begins so -/
def entityRest (s : Word) : Option Word :=
  if (s.takeWhile isLetter).isEmpty then none
  else match s.dropWhile isLetter with
    | ';' :: r => some r
    | _ => none

/-- htmlsplitter.py:23: what follows a match of `<[^<>]*>|&[A-Za-z]+;` at the beginning of `c :: t` -/
def markupRest (c : Char) (t : Word) : Option Word :=
  if c = '<' then tagRest t else if c = '&' then entityRest t else none

/-- `MARKUP.sub(' ', s)`; `fuel` at least the length of the string -/
def subF : Nat → Word → Word
  | 0, _ => []
  | _, [] => []
  | fuel + 1, c :: t =>
    match markupRest c t with
    | some r => ' ' :: subF fuel r
    | none => c :: subF fuel t

/-- htmlsplitter.py:52 `MARKUP.sub(' ', s)` -/
def sub (s : Word) : Word := subF s.length s

/-- htmlsplitter.py:51-53 `_split`, with `pattern` the regular expression's `findall` -/
def split (lower : Word → Word) (pattern : Word → List Word) (text : Word) : List Word := pattern (sub (lower text))

/-- htmlsplitter.py:45-49 `_apply` -/
def apply (lower : Word → Word) (pattern : Word → List Word) (text : List Word) : List Word :=
  text.flatMap (split lower pattern)

/-- htmlsplitter.py:26, 38-39 `process` -/
def process (isW : Char → Bool) (lower : Word → Word) (text : List Word) : List Word :=
  apply lower (Splitter.findall isW isW) text

/-- htmlsplitter.py:27, 41-43 `processGlob` -/
def processGlob (isW : Char → Bool) (lower : Word → Word) (text : List Word) : List Word :=
  apply lower (Splitter.findall isW (fun c => isW c || Lexicon.isGlobChar c)) text

/-- htmlsplitter.py:31-53 `HTMLWordSplitter` -/
def element (isW : Char → Bool) (lower : Word → Word) : Element :=
  { process := process isW lower, processGlob := some (processGlob isW lower) }

end Verif.Html
