import Verif.Model.Base
import Mathlib.Data.Int.Order.Basic

/-! # Model of `src/zope/index/text/lexicon.py`

Words and texts are lists of characters.  What Python's `re` calls a word character (`\w` with unicode strings) and what
`str.lower()` does are parameters `isW` and `lower`.  Pipeline elements are pure functions; `Splitter`, `CaseNormalizer` and the
stop word removers are instances.  Word ids are unbounded integers (an `OIBTree` holds 32 bit ones). -/

set_option autoImplicit false

namespace Verif

/-- a word or text -/
abbrev Word := List Char

/-- a pipeline element: its method `process` and, if it has one, `processGlob` -/
structure Element where
  process : List Word → List Word
  processGlob : Option (List Word → List Word)

/-- the `text` argument: `None`, a `str` or a list of `str` -/
inductive TextArg
  | none
  | str (s : Word)
  | list (l : List Word)

/-- text/lexicon.py:37-46, the attributes of `Lexicon` that change -/
structure Lexicon where
  wids : SMap Word Int
  words : SMap Int Word
  count : Int          -- the value of the `Length` object `wordCount`

namespace Lexicon

/-- text/lexicon.py:37-46 `__init__` -/
def new : Lexicon := { wids := SMap.empty, words := SMap.empty, count := 0 }

/-- text/lexicon.py:46 and 48-51: `wordCount()`, the `Length` object of the instance being called -/
def wordCount (s : Lexicon) : Int := s.count

/-- text/lexicon.py:158-165 `_text2list`, for the three kinds of argument; `none` is Python's `None` -/
def text2list : TextArg → Option (List Word)
  | .none => none
  | .str s => some [s]
  | .list l => some l

/-- text/lexicon.py:66-67 and 80-81: `for element in self._pipeline: last = element.process(last)` -/
def runPipeline (pipeline : List Element) (last : List Word) : List Word :=
  pipeline.foldl (fun last element => element.process last) last

/-- text/lexicon.py:151-154: the loop `while count() in self._words: count.change(1)`.  Each iteration meets another key, so
`len(self._words) + 1` iterations are enough (theorem `C40_terminates`). -/
def bump (words : SMap Int Word) : Nat → Int → Int
  | 0, count => count
  | fuel + 1, count => if words.contains count then bump words fuel (count + 1) else count

/-- text/lexicon.py:149-155 `_new_wid`: the counter afterwards, which is the id returned -/
def newWid (s : Lexicon) : Int := bump s.words (s.words.len + 1) (s.count + 1)

/-- text/lexicon.py:141-147 `_getWordIdCreate` -/
def getWordIdCreate (s : Lexicon) (word : Word) : Lexicon × Int :=
  match s.wids.get? word with
  | some wid => (s, wid)
  | none =>
    let wid := s.newWid
    ({ wids := s.wids.set word wid, words := s.words.set wid word, count := wid }, wid)

/-- text/lexicon.py:76 `list(map(self._getWordIdCreate, last))` -/
def createAll (s : Lexicon) : List Word → Lexicon × List Int
  | [] => (s, [])
  | w :: ws =>
    let r := s.getWordIdCreate w
    let t := createAll r.1 ws
    (t.1, r.2 :: t.2)

/-- text/lexicon.py:63-64: `None` counts as `''` -/
def sourceText : TextArg → List Word
  | .none => [[]]
  | .str s => [s]
  | .list l => l

/-- text/lexicon.py:62-76 `sourceToWordIds`.  The counter is reloaded from the database (line 75); `reload` below lets it be
replaced by any value at any time, so nothing more is needed here. -/
def sourceToWordIds (pipeline : List Element) (s : Lexicon) (text : TextArg) : Lexicon × List Int :=
  s.createAll (runPipeline pipeline (sourceText text))

/-- text/lexicon.py:100-101 `get_wid` -/
def getWid (s : Lexicon) (word : Word) : Int := (s.wids.get? word).getD 0

/-- text/lexicon.py:97-98 `get_word` -/
def getWord (s : Lexicon) (wid : Int) : Except PyErr Word :=
  match s.words.get? wid with
  | none => .error .KeyError
  | some w => .ok w

/-- text/lexicon.py:78-85 `termToWordIds`; iterating over `None` is a `TypeError` (raised by the first pipeline element, or by
the loop of line 83) -/
def termToWordIds (pipeline : List Element) (s : Lexicon) (text : TextArg) : Except PyErr (List Int) :=
  match text2list text with
  | none => .error .TypeError
  | some last => .ok ((runPipeline pipeline last).map s.getWid)

/-- text/lexicon.py:89-91: `process = getattr(element, "processGlob", element.process)` -/
def runGlobPipeline (pipeline : List Element) (last : List Word) : List Word :=
  pipeline.foldl (fun last element => (element.processGlob.getD element.process) last) last

/-- text/lexicon.py:87-92 `parseTerms` of a `str` -/
def parseTerms (pipeline : List Element) (text : Word) : List Word := runGlobPipeline pipeline [text]

/-- text/lexicon.py:94-95 `isGlob` -/
def isGlob (word : Word) : Bool := word.contains '*' || word.contains '?'

/-- `c in "*?"` -/
def isGlobChar (c : Char) : Bool := c = '*' || c = '?'

/-- an item of the regular expression built by text/lexicon.py:122-130 -/
inductive Pat
  | lit (c : Char)     -- an escaped (or ordinary) character
  | any                -- `.`, which does not match a newline
  | anyStar            -- `.*`
  deriving DecidableEq

/-- text/lexicon.py:123-129, one character after the prefix -/
def toPat (c : Char) : Pat := if c = '*' then .anyStar else if c = '?' then .any else .lit c

/-- `.*` followed by the rest of the pattern, on a string -/
def starMatch (rest : Word → Bool) : Word → Bool
  | [] => rest []
  | c :: s => rest (c :: s) || (c ≠ '\n' && starMatch rest s)

/-- `re.compile(pat + "$").match(s)`: `$` matches at the end and before a newline at the end -/
def reMatch : List Pat → Word → Bool
  | [] => fun s => s = [] || s = ['\n']
  | .lit c :: p => fun s => match s with
    | [] => false
    | a :: s => a = c && reMatch p s
  | .any :: p => fun s => match s with
    | [] => false
    | a :: s => a ≠ '\n' && reMatch p s
  | .anyStar :: p => starMatch (reMatch p)

/-- the characters with a special meaning in a regular expression -/
def metaChars : List Char := ['.', '^', '$', '*', '+', '?', '{', '}', '\\', '[', ']', '|', '(', ')']

/-- the same without the `.` -/
def specialChars : List Char := ['^', '$', '*', '+', '?', '{', '}', '\\', '[', ']', '|', '(', ')']

/-- the same without `.`, `^` and `$`: what they mean depends on the characters around them -/
def oddChars : List Char := ['*', '+', '?', '{', '}', '\\', '[', ']', '|', '(', ')']

/-- the prefix as (the beginning of) a regular expression, without the characters of `oddChars`, followed by `rest`: `^` matches at
the start of the string only (`start`: no character was matched yet), `$` at the end and before a newline at the end, `.` any
character but a newline, and other characters match themselves -/
def preMatch (rest : Word → Bool) : Bool → Word → Word → Bool
  | _, [], s => rest s
  | start, c :: pre, s =>
    if c = '^' then start && preMatch rest start pre s
    else if c = '$' then (s = [] || s = ['\n']) && preMatch rest start pre s
    else match s with
      | [] => false
      | a :: s => (if c = '.' then a ≠ '\n' else a = c) && preMatch rest false pre s

/-- text/lexicon.py:122-131, 136: `prog = re.compile(pat)`, as the function `key ↦ prog.match(key)`.  The prefix is put into the
regular expression as it is (line 122); when it contains a character of `oddChars` the outcome (`re.error` or a regular expression)
is left open: `odd pattern`. -/
def compile (odd : Word → Except PyErr (Word → Bool)) (pre pat : Word) : Except PyErr (Word → Bool) :=
  if pre.any (fun c => oddChars.contains c) then odd (pre ++ pat)
  else .ok (preMatch (reMatch (pat.map toPat)) true pre)

/-- text/lexicon.py:134-138: the loop over the keys, with the `break` -/
def globLoop (prog : Word → Bool) (pre : Word) : List (Word × Int) → List Int
  | [] => []
  | (key, wid) :: rest =>
    if pre.isPrefixOf key then if prog key then wid :: globLoop prog pre rest else globLoop prog pre rest
    else []

/-- text/lexicon.py:103-139 `globToWordIds` -/
def globToWordIds (odd : Word → Except PyErr (Word → Bool)) (s : Lexicon) (pattern : Word) : Except PyErr (List Int) :=
  let pre := pattern.takeWhile (fun c => !isGlobChar c)
  let pat := pattern.dropWhile (fun c => !isGlobChar c)
  if pat.isEmpty then
    let wid := s.getWid pre
    .ok (if wid ≠ 0 then [wid] else [])
  else if pre.isEmpty then .error .GlobQueryError
  else do
    let prog ← compile odd pre pat
    return globLoop prog pre (s.wids.range (some pre) none).items

/-- a call that may change the lexicon, or a reload of the counter from the database -/
inductive Op
  | source (text : TextArg)
  | reload (n : Int)

/-- effect of a call -/
def step (pipeline : List Element) (s : Lexicon) : Op → Lexicon
  | .source t => (s.sourceToWordIds pipeline t).1
  | .reload n => { s with count := n }

/-- a history of calls on a lexicon -/
def runFrom (pipeline : List Element) (s : Lexicon) (ops : List Op) : Lexicon := ops.foldl (step pipeline) s

/-- a history of calls on a new lexicon -/
def run (pipeline : List Element) (ops : List Op) : Lexicon := runFrom pipeline new ops

end Lexicon

/-! ## Pipeline elements (text/lexicon.py:170-225) -/

namespace Splitter

/-- `rx.findall(s)` for a pattern `[A]+[B]*` of character classes with `A ⊆ B`: leftmost, greedy, non-overlapping.  `fuel` at
least the length of the string. -/
def findallF (isA isB : Char → Bool) : Nat → Word → List Word
  | 0, _ => []
  | _, [] => []
  | fuel + 1, c :: t =>
    if isA c then (c :: t.takeWhile isB) :: findallF isA isB fuel (t.dropWhile isB)
    else findallF isA isB fuel t

/-- `re.findall` of `[A]+[B]*` -/
def findall (isA isB : Char → Bool) (s : Word) : List Word := findallF isA isB s.length s

/-- text/lexicon.py:170-183 `rx = \w+`, `process` -/
def process (isW : Char → Bool) (lst : List Word) : List Word := lst.flatMap (findall isW isW)

/-- text/lexicon.py:177, 185-189 `rxGlob = \w+[\w*?]*`, `processGlob` -/
def processGlob (isW : Char → Bool) (lst : List Word) : List Word :=
  lst.flatMap (findall isW (fun c => isW c || Lexicon.isGlobChar c))

/-- text/lexicon.py:170-189 `Splitter` -/
def element (isW : Char → Bool) : Element := { process := process isW, processGlob := some (processGlob isW) }

end Splitter

/-- text/lexicon.py:192-200 `CaseNormalizer` -/
def caseNormalizer (lower : Word → Word) : Element := { process := fun l => l.map lower, processGlob := none }

/-- text/lexicon.py:203-215 `StopWordRemover`, with the given dictionary -/
def stopWordRemover (stop : Word → Bool) : Element :=
  { process := fun l => l.filter (fun w => !stop w), processGlob := none }

/-- text/stopdict.py:27-33 `_words` -/
def stopWords : List Word :=
  [['a'], ['a', 'n', 'd'], ['a', 'r', 'e'], ['a', 's'], ['a', 't'], ['b', 'e'], ['b', 'u', 't'], ['b', 'y'],
   ['f', 'o', 'r'], ['i', 'f'], ['i', 'n'], ['i', 'n', 't', 'o'], ['i', 's'], ['i', 't'], ['n', 'o'], ['n', 'o', 't'],
   ['o', 'f'], ['o', 'n'], ['o', 'r'], ['s', 'u', 'c', 'h'], ['t', 'h', 'a', 't'], ['t', 'h', 'e'],
   ['t', 'h', 'e', 'i', 'r'], ['t', 'h', 'e', 'n'], ['t', 'h', 'e', 'r', 'e'], ['t', 'h', 'e', 's', 'e'],
   ['t', 'h', 'e', 'y'], ['t', 'h', 'i', 's'], ['t', 'o'], ['w', 'a', 's'], ['w', 'i', 'l', 'l'], ['w', 'i', 't', 'h']]

/-- text/stopdict.py:21-37 `get_stopdict` -/
def isStop (w : Word) : Bool := stopWords.contains w

/-- text/lexicon.py:218-225 `StopWordAndSingleCharRemover`: `dict[chr(c)]` for `c in range(255)` -/
def isStopOrSingle (w : Word) : Bool :=
  isStop w || (match w with
    | [c] => decide (c.toNat < 255)
    | _ => false)

end Verif
