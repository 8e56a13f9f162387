import Verif.Model.QueryParser
import Verif.Model.KeywordHeap

/-! # The query parser as an object

The methods of `src/zope/index/text/queryparser.py` once more, as they are: methods of an object that keep what they know in attributes,
which a later call finds as an earlier one (perhaps one that raised an exception) left them.  The list of ignored terms is an object
of its own, which `getIgnored` and `parseQueryEx` hand out.  `Verif.Proofs.ParserObj` relates this to `Verif.Model.QueryParser`. -/

set_option autoImplicit false

namespace Verif.ParserObj

open QueryParser (Fail)

/-- queryparser.py:66-73: the token types -/
inductive TType
  | and | or | not | lparen | rparen | atom | eof
  deriving DecidableEq, Repr

/-- queryparser.py:109-129: the attributes of a parser; `_ignored` is `None` or a list object.  `_tokens`, `_tokentypes` and `_index` do
not exist before the first call, which nobody can notice. -/
structure Obj where
  tokens : List Word
  types : List TType
  index : Nat
  ignored : Option Nat

/-- a parser, and the lists there are -/
structure Mem where
  obj : Obj
  lists : Heap (List Word)

/-- queryparser.py:109-111 `__init__` -/
def new : Mem := { obj := { tokens := [], types := [], index := 0, ignored := none }, lists := Heap.empty }

/-- a method: its result or exception, and what it leaves behind in either case -/
def PM (α : Type) : Type := Mem → Except Fail α × Mem

instance : Monad PM where
  pure x := fun m => (.ok x, m)
  bind f k := fun m =>
    match f m with
    | (.ok x, m') => k x m'
    | (.error e, m') => (.error e, m')

/-- raise an exception -/
def fail {α : Type} (e : Fail) : PM α := fun m => (.error e, m)

/-- queryparser.py:76-82 and 121-122: `_keywords.get(token.upper(), _ATOM)` -/
def typeOf (upper : Word → Word) (token : Word) : TType :=
  let u := upper token
  if u = ['A', 'N', 'D'] then .and
  else if u = ['O', 'R'] then .or
  else if u = ['N', 'O', 'T'] then .not
  else if u = ['('] then .lparen
  else if u = [')'] then .rparen
  else .atom

/-- `self._tokentypes[self._index]` -/
def currentType : PM TType := fun m =>
  match m.obj.types[m.obj.index]? with
  | none => (.error .index, m)
  | some t => (.ok t, m)

/-- `self._tokens[self._index]` -/
def currentToken : PM Word := fun m =>
  match m.obj.tokens[m.obj.index]? with
  | none => (.error .index, m)
  | some t => (.ok t, m)

/-- `self._index += 1` -/
def advance : PM Unit := fun m => (.ok (), { m with obj := { m.obj with index := m.obj.index + 1 } })

/-- `self._ignored.append(term)` -/
def ignore (term : Word) : PM Unit := fun m =>
  match m.obj.ignored with
  | none => (.error .index, m)                       -- AttributeError; cannot happen, see `Proofs.ParserObj`
  | some a => (.ok (), { m with lists := m.lists.put a ((m.lists.get? a).getD [] ++ [term]) })

/-- queryparser.py:153-158 `_check` -/
def check (t : TType) : PM Bool := do
  let t' ← currentType
  if t' = t then
    advance
    return true
  else return false

/-- queryparser.py:147-151 `_require` (the message reads `self._tokens[self._index]`) -/
def require (t : TType) : PM Unit := do
  let ok ← check t
  if ok then return ()
  else
    let _ ← currentToken
    fail .parse

/-- queryparser.py:160-161 `_peek` -/
def peek (t : TType) : PM Bool := do
  let t' ← currentType
  return decide (t' = t)

/-- queryparser.py:163-166 `_get` -/
def get (t : TType) : PM Word := do
  let token ← currentToken
  require t
  return token

section parser

variable (parseTerms : Word → List Word)

/-- queryparser.py:244-258 `_parseAtom` -/
def parseAtom : PM (Option Node) := do
  let term ← get .atom
  match QueryParser.atomNode (parseTerms term) with
  | none =>
    ignore term
    return none
  | some tree =>
    match term with
    | [] => fail .index
    | c :: _ => if c = '-' then return some (.not tree) else return some tree

/-- queryparser.py:227-228 -/
def atomLoop : Nat → List (Option Node) → PM (List (Option Node))
  | 0, _ => fail .fuel
  | fuel + 1, nodes => do
    if ← peek .atom then
      let n ← parseAtom parseTerms
      atomLoop fuel (nodes ++ [n])
    else return nodes

/-- queryparser.py:229-242 -/
def termTree (nodes : List (Option Node)) : PM (Option Node) := fun m => (QueryParser.termTree nodes, m)

mutual

/-- queryparser.py:168-179 `_parseOrExpr` -/
def parseOr : Nat → PM (Option Node)
  | 0 => fail .fuel
  | fuel + 1 => do
    let n ← parseAnd fuel
    let l ← orLoop fuel [n]
    return QueryParser.orTree l

/-- queryparser.py:171-172 -/
def orLoop : Nat → List (Option Node) → PM (List (Option Node))
  | 0, _ => fail .fuel
  | fuel + 1, l => do
    if ← check .or then
      let n ← parseAnd fuel
      orLoop fuel (l ++ [n])
    else return l

/-- queryparser.py:181-209 `_parseAndExpr` -/
def parseAnd : Nat → PM (Option Node)
  | 0 => fail .fuel
  | fuel + 1 => do
    let t ← parseTerm fuel
    let r ← andLoop fuel t.toList []
    return QueryParser.andTree r.1 r.2

/-- queryparser.py:187-201, the loop; returns `L` and `Nots` -/
def andLoop : Nat → List Node → List Node → PM (List Node × List Node)
  | 0, _, _ => fail .fuel
  | fuel + 1, l, nots => do
    if ← check .and then
      match ← parseNot fuel with
      | none => andLoop fuel l nots
      | some t => if t.isNot then andLoop fuel l (nots ++ [t]) else andLoop fuel (l ++ [t]) nots
    else if ← check .not then
      match ← parseTerm fuel with
      | none => andLoop fuel l nots
      | some t => andLoop fuel l (nots ++ [.not t])
    else return (l, nots)

/-- queryparser.py:211-218 `_parseNotExpr` -/
def parseNot : Nat → PM (Option Node)
  | 0 => fail .fuel
  | fuel + 1 => do
    if ← check .not then
      let t ← parseTerm fuel
      return t.map .not
    else parseTerm fuel

/-- queryparser.py:220-242 `_parseTerm` -/
def parseTerm : Nat → PM (Option Node)
  | 0 => fail .fuel
  | fuel + 1 => do
    if ← check .lparen then
      let tree ← parseOr fuel
      require .rparen
      return tree
    else
      let a ← parseAtom parseTerms
      let nodes ← atomLoop parseTerms fuel [a]
      termTree nodes

end

/-- `"EOF"`, queryparser.py:73 -/
def eofToken : Word := ['E', 'O', 'F']

/-- queryparser.py:117-129: the attributes are set, and a new list is made for the ignored terms -/
def prepare (isSpace : Char → Bool) (upper : Word → Word) (query : Word) : PM Unit := fun m =>
  let tokens := QueryParser.tokenize isSpace query
  (.ok (), { obj := { tokens := tokens ++ [eofToken], types := tokens.map (typeOf upper) ++ [.eof], index := 0,
                      ignored := some m.lists.next },
             lists := m.lists.alloc [] })

/-- queryparser.py:116-135 `parseQuery` -/
def parseQuery (isSpace : Char → Bool) (upper : Word → Word) (query : Word) : PM Node := do
  prepare isSpace upper query
  let tree ← parseOr parseTerms (5 * ((QueryParser.tokenize isSpace query).length + 1) + 5)
  require .eof
  match tree with
  | none => fail .parse
  | some tree => return tree

/-- queryparser.py:137-138 `getIgnored`: `None`, or a list -/
def getIgnored : PM (Option Nat) := fun m => (.ok m.obj.ignored, m)

/-- queryparser.py:140-143 `parseQueryEx` -/
def parseQueryEx (isSpace : Char → Bool) (upper : Word → Word) (query : Word) : PM (Node × Option Nat) := do
  let tree ← parseQuery parseTerms isSpace upper query
  let ignored ← getIgnored
  return (tree, ignored)

/-- what a program does with a parser: it lets it parse a query, or changes a list (one that it got from `getIgnored`, or any) -/
inductive Step
  | parse (query : Word)
  | change (list : Nat) (content : List Word)

/-- effect of a step; an exception is caught by the program -/
def step (isSpace : Char → Bool) (upper : Word → Word) (m : Mem) : Step → Mem
  | .parse query => (parseQuery parseTerms isSpace upper query m).2
  | .change a l => { m with lists := m.lists.put a l }

/-- a parser that has been used -/
def run (isSpace : Char → Bool) (upper : Word → Word) (steps : List Step) : Mem :=
  steps.foldl (step parseTerms isSpace upper) new

end parser
end Verif.ParserObj
