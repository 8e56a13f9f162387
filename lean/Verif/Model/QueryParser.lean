import Verif.Model.Lexicon

/-! # Model of `src/zope/index/text/queryparser.py` and of the nodes of `src/zope/index/text/parsetree.py`

White space (`\s`) and `str.upper()` are parameters.  The lexicon enters through its method `parseTerms`, also a parameter;
`isGlob` is that of `text/lexicon.py`. -/

set_option autoImplicit false

namespace Verif

/-- text/parsetree.py:32-145, the parse tree nodes with their values -/
inductive Node
  | atom (w : Word)
  | phrase (ws : List Word)
  | glob (w : Word)
  | not (n : Node)
  | and (l : List Node)
  | or (l : List Node)
  deriving Repr

namespace Node

/-- `isinstance(n, parsetree.NotNode)` -/
def isNot : Node → Bool
  | .not _ => true
  | _ => false

end Node

namespace QueryParser

/-! ## Lexical analysis -/

/-- `[^()\s"]` -/
def isPlain (isSpace : Char → Bool) (c : Char) : Bool := c ≠ '(' && c ≠ ')' && c ≠ '"' && !isSpace c

/-- `[^"]* "` at the beginning of a string: the text before the quote and what follows the quote -/
def quotedRest (s : Word) : Option (Word × Word) :=
  match s.dropWhile (fun c => c ≠ '"') with
  | [] => none
  | _ :: r => some (s.takeWhile (fun c => c ≠ '"'), r)

/-- a match of `[^()\s"]+` at the beginning of `c :: t`, where `c` is in the class -/
def plainToken (isSpace : Char → Bool) (c : Char) (t : Word) : Word × Word :=
  (c :: t.takeWhile (isPlain isSpace), t.dropWhile (isPlain isSpace))

/-- a match of the regular expression of queryparser.py:85-97 at the beginning of `c :: t`: the token and the rest.  After a
hyphen the regular expression first tries a quoted string, then a stretch without white space, parentheses and quotes; if both
fail it goes back and takes the hyphen for the beginning of such a stretch. -/
def tokenAt (isSpace : Char → Bool) (c : Char) (t : Word) : Option (Word × Word) :=
  if c = '(' || c = ')' then some ([c], t)
  else if c = '"' then (quotedRest t).map (fun p => (('"' :: p.1) ++ ['"'], p.2))
  else if c = '-' then
    match t with
    | '"' :: t' =>
      match quotedRest t' with
      | some p => some (('-' :: '"' :: p.1) ++ ['"'], p.2)
      | none => some (plainToken isSpace c t)
    | _ => some (plainToken isSpace c t)
  else if isSpace c then none
  else some (plainToken isSpace c t)

/-- `_tokenizer_regex.findall(query)`; `fuel` at least the length of the string -/
def tokenizeF (isSpace : Char → Bool) : Nat → Word → List Word
  | 0, _ => []
  | _, [] => []
  | fuel + 1, c :: t =>
    match tokenAt isSpace c t with
    | some p => p.1 :: tokenizeF isSpace fuel p.2
    | none => tokenizeF isSpace fuel t

/-- queryparser.py:118 -/
def tokenize (isSpace : Char → Bool) (query : Word) : List Word := tokenizeF isSpace query.length query

/-- a token type of queryparser.py:67-73; atoms carry their text (`_tokens` and `_tokentypes` are kept in one list) -/
inductive Tok
  | and | or | not | lparen | rparen
  | atom (term : Word)
  | eof
  deriving DecidableEq, Repr

/-- queryparser.py:76-82 and 121-122: `_keywords.get(token.upper(), _ATOM)` -/
def classify (upper : Word → Word) (token : Word) : Tok :=
  let u := upper token
  if u = ['A', 'N', 'D'] then .and
  else if u = ['O', 'R'] then .or
  else if u = ['N', 'O', 'T'] then .not
  else if u = ['('] then .lparen
  else if u = [')'] then .rparen
  else .atom token

/-- queryparser.py:118-125: the classified tokens, with the end marker -/
def tokens (isSpace : Char → Bool) (upper : Word → Word) (query : Word) : List Tok :=
  (tokenize isSpace query).map (classify upper) ++ [.eof]

/-! ## Syntactical analysis -/

/-- what a parsing method can raise: `ParseError`, or `IndexError` from an access to the token list (or to `term[0]`); `fuel`
is not an exception but says that the model's recursion depth was too small (`C46_total` shows that it never is) -/
inductive Fail
  | parse | index | fuel
  deriving DecidableEq, Repr

/-- queryparser.py:126, 129: `_index` and `_ignored` -/
structure St where
  index : Nat
  ignored : List Word
  deriving DecidableEq

section parser

variable (parseTerms : Word → List Word) (toks : List Tok)

/-- queryparser.py:153-158 `_check` -/
def check (t : Tok) (st : St) : Except Fail (Bool × St) :=
  match toks[st.index]? with
  | none => .error .index
  | some t' => if t' = t then .ok (true, { st with index := st.index + 1 }) else .ok (false, st)

/-- queryparser.py:147-151 `_require` -/
def require (t : Tok) (st : St) : Except Fail St := do
  let r ← check toks t st
  if r.1 then return r.2 else .error .parse

/-- queryparser.py:160-161 `_peek(_ATOM)` -/
def peekAtom (st : St) : Except Fail Bool :=
  match toks[st.index]? with
  | none => .error .index
  | some (.atom _) => .ok true
  | some _ => .ok false

/-- queryparser.py:163-166 `_get(_ATOM)` -/
def getAtom (st : St) : Except Fail (Word × St) :=
  match toks[st.index]? with
  | none => .error .index
  | some (.atom term) => .ok (term, { st with index := st.index + 1 })
  | some _ => .error .parse

/-- queryparser.py:250-255: the node for the words of a term -/
def atomNode (words : List Word) : Option Node :=
  match words with
  | [] => none
  | [w] => if Lexicon.isGlob w then some (.glob w) else some (.atom w)
  | ws => some (.phrase ws)

/-- queryparser.py:244-258 `_parseAtom` -/
def parseAtom (st : St) : Except Fail (Option Node × St) := do
  let r ← getAtom toks st
  match atomNode (parseTerms r.1) with
  | none => return (none, { r.2 with ignored := r.2.ignored ++ [r.1] })
  | some tree =>
    match r.1 with
    | [] => .error .index
    | c :: _ => if c = '-' then return (some (.not tree), r.2) else return (some tree, r.2)

/-- queryparser.py:227-228: `while self._peek(_ATOM): nodes.append(self._parseAtom())` -/
def atomLoop : Nat → List (Option Node) → St → Except Fail (List (Option Node) × St)
  | 0, _, _ => .error .fuel
  | fuel + 1, nodes, st => do
    if ← peekAtom toks st then
      let r ← parseAtom parseTerms toks st
      atomLoop fuel (nodes ++ [r.1]) r.2
    else return (nodes, st)

/-- queryparser.py:229-242: from the atoms to the tree.  Sorting the triples (is a NOT, position, node) puts the nodes that are
not NOT first and otherwise keeps the order. -/
def termTree (nodes : List (Option Node)) : Except Fail (Option Node) :=
  let nodes := nodes.filterMap id
  if nodes.isEmpty then .ok none
  else
    let nodes := nodes.filter (fun n => !n.isNot) ++ nodes.filter (fun n => n.isNot)
    match nodes with
    | [] => .ok none
    | n :: rest =>
      if n.isNot then .error .parse
      else if rest.isEmpty then .ok (some n)
      else .ok (some (.and (n :: rest)))

/-- queryparser.py:173-179: the tree of an OrExpr -/
def orTree (l : List (Option Node)) : Option Node :=
  match l.filterMap id with
  | [] => none
  | [n] => some n
  | l => some (.or l)

/-- queryparser.py:202-209: the tree of an AndExpr -/
def andTree (l nots : List Node) : Option Node :=
  if l.isEmpty then none
  else
    match l ++ nots with
    | [n] => some n
    | l => some (.and l)

mutual

/-- queryparser.py:168-179 `_parseOrExpr` -/
def parseOr : Nat → St → Except Fail (Option Node × St)
  | 0, _ => .error .fuel
  | fuel + 1, st => do
    let r ← parseAnd fuel st
    let r ← orLoop fuel [r.1] r.2
    return (orTree r.1, r.2)

/-- queryparser.py:171-172: `while self._check(_OR): L.append(self._parseAndExpr())` -/
def orLoop : Nat → List (Option Node) → St → Except Fail (List (Option Node) × St)
  | 0, _, _ => .error .fuel
  | fuel + 1, l, st => do
    let c ← check toks .or st
    if c.1 then
      let r ← parseAnd fuel c.2
      orLoop fuel (l ++ [r.1]) r.2
    else return (l, st)

/-- queryparser.py:181-209 `_parseAndExpr` -/
def parseAnd : Nat → St → Except Fail (Option Node × St)
  | 0, _ => .error .fuel
  | fuel + 1, st => do
    let r ← parseTerm fuel st
    let r ← andLoop fuel r.1.toList [] r.2
    return (andTree r.1 r.2.1, r.2.2)

/-- queryparser.py:187-201, the loop; returns `L`, `Nots` and the state -/
def andLoop : Nat → List Node → List Node → St → Except Fail (List Node × List Node × St)
  | 0, _, _, _ => .error .fuel
  | fuel + 1, l, nots, st => do
    let c ← check toks .and st
    if c.1 then
      let r ← parseNot fuel c.2
      match r.1 with
      | none => andLoop fuel l nots r.2
      | some t => if t.isNot then andLoop fuel l (nots ++ [t]) r.2 else andLoop fuel (l ++ [t]) nots r.2
    else
      let c ← check toks .not st
      if c.1 then
        let r ← parseTerm fuel c.2
        match r.1 with
        | none => andLoop fuel l nots r.2
        | some t => andLoop fuel l (nots ++ [.not t]) r.2
      else return (l, nots, st)

/-- queryparser.py:211-218 `_parseNotExpr` -/
def parseNot : Nat → St → Except Fail (Option Node × St)
  | 0, _ => .error .fuel
  | fuel + 1, st => do
    let c ← check toks .not st
    if c.1 then
      let r ← parseTerm fuel c.2
      return (r.1.map .not, r.2)
    else parseTerm fuel st

/-- queryparser.py:220-242 `_parseTerm` -/
def parseTerm : Nat → St → Except Fail (Option Node × St)
  | 0, _ => .error .fuel
  | fuel + 1, st => do
    let c ← check toks .lparen st
    if c.1 then
      let r ← parseOr fuel c.2
      let st ← require toks .rparen r.2
      return (r.1, st)
    else
      let a ← parseAtom parseTerms toks st
      let r ← atomLoop parseTerms toks fuel [a.1] a.2
      let t ← termTree r.1
      return (t, r.2)

end

/-- queryparser.py:126-135: the parsing part of `parseQuery`; the tree, and `_ignored` -/
def parseTokens : Except Fail (Node × List Word) := do
  let r ← parseOr parseTerms toks (5 * toks.length + 5) { index := 0, ignored := [] }
  let st ← require toks .eof r.2
  match r.1 with
  | none => .error .parse
  | some tree => return (tree, st.ignored)

end parser

/-- queryparser.py:116-135 `parseQuery` and 137-143 `getIgnored`, `parseQueryEx`: the tree and the ignored terms -/
def parseQuery (isSpace : Char → Bool) (upper : Word → Word) (parseTerms : Word → List Word) (query : Word) :
    Except Fail (Node × List Word) :=
  parseTokens parseTerms (tokens isSpace upper query)

end QueryParser
end Verif
