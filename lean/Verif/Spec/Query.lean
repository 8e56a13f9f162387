import Verif.Model.QueryParser

/-! # The query language

`Tokens`: how a query falls into tokens.  `OrE`, `AndE`, `Items`, `TermE`: the grammar
```
  OrExpr  = AndExpr (OR AndExpr)*
  AndExpr = Term (AND Term | AND NOT Term | NOT Term)*
  Term    = ( OrExpr ) | ATOM+
```
with the tokens of each phrase (`flat`) and its meaning (`mean`). -/

set_option autoImplicit false

namespace Verif.Spec

open QueryParser (Tok)

/-- a character of an unquoted word: no white space, parenthesis or double quote -/
def WordChar (isSpace : Char → Bool) (c : Char) : Prop := c ≠ '(' ∧ c ≠ ')' ∧ c ≠ '"' ∧ isSpace c = false

/-- `Tokens q ts`: the query `q` falls into the tokens `ts` -/
inductive Tokens (isSpace : Char → Bool) : Word → List Word → Prop
  | nil : Tokens isSpace [] []
  /-- white space separates tokens -/
  | space (c : Char) (s : Word) (ts : List Word) : isSpace c = true → Tokens isSpace s ts → Tokens isSpace (c :: s) ts
  /-- a double quote without a partner is skipped -/
  | stray (s : Word) (ts : List Word) : '"' ∉ s → Tokens isSpace s ts → Tokens isSpace ('"' :: s) ts
  /-- a parenthesis is a token -/
  | paren (c : Char) (s : Word) (ts : List Word) : c = '(' ∨ c = ')' → Tokens isSpace s ts → Tokens isSpace (c :: s) ([c] :: ts)
  /-- a quoted string is one token, with a hyphen directly before it -/
  | quoted (hyphen body s : Word) (ts : List Word) : hyphen = [] ∨ hyphen = ['-'] → '"' ∉ body → Tokens isSpace s ts →
      Tokens isSpace (hyphen ++ '"' :: body ++ '"' :: s) ((hyphen ++ '"' :: body ++ ['"']) :: ts)
  /-- other tokens are as long as possible, except that a single hyphen before a quoted string belongs to it -/
  | word (w s : Word) (ts : List Word) : w ≠ [] → (∀ c ∈ w, WordChar isSpace c) → (∀ c, s.head? = some c → ¬ WordChar isSpace c) →
      ¬ (w = ['-'] ∧ ∃ body r, s = '"' :: body ++ '"' :: r) → Tokens isSpace s ts → Tokens isSpace (w ++ s) (w :: ts)

/-- how a token is classified: keywords in any case, the parentheses, everything else an atom -/
def TokOf (upper : Word → Word) (w : Word) : Tok → Prop
  | .and => upper w = ['A', 'N', 'D']
  | .or => upper w = ['O', 'R']
  | .not => upper w = ['N', 'O', 'T']
  | .lparen => upper w = ['(']
  | .rparen => upper w = [')']
  | .atom x => x = w ∧ upper w ≠ ['A', 'N', 'D'] ∧ upper w ≠ ['O', 'R'] ∧ upper w ≠ ['N', 'O', 'T'] ∧ upper w ≠ ['('] ∧
      upper w ≠ [')']
  | .eof => False

/-- what is needed of `str.upper()`: it works character by character, the letters of the keywords and the parentheses have the
expected upper case, and every other character yields at least one character that occurs in no keyword (Python 3, checked over
all code points) -/
structure UpperOk (upper : Word → Word) (up : Char → List Char) : Prop where
  chars : ∀ w, upper w = w.flatMap up
  letters : up 'a' = ['A'] ∧ up 'A' = ['A'] ∧ up 'n' = ['N'] ∧ up 'N' = ['N'] ∧ up 'd' = ['D'] ∧ up 'D' = ['D'] ∧
    up 'o' = ['O'] ∧ up 'O' = ['O'] ∧ up 'r' = ['R'] ∧ up 'R' = ['R'] ∧ up 't' = ['T'] ∧ up 'T' = ['T'] ∧
    up '(' = ['('] ∧ up ')' = [')']
  others : ∀ c, c ∉ ['a', 'A', 'n', 'N', 'd', 'D', 'o', 'O', 'r', 'R', 't', 'T', '(', ')'] →
    ∃ x ∈ up c, x ∉ ['A', 'N', 'D', 'O', 'R', 'T', '(', ')']

mutual

/-- OrExpr -/
inductive OrE
  | one (a : AndE)
  | more (a : AndE) (rest : OrE)

/-- AndExpr -/
inductive AndE
  | mk (t : TermE) (rest : Items)

/-- the rest of an AndExpr -/
inductive Items
  | nil
  | andTerm (t : TermE) (rest : Items)
  | andNot (t : TermE) (rest : Items)
  | not (t : TermE) (rest : Items)

/-- Term -/
inductive TermE
  | paren (o : OrE)
  | atoms (w : Word) (ws : List Word)

end

mutual

/-- the tokens of an OrExpr -/
def OrE.flat : OrE → List Tok
  | .one a => a.flat
  | .more a rest => a.flat ++ .or :: rest.flat

/-- the tokens of an AndExpr -/
def AndE.flat : AndE → List Tok
  | .mk t rest => t.flat ++ rest.flat

/-- the tokens of the rest of an AndExpr -/
def Items.flat : Items → List Tok
  | .nil => []
  | .andTerm t rest => .and :: t.flat ++ rest.flat
  | .andNot t rest => .and :: .not :: t.flat ++ rest.flat
  | .not t rest => .not :: t.flat ++ rest.flat

/-- the tokens of a Term -/
def TermE.flat : TermE → List Tok
  | .paren o => .lparen :: o.flat ++ [.rparen]
  | .atoms w ws => .atom w :: ws.map .atom

end

section mean

variable (parseTerms : Word → List Word)

/-- meaning of one atom: nothing if it is ignored, else whether it is negated (it begins with a hyphen) and its node: a
phrase for several words, a glob for a word with glob characters -/
def atomMean (w : Word) : Option (Bool × Node) :=
  match parseTerms w with
  | [] => none
  | [x] => some (w.head? = some '-', if '*' ∈ x ∨ '?' ∈ x then .glob x else .atom x)
  | xs => some (w.head? = some '-', .phrase xs)

/-- several nodes joined: one stands for itself -/
def join (f : List Node → Node) : List Node → Option Node
  | [] => none
  | [n] => some n
  | l => some (f l)

/-- meaning of a run of atoms: the positive ones and the negated ones joined by AND; not allowed if there are only negated ones -/
def atomsMean (ws : List Word) : Except Unit (Option Node) :=
  let ms := ws.filterMap (atomMean parseTerms)
  let pos := (ms.filter (fun m => !m.1)).map (·.2)
  let neg := (ms.filter (fun m => m.1)).map (fun m => Node.not m.2)
  if pos.isEmpty ∧ ¬ neg.isEmpty then .error () else .ok (join .and (pos ++ neg))

mutual

/-- meanings of the parts of an OrExpr that are not ignored -/
def OrE.parts : OrE → Except Unit (List Node)
  | .one a => do return (← a.mean).toList
  | .more a rest => do
    let m ← a.mean
    let ms ← rest.parts
    return m.toList ++ ms

/-- meaning of an AndExpr; it is ignored if no positive part remains -/
def AndE.mean : AndE → Except Unit (Option Node)
  | .mk t rest => do
    let m ← t.mean
    let ms ← rest.parts
    let pos := m.toList ++ ms.1
    return if pos.isEmpty then none else join .and (pos ++ ms.2.map .not)

/-- the positive and the negated parts of the rest of an AndExpr, ignored ones left out -/
def Items.parts : Items → Except Unit (List Node × List Node)
  | .nil => .ok ([], [])
  | .andTerm t rest => do
    let m ← t.mean
    let ms ← rest.parts
    return (m.toList ++ ms.1, ms.2)
  | .andNot t rest => do
    let m ← t.mean
    let ms ← rest.parts
    return (ms.1, m.toList ++ ms.2)
  | .not t rest => do
    let m ← t.mean
    let ms ← rest.parts
    return (ms.1, m.toList ++ ms.2)

/-- meaning of a Term -/
def TermE.mean : TermE → Except Unit (Option Node)
  | .paren o => do return join .or (← o.parts)
  | .atoms w ws => atomsMean parseTerms (w :: ws)

end

/-- meaning of a query -/
def OrE.mean (o : OrE) : Except Unit (Option Node) := do return join .or (← o.parts parseTerms)

end mean

/-- the atoms among some tokens -/
def atomsOf (ts : List Tok) : List Word := ts.filterMap (fun t => match t with | .atom w => some w | _ => none)

/-- trees a query can have: a NOT occurs only inside an AND, after at least one part that is not a NOT, and is not itself negated;
AND and OR have at least two parts -/
inductive Clean : Node → Prop
  | atom (w : Word) : Clean (.atom w)
  | phrase (ws : List Word) : 2 ≤ ws.length → Clean (.phrase ws)
  | glob (w : Word) : Clean (.glob w)
  | and (pos neg : List Node) : pos ≠ [] → 2 ≤ (pos ++ neg).length → (∀ n ∈ pos, Clean n) → (∀ n ∈ neg, Clean n) →
      Clean (.and (pos ++ neg.map .not))
  | or (l : List Node) : 2 ≤ l.length → (∀ n ∈ l, Clean n) → Clean (.or l)

end Verif.Spec
