import Verif.Model.TextIndex

/-! # Parsing and executing a query on a limited stack

Python raises `RecursionError` when calls are nested deeper than its recursion limit.  `text/queryparser.py` is a recursive descent
parser and `text/parsetree.py` walks through the tree recursively, so both depend on the limit.  The functions here are those of
`Model/QueryParser` and `Model/ParseTree`, with the number of nested calls that are still possible.

Simplifications: only calls of functions written in Python count; the frames that a method of the lexicon or of the index and the set
operations need are numbers (`Frames`), the same for all arguments; calls that need fewer frames than another call made before by the
same function (constructors of nodes, `isGlob`, `getValue`, `nodeType`) are left out. -/

set_option autoImplicit false

namespace Verif

/-- what code on a limited stack can raise: `RecursionError`, or any other exception -/
inductive Deep (E : Type)
  | recursion
  | other (e : E)

/-- a call that needs `need` frames, made where `n` are left -/
def within {E X : Type} (need n : Nat) (x : Except E X) : Except (Deep E) X :=
  if n < need then .error .recursion else x.mapError .other

/-- frames needed by `lexicon.parseTerms`; `index.search`, `search_phrase`, `search_glob`; `mass_weightedIntersection`,
`mass_weightedUnion`; `index.query_weight` -/
structure Frames where
  terms : Nat
  search : Nat
  setops : Nat
  weight : Nat

namespace QueryParser

section parser

variable (F : Frames) (parseTerms : Word → List Word) (toks : List Tok)

/-- queryparser.py:244-258 `_parseAtom`, called where `n` frames are left; `_get` calls `_require`, which calls `_check` -/
def parseAtomD : Nat → St → Except (Deep Fail) (Option Node × St)
  | 0, _ => .error .recursion
  | n + 1, st => do
    let r ← within 3 n (getAtom toks st)
    let words ← within F.terms n (.ok (parseTerms r.1) : Except Fail (List Word))
    match atomNode words with
    | none => return (none, { r.2 with ignored := r.2.ignored ++ [r.1] })
    | some tree =>
      match r.1 with
      | [] => .error (.other .index)
      | c :: _ => if c = '-' then return (some (.not tree), r.2) else return (some tree, r.2)

/-- queryparser.py:227-228, in a function that has `n` frames left for its calls -/
def atomLoopD : Nat → Nat → List (Option Node) → St → Except (Deep Fail) (List (Option Node) × St)
  | 0, _, _, _ => .error (.other .fuel)
  | fuel + 1, n, nodes, st => do
    if ← within 1 n (peekAtom toks st) then
      let r ← parseAtomD F parseTerms toks n st
      atomLoopD fuel n (nodes ++ [r.1]) r.2
    else return (nodes, st)

mutual

/-- queryparser.py:168-179 `_parseOrExpr`, called where `n` frames are left.  (The first argument is the `fuel` of `parseOr`.) -/
def parseOrD : Nat → Nat → St → Except (Deep Fail) (Option Node × St)
  | 0, _, _ => .error (.other .fuel)
  | _ + 1, 0, _ => .error .recursion
  | fuel + 1, n + 1, st => do
    let r ← parseAndD fuel n st
    let r ← orLoopD fuel n [r.1] r.2
    return (orTree r.1, r.2)

/-- queryparser.py:171-172, in a function that has `n` frames left for its calls -/
def orLoopD : Nat → Nat → List (Option Node) → St → Except (Deep Fail) (List (Option Node) × St)
  | 0, _, _, _ => .error (.other .fuel)
  | fuel + 1, n, l, st => do
    let c ← within 1 n (check toks .or st)
    if c.1 then
      let r ← parseAndD fuel n c.2
      orLoopD fuel n (l ++ [r.1]) r.2
    else return (l, st)

/-- queryparser.py:181-209 `_parseAndExpr` -/
def parseAndD : Nat → Nat → St → Except (Deep Fail) (Option Node × St)
  | 0, _, _ => .error (.other .fuel)
  | _ + 1, 0, _ => .error .recursion
  | fuel + 1, n + 1, st => do
    let r ← parseTermD fuel n st
    let r ← andLoopD fuel n r.1.toList [] r.2
    return (andTree r.1 r.2.1, r.2.2)

/-- queryparser.py:187-201 -/
def andLoopD : Nat → Nat → List Node → List Node → St → Except (Deep Fail) (List Node × List Node × St)
  | 0, _, _, _, _ => .error (.other .fuel)
  | fuel + 1, n, l, nots, st => do
    let c ← within 1 n (check toks .and st)
    if c.1 then
      let r ← parseNotD fuel n c.2
      match r.1 with
      | none => andLoopD fuel n l nots r.2
      | some t => if t.isNot then andLoopD fuel n l (nots ++ [t]) r.2 else andLoopD fuel n (l ++ [t]) nots r.2
    else
      let c ← within 1 n (check toks .not st)
      if c.1 then
        let r ← parseTermD fuel n c.2
        match r.1 with
        | none => andLoopD fuel n l nots r.2
        | some t => andLoopD fuel n l (nots ++ [.not t]) r.2
      else return (l, nots, st)

/-- queryparser.py:211-218 `_parseNotExpr` -/
def parseNotD : Nat → Nat → St → Except (Deep Fail) (Option Node × St)
  | 0, _, _ => .error (.other .fuel)
  | _ + 1, 0, _ => .error .recursion
  | fuel + 1, n + 1, st => do
    let c ← within 1 n (check toks .not st)
    if c.1 then
      let r ← parseTermD fuel n c.2
      return (r.1.map .not, r.2)
    else parseTermD fuel n st

/-- queryparser.py:220-242 `_parseTerm` -/
def parseTermD : Nat → Nat → St → Except (Deep Fail) (Option Node × St)
  | 0, _, _ => .error (.other .fuel)
  | _ + 1, 0, _ => .error .recursion
  | fuel + 1, n + 1, st => do
    let c ← within 1 n (check toks .lparen st)
    if c.1 then
      let r ← parseOrD fuel n c.2
      let st ← within 2 n (require toks .rparen r.2)
      return (r.1, st)
    else
      let a ← parseAtomD F parseTerms toks n st
      let r ← atomLoopD F parseTerms toks fuel n [a.1] a.2
      let t ← (termTree r.1).mapError .other
      return (t, r.2)

end

/-- queryparser.py:126-135, in a function that has `n` frames left for its calls -/
def parseTokensD (n : Nat) : Except (Deep Fail) (Node × List Word) := do
  let r ← parseOrD F parseTerms toks (5 * toks.length + 5) n { index := 0, ignored := [] }
  let st ← within 2 n (require toks .eof r.2)
  match r.1 with
  | none => .error (.other .parse)
  | some tree => return (tree, st.ignored)

end parser

/-- queryparser.py:116-135 `parseQuery`, called where `n` frames are left -/
def parseQueryD (F : Frames) (isSpace : Char → Bool) (upper : Word → Word) (parseTerms : Word → List Word) :
    Nat → Word → Except (Deep Fail) (Node × List Word)
  | 0, _ => .error .recursion
  | n + 1, query => parseTokensD F parseTerms (tokens isSpace upper query) n

end QueryParser

namespace Node

open SetOps

variable {D R : Type} [LinearOrder D]

mutual

/-- parsetree.py:46-50, 61-62, 110-111 `terms`, called where `n` frames are left -/
def termsD : Nat → Node → Except (Deep PyErr) (List TextArg)
  | 0, _ => .error .recursion
  | _ + 1, .atom w => .ok [.str w]
  | _ + 1, .phrase ws => .ok [.list ws]
  | _ + 1, .glob w => .ok [.str w]
  | _ + 1, .not _ => .ok []
  | n + 1, .and l => termsAllD n l
  | n + 1, .or l => termsAllD n l

/-- parsetree.py:47-49, the loop -/
def termsAllD : Nat → List Node → Except (Deep PyErr) (List TextArg)
  | _, [] => .ok []
  | n, m :: rest => do
    let a ← termsD n m
    let b ← termsAllD n rest
    return a ++ b

end

variable (F : Frames) (A : WArith R) (ix : Searcher D R)

mutual

/-- parsetree.py `executeQuery`, called where `n` frames are left; see `execute` -/
def executeD : Nat → Node → Except (Deep PyErr) (Option (SMap D R))
  | 0, _ => .error .recursion
  | n + 1, .atom w => within F.search n (ix.search w)
  | n + 1, .phrase ws => within F.search n (ix.searchPhrase ws)
  | n + 1, .glob w => within F.search n (ix.searchGlob w)
  | _ + 1, .not _ => .error (.other .NotQueryError)
  | n + 1, .and l => do
    let r ← executeAndD n l
    let set ← within F.setops n (massIntersection A (r.1.map (fun x => (some x, A.one))))
    if r.2.isEmpty then return some set
    else
      let notset ← within F.setops n (massUnion A (r.2.map (fun x => (x, A.one))))
      return some (difference set notset)
  | n + 1, .or l => do
    let w ← executeOrD n l
    let set ← within F.setops n (massUnion A (w.map (fun x => (x, A.one))))
    return some set

/-- parsetree.py:76-90, the loop of AND -/
def executeAndD : Nat → List Node → Except (Deep PyErr) (List (SMap D R) × List (SMap D R))
  | _, [] => .ok ([], [])
  | n, .not m :: rest => do
    let r ← executeD n m
    let ms ← executeAndD n rest
    return (ms.1, r.toList ++ ms.2)
  | n, m :: rest => do
    let r ← executeD n m
    let ms ← executeAndD n rest
    return (r.toList ++ ms.1, ms.2)

/-- parsetree.py:104-111, the loop of OR -/
def executeOrD : Nat → List Node → Except (Deep PyErr) (List (SMap D R))
  | _, [] => .ok []
  | n, m :: rest => do
    let r ← executeD n m
    let ms ← executeOrD n rest
    return r.toList ++ ms

end

end Node

namespace Text

variable {D R : Type} [LinearOrder D]

/-- textindex.py:73-91, after parsing, in a function that has `n` frames left for its calls -/
def applyTreeD (F : Frames) (K : Kind D R) (odd : Word → Except PyErr (Word → Bool)) (pipeline : List Element) (s : TI D R) (n : Nat)
    (tree : Node) : Except (Deep PyErr) (Option (SMap D R)) := do
  let results ← tree.executeD F K.arith.toWArith (searcher K odd pipeline s) n
  match results with
  | none => return none
  | some results =>
    if results.isEmpty then return some results
    else
      let terms ← tree.termsD n
      let qw ← within F.weight n (queryWeight K pipeline s terms)
      let qw := if K.arith.isZero qw then K.arith.one else qw
      let qw := K.arith.mul qw K.arith.one
      let r ← (results.items.foldlM (scaleStep K.arith qw) results).mapError .other
      return some r

/-- textindex.py:70-91 `apply`, called where `n` frames are left -/
def applyD (F : Frames) (K : Kind D R) (isSpace : Char → Bool) (upper : Word → Word) (odd : Word → Except PyErr (Word → Bool))
    (pipeline : List Element) (s : TI D R) : Nat → Word → Except (Deep PyErr) (Option (SMap D R))
  | 0, _ => .error .recursion
  | n + 1, querytext =>
    match QueryParser.parseQueryD F isSpace upper (Lexicon.parseTerms pipeline) n querytext with
    | .error .recursion => .error .recursion
    | .error (.other _) => .error (.other .ParseError)
    | .ok (tree, _) => applyTreeD F K odd pipeline s n tree

end Text
end Verif
