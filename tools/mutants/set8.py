# wrong programs for C76 (combined queries) and C77 (ranking of better documents)
M = []
QP = "Model/QueryParser.lean"
PT = "Model/ParseTree.lean"
TX = "Model/TextIndex.lean"


def m(name, file, definition, old, new, edit, claim):
    M.append(dict(name=name, file=file, definition=definition, old=old, new=new, edit=edit, claim=claim))


m("cq-paren-term", QP, "QueryParser.parseTerm", "      let r ← parseOr fuel c.2\n      let st ← require toks .rparen r.2", "      let r ← parseAnd fuel c.2\n      let st ← require toks .rparen r.2",
  "no OR inside parentheses", "C76: texts in parentheses can be combined")
m("cq-rparen", QP, "QueryParser.parseTerm", "      let st ← require toks .rparen r.2\n", "      let st ← (check toks .rparen r.2).map (·.2)\n",
  "a missing closing parenthesis is accepted", "C47: texts outside the grammar are rejected")
m("cq-or-once", QP, "QueryParser.orLoop", "      orLoop fuel (l ++ [r.1]) r.2", "      return (l ++ [r.1], r.2)",
  "at most one OR", "C47: the grammar of queries")
m("cq-and-not", QP, "QueryParser.parseNot", "return (r.1.map .not, r.2)", "return (r.1, r.2)",
  "AND NOT reads as AND", "C76: AND NOT excludes")
m("cq-ignored-and", QP, "QueryParser.andLoop", "      | none => andLoop fuel l nots r.2\n      | some t => if t.isNot", "      | none => andLoop fuel [] nots r.2\n      | some t => if t.isNot",
  "an ignored operand makes the AND ignored", "C76: ignored parts are left out")
m("cq-paren-plain", QP, "QueryParser.isPlain", "c ≠ '(' && c ≠ ')' && c ≠ '\"'", "c ≠ '(' && c ≠ '\"'",
  "a closing parenthesis belongs to the word before it", "C76: texts in parentheses can be combined")
m("cq-quote-paren", QP, "QueryParser.quotedRest", "match s.dropWhile (fun c => c ≠ '\"') with\n  | [] => none\n  | _ :: r => some (s.takeWhile (fun c => c ≠ '\"'), r)",
  "match s.dropWhile (fun c => c ≠ '\"') with\n  | [] => some (s, [])\n  | _ :: r => some (s.takeWhile (fun c => c ≠ '\"'), r)",
  "an unpaired quote runs to the end of the text", "C50: an unpaired quote is skipped")
m("cq-exec-diff", PT, "Node.execute", "return some (difference set notset)", "return some (difference notset set)",
  "operands of the difference swapped", "C76: AND NOT excludes")
m("cq-exec-not", PT, "Node.execute", "let notset ← massUnion A (r.2.map (fun x => (x, A.one)))", "let notset ← massIntersection A (r.2.map (fun x => (some x, A.one)))",
  "only documents in all negated parts are excluded", "C57: AND NOT excludes what any negated part finds")
m("cq-or-first", PT, "Node.executeOr", "    return r.toList ++ ms", "    return (match r with | some x => [x] | none => ms)",
  "OR stops at the first operand that is not ignored", "C76: OR finds what either finds")
m("rk-lenweight", TX, "Text.okapiTf", "let lenweight := A.add (A.sub A.one P.b) q\n  pyDiv", "let lenweight := A.add (A.add A.one P.b) q\n  pyDiv",
  "1 + b instead of 1 - b", "C69: BM25 as documented")
m("rk-len-mean", TX, "Text.okapiTf", "pyDiv A (A.mul P.b doclen) meandoclen", "pyDiv A (A.mul P.b meandoclen) doclen",
  "length and mean length swapped: long documents are favoured", "C77: shorter documents rank higher")
m("rk-scale-inv", TX, "Text.scaleStep", "pyDiv A p.2 qw", "pyDiv A qw p.2",
  "query weight divided by the score: the ranking is turned round", "C77: better documents rank higher")
m("rk-bisect", "Model/NBest.lean", "bisectLoop", "if y < x then", "if y > x then",
  "the list of the best is kept in the wrong order", "C77, C25: the best are listed first")
m("rk-getbest", "Model/NBest.lean", "NBest.getbest", "(List.zip b.items b.scores).reverse", "List.zip b.items b.scores",
  "the best are listed last", "C77, C25: the best are listed first")
