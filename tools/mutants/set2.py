"""Wrong programs: lexicon, splitters, query parser, parse trees."""
M = []


def m(name, file, definition, old, new, edit, claim, **kw):
    M.append(dict(name=name, file=file, definition=definition, old=old, new=new, edit=edit, claim=claim, **kw))


LX, HT, QP, PT = "Model/Lexicon.lean", "Model/HtmlSplitter.lean", "Model/QueryParser.lean", "Model/ParseTree.lean"

# parse trees
m("and-nots-union", PT, "Node.execute", "return some (difference set notset)", "return some set", "AND ignores its negated parts",
  "C57: AND = all positive parts and none of the negated")
m("and-as-or", PT, "Node.execute", "let set ← massIntersection A (r.1.map (fun x => (some x, A.one)))",
  "let set ← massUnion A (r.1.map (fun x => (x, A.one)))", "AND makes a union", "C57: AND = all positive parts")
m("or-as-and", PT, "Node.execute", "let w ← executeOr l\n    let set ← massUnion A (w.map (fun x => (x, A.one)))",
  "let w ← executeOr l\n    let set ← massIntersection A (w.map (fun x => (some x, A.one)))", "OR makes an intersection", "C57: OR = at least one")
m("not-inter", PT, "Node.execute", "let notset ← massUnion A (r.2.map (fun x => (x, A.one)))",
  "let notset ← massIntersection A (r.2.map (fun x => (some x, A.one)))", "several negated parts are intersected", "C57: none of the negated parts")
m("difference-swap", PT, "SetOps.difference", "x.filter (fun p => !y.contains p.1)", "y.filter (fun p => !x.contains p.1)",
  "arguments of difference swapped", "C57: AND NOT")
m("terms-not", PT, "Node.terms", "| .not _ => []", "| .not n => n.terms", "terms() includes negated terms", "C61: query_weight of the terms; C67: normalized scores; C69: C62")
m("and-drop-none", PT, "Node.executeAnd", "return (r.toList ++ ms.1, ms.2)", "return (r.toList ++ [SMap.empty] ++ ms.1, ms.2)",
  "ignored parts count as empty results", "C57: ignored parts are skipped")

# query parser
m("keyword-case", QP, "classify", "let u := upper token", "let u := token", "keywords only in upper case", "C50: keywords are recognized in any case", tightened=["C50_keywords"])
m("token-quote-close", QP, "tokenAt", "(quotedRest t).map (fun p => (('\"' :: p.1) ++ ['\"'], p.2))", "(quotedRest t).map (fun p => (('\"' :: p.1), p.2))",
  "the closing quote is lost", "C50: tokens are pieces of the query")
m("token-hyphen-quote", QP, "tokenAt", "| some p => some (('-' :: '\"' :: p.1) ++ ['\"'], p.2)", "| some p => some (plainToken isSpace c t)",
  "a hyphen before a quoted string is a token of its own", "C50: a quoted string is one token")
m("token-paren", QP, "isPlain", "c ≠ '(' && c ≠ ')' && c ≠ '\"'", "c ≠ '(' && c ≠ '\"'", "a closing parenthesis is part of an atom", "C50: tokens")
m("peek-past-end", QP, "peekAtom", "| none => .error .index\n  | some (.atom _) => .ok true", "| none => .ok false\n  | some (.atom _) => .ok true",
  "looking past the end of the tokens gives False", "C46: never runs past its token list",
  note="the change is not observable: the parser never looks past the end (C46), so no theorem need fail")
m("check-no-advance", QP, "check", "if t' = t then .ok (true, { st with index := st.index + 1 })", "if t' = t then .ok (true, st)", "_check does not advance",
  "C46: terminates; C47: grammar")
m("no-eof", QP, "parseTokens", "let st ← require toks .eof r.2\n", "let st := r.2\n", "text after the query is not noticed", "C47: exactly the grammar")
m("none-tree", QP, "parseTokens", "| none => .error .parse\n  | some tree => return (tree, st.ignored)", "| none => return (.or [], st.ignored)\n  | some tree => return (tree, st.ignored)",
  "a query of ignored words gives an empty OR", "C49: rejected with ParseError; C48: OR has at least two children")
m("ignored-order", QP, "parseAtom", "ignored := r.2.ignored ++ [r.1]", "ignored := r.1 :: r.2.ignored", "ignored terms collected in reverse", "C49: in order")
m("ignored-missing", QP, "parseAtom", "return (none, { r.2 with ignored := r.2.ignored ++ [r.1] })", "return (none, r.2)", "ignored terms not collected", "C49: exactly the atoms without words")
m("atom-hyphen", QP, "parseAtom", "if c = '-' then return (some (.not tree), r.2) else return (some tree, r.2)", "return (some tree, r.2)", "hyphen does not negate", "C47: -atom is a negation")
m("glob-node", QP, "atomNode", "if Lexicon.isGlob w then some (.glob w) else some (.atom w)", "some (.atom w)", "globs become atoms", "C47: C59: tree of a glob")
m("term-not-first", QP, "termTree", "let nodes := nodes.filter (fun n => !n.isNot) ++ nodes.filter (fun n => n.isNot)\n", "",
  "NOT nodes are not moved to the end", "C48: positive children come first")
m("term-only-not", QP, "termTree", "if n.isNot then .error .parse\n      else if", "if", "an atom run of negated words is accepted", "C48: the root is not NOT; C47: ParseError")
m("or-single", QP, "orTree", "| [n] => some n\n", "", "an OR with one part stays an OR", "C48: OR has at least two children")
m("and-nots-first", QP, "andTree", "match l ++ nots with", "match nots ++ l with", "negated parts come first", "C48: positive children come first")
m("and-only-nots", QP, "andTree", "if l.isEmpty then none\n", "if l.isEmpty && nots.isEmpty then none\n", "AND of negated parts only", "C48: the root is not NOT")
m("not-lost", QP, "andLoop", "| some t => andLoop fuel l (nots ++ [.not t]) r.2", "| some t => andLoop fuel l (nots ++ [t]) r.2", "`a NOT b` reads as `a AND b`", "C47: NOT Term")
m("and-term", QP, "andLoop", "let r ← parseNot fuel c.2", "let r ← parseTerm fuel c.2", "AND NOT is not accepted", "C47: AND NotExpr")
m("or-right", QP, "parseOr", "let r ← orLoop fuel [r.1] r.2", "let r := ([r.1], r.2)", "only one AndExpr", "C47: (OR AndExpr)*")
m("paren-unclosed", QP, "parseTerm", "let st ← require toks .rparen r.2\n", "let st := (match check toks .rparen r.2 with | .ok c => c.2 | .error _ => r.2)\n", "a missing ) is not noticed",
  "C47: ( OrExpr )")

# HTML splitter
m("html-tag-greedy", HT, "Html.tagRest", "s.dropWhile (fun c => c ≠ '<' && c ≠ '>')", "s.dropWhile (fun c => c ≠ '>')", "a tag may contain <", "C45: words outside tags always show")
m("html-no-entity", HT, "Html.markupRest", "if c = '&' then entityRest t else none", "none", "entities are not removed", "C45: words in entities never show")
m("html-entity-empty", HT, "Html.entityRest", "if (s.takeWhile isLetter).isEmpty then none\n  else ", "", "`&;` is an entity", "C45: exactly &name;",
  note="`&;` has no words, so no word result changes and the claim stays true")
m("html-glue", HT, "Html.subF", "| some r => ' ' :: subF fuel r", "| some r => subF fuel r", "markup replaced by nothing", "C45: words outside show as words")
m("html-nolower", HT, "Html.split", "pattern (sub (lower text))", "pattern (sub text)", "text not lower-cased", "C45: lower-cases the text")
m("html-lower-after", HT, "Html.split", "pattern (sub (lower text))", "(pattern (sub text)).map lower", "words lower-cased after splitting", "C45: lower-cases the text (before splitting)")

# lexicon
m("wid-reuse", LX, "Lexicon.newWid", "bump s.words (s.words.len + 1) (s.count + 1)", "s.count + 1", "no check whether the id is in use", "C40: never the id of another word")
m("wid-zero", LX, "Lexicon.newWid", "(s.count + 1)", "s.count", "first id is the counter itself", "C39: no id is 0")
m("wid-words-missing", LX, "Lexicon.getWordIdCreate", "words := s.words.set wid word, count := wid", "words := s.words, count := wid", "_words not updated", "C39: get_word(get_wid(w)) == w")
m("wid-count-stale", LX, "Lexicon.getWordIdCreate", "count := wid }, wid)", "count := s.count }, wid)", "counter not advanced", "C41: wordCount()")
m("wid-renumber", LX, "Lexicon.getWordIdCreate", "| some wid => (s, wid)\n", "| some wid => if wid = 5 then ({ s with wids := s.wids.set word s.newWid }, s.newWid) else (s, wid)\n",
  "a word seen again may get a new id", "C39: ids never change")
m("none-source", LX, "Lexicon.sourceText", "| .none => [[]]", "| .none => [['a']]", "None counts as a text", "C39: C51: words of a document")
m("term-create", LX, "Lexicon.getWid", "(s.wids.get? word).getD 0", "(s.wids.get? word).getD 1", "unknown words get the id 1", "C42: 0 for each unknown word")
m("glob-question-empty", LX, "Lexicon.reMatch", "| .any :: p => fun s => match s with\n    | [] => false", "| .any :: p => fun s => match s with\n    | [] => reMatch p []", "? may match nothing", "C43: ? = any character")
m("glob-nobreak", LX, "Lexicon.globLoop", "else []", "else globLoop prog pre rest", "the loop goes on after the last key with the prefix", "C43: exactly the words matching",
  note="keys are sorted, so none of the later ones has the prefix; the results are the same and the claim stays true")
m("glob-star-nonempty", LX, "Lexicon.starMatch", "| c :: s => rest (c :: s) || (c ≠ '\\n' && starMatch rest s)", "| c :: s => c ≠ '\\n' && (rest s || starMatch rest s)", "* must match at least one character", "C43: * = any run")
m("glob-noanchor", LX, "Lexicon.reMatch", "| [] => fun s => s = [] || s = ['\\n']", "| [] => fun _ => true", "pattern not anchored at the end", "C43: words matching p")
m("glob-leading", LX, "Lexicon.globToWordIds", "else if pre.isEmpty then .error .GlobQueryError\n", "", "patterns that begin with a wild card accepted", "C43: a pattern without literal prefix raises")
m("glob-range-excl", LX, "Lexicon.globToWordIds", "(s.wids.range (some pre) none).items", "(s.wids.range (some (pre ++ ['a'])) none).items", "search starts after the prefix", "C43: exactly the words matching")
m("splitter-no-star", LX, "Splitter.findallF", "(c :: t.takeWhile isB) :: findallF isA isB fuel (t.dropWhile isB)", "(c :: t.takeWhile isA) :: findallF isA isB fuel (t.dropWhile isA)", "globs are cut at the wild card", "C59: glob search; C44; C47",
  note="a pattern such as `d?g` would be two words")
m("splitter-short", LX, "Splitter.findallF", "else findallF isA isB fuel t", "else findallF isA isB fuel t.tail", "a character after a separator is skipped", "C44: exactly the maximal runs")
m("stop-keep", LX, "stopWordRemover", "l.filter (fun w => !stop w)", "l.filter (fun w => stop w)", "only stop words are kept", "C65: words that are not stop words are found")
