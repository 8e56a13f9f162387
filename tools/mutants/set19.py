# wrong programs for the glob prefix (C43, C59), keyword documents apart (C13), clear (C53) and the exceptions of queries (C60)
M = []
LX = "Model/Lexicon.lean"
KW = "Model/Keyword.lean"
TI = "Model/TextIndex.lean"
PT = "Model/ParseTree.lean"


def m(name, file, definition, old, new, edit, claim, **k):
    M.append(dict(name=name, file=file, definition=definition, old=old, new=new, edit=edit, claim=claim, **k))


m("pm-no-consume", LX, "preMatch", "(if c = '.' then a ≠ '\\n' else a = c) && preMatch rest false pre s", "(if c = '.' then a ≠ '\\n' else a = c) && preMatch rest false pre (a :: s)",
  "a character of the prefix is matched without going on in the word", "C43, C59: words that match are found")
m("pm-escape", LX, "preMatch", "    if c = '^' then start && preMatch rest start pre s\n    else if c = '$' then (s = [] || s = ['\\n']) && preMatch rest start pre s\n    else match s with",
  "    match s with", "the prefix is escaped, except for the dots", "C43, C59: the counterexamples with ^ and $ are about the code as it is")
m("pm-dot-literal", LX, "preMatch", "(if c = '.' then a ≠ '\\n' else a = c)", "(if c = '.' then a ≠ '.' else a = c)",
  "a dot in the prefix does not match a dot", "C43, C59: words that match are found")
m("pm-odd-all", LX, "oddChars", "def oddChars : List Char := ['*',", "def oddChars : List Char := ['.', '*',",
  "patterns with dots are rejected or answered arbitrarily", "C43, C59: words that match are found")
m("pm-ignore-rest", LX, "preMatch", "  | _, [], s => rest s", "  | _, [], s => true", "only the prefix is compared", "C43, C59: only words that match are found")
m("ko-drop-set", KW, "removeWord", "      some (if ids.isEmpty then fwd.del w else fwd)", "      some (fwd.del w)",
  "removing a document from a keyword removes the keyword", "C13: other documents are not concerned")
m("ko-falsy-ignored", KW, "indexDoc", "      | some kw => if kw.isEmpty then (s, none) else (s.unindexDoc d, none)", "      | some kw => if kw.isEmpty then (s, none) else (s, none)",
  "index_doc(d, []) leaves the document indexed", "C13: index_doc(d, []) removes d from every answer")
m("ko-clear-total", TI, "clear", "docwords := SMap.empty, wordCount := 0, documentCount := 0 }\n\n/-- baseindex.py:97", "docwords := SMap.empty, wordCount := 0, documentCount := 0, total := 0 }\n\n/-- baseindex.py:97",
  "clear() resets the total length too", "C53, C55: the counterexamples with clear are about the code as it is")
m("ko-zero-weight", TI, "applyTree", "      let qw := if K.arith.isZero qw then K.arith.one else qw\n      let qw := K.arith.mul", "      let qw := K.arith.mul",
  "the weight of the query is not checked for 0", "C60: apply never raises ZeroDivisionError")
m("ko-or-swallow", PT, "executeOr", "    let r ← n.execute\n    let ms ← executeOr rest\n    return r.toList ++ ms", "    let r ← n.execute\n    let ms ← (match executeOr rest with | .ok x => Except.ok x | .error _ => Except.error PyErr.KeyError)\n    return r.toList ++ ms",
  "an exception of a later part of OR turns into KeyError", "C60: only ParseError, QueryError and re.error")
m("ko-glob-leading", LX, "globToWordIds", ".error .GlobQueryError", ".error .ValueError",
  "a leading glob character raises another exception", "C43, C59, C60: QueryError")
