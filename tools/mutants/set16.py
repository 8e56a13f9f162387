# wrong programs for the theorems about the query parser object (C86)
M = []
PO = "Model/ParserObj.lean"


def m(name, file, definition, old, new, edit, claim, **k):
    M.append(dict(name=name, file=file, definition=definition, old=old, new=new, edit=edit, claim=claim, **k))


m("po-index", PO, "prepare", "++ [.eof], index := 0,", "++ [.eof], index := m.obj.index,",
  "the position is not reset for a new query", "C86: a used parser parses as a new one")
m("po-tokens", PO, "prepare", "tokens := tokens ++ [eofToken], types", "tokens := m.obj.tokens ++ tokens ++ [eofToken], types",
  "tokens of earlier queries are kept", "C86: a used parser parses as a new one")
m("po-ignored-kept", PO, "prepare", "                      ignored := some m.lists.next },\n             lists := m.lists.alloc [] })",
  "                      ignored := some (m.obj.ignored.getD m.lists.next) },\n             lists := m.lists.alloc [] })",
  "the list of ignored terms of the first query is used again", "C86: the list is made for the last query; lists handed out are not changed")
m("po-ignored-cleared", PO, "prepare", "                      ignored := some m.lists.next },\n             lists := m.lists.alloc [] })",
  "                      ignored := some (m.obj.ignored.getD m.lists.next) },\n             lists := match m.obj.ignored with | some a => m.lists.put a [] | none => m.lists.alloc [] })",
  "the list of ignored terms is emptied in place", "C86: lists handed out are not changed")
m("po-ignored-late", PO, "parseQuery", "  prepare isSpace upper query\n  let tree ←", "  let old ← (fun m => (.ok m.obj.ignored, m) : PM (Option Nat))\n  prepare isSpace upper query\n  (fun m => (.ok (), { m with obj := { m.obj with ignored := old } }) : PM Unit)\n  let tree ←",
  "the old list is put back before parsing", "C86: the list is made for the last query")
m("po-no-eof-type", PO, "prepare", "types := tokens.map (typeOf upper) ++ [.eof]", "types := tokens.map (typeOf upper)",
  "no end marker among the types", "C86: a parser returns a tree or raises ParseError")
m("po-ex-new", PO, "parseQueryEx", "  let ignored ← getIgnored\n  return (tree, ignored)", "  return (tree, none)",
  "parseQueryEx returns None instead of the list", "C86: parseQueryEx returns the list of getIgnored")
m("po-ex-before", PO, "parseQueryEx", "  let tree ← parseQuery parseTerms isSpace upper query\n  let ignored ← getIgnored\n", "  let ignored ← getIgnored\n  let tree ← parseQuery parseTerms isSpace upper query\n",
  "parseQueryEx reads the list before parsing", "C86: parseQueryEx returns the list of getIgnored")
m("po-ignore-dropped", PO, "parseAtom", "  | none =>\n    ignore term\n    return none", "  | none =>\n    return none",
  "ignored terms are not recorded", "C86: getIgnored gives the ignored terms")
m("po-require-eof", PO, "parseQuery", "  require .eof\n  match tree", "  match tree",
  "what follows the query is not checked", "C86: a parser parses as specified (C46)")
m("po-none-tree", PO, "parseQuery", "  | none => fail .parse\n", "  | none => fail .index\n",
  "another exception for a query of ignored terms only", "C86: nothing but ParseError is raised")
