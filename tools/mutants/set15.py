# wrong programs for the theorems about the C function (C85)
M = []
OS = "Model/OkaScore.lean"


def m(name, file, definition, old, new, edit, claim, **k):
    M.append(dict(name=name, file=file, definition=definition, old=old, new=new, edit=edit, claim=claim, **k))


m("cs-leak-keyerror", OS, "scorePair", "  | none => decref dAndF ⊳ fun _ => give false\n", "  | none => give false\n",
  "the pair is not released when the document has no length", "C85: every reference is given back")
m("cs-leak-type", OS, "iteration", "    | none => setError .TypeError ⊳ fun _ => decref x ⊳ fun _ => give false", "    | none => setError .TypeError ⊳ fun _ => give false",
  "the item is not released when it is no pair", "C85: every reference is given back")
m("cs-early-decref", OS, "scorePair", "  use api args [d2len, d] ⊳ fun _ =>\n", "  decref dAndF ⊳ fun _ =>\n  use api args [d2len, d] ⊳ fun _ =>\n",
  "the pair is released before its items are used", "C85: no object is used that may have been freed")
m("cs-decref-null", OS, "finish", "    | none => give ()\n    | some s => decref s) ⊳ fun _ =>", "    | none => decref d\n    | some s => decref s) ⊳ fun _ =>",
  "a borrowed reference is released", "C85: no reference is given back that is not held")
m("cs-no-incref", OS, "score", "    if ok then incref api args api.none ⊳ fun _ => give (some api.none) else give none", "    if ok then give (some api.none) else give none",
  "None is returned without a new reference", "C85: the reference to the result is handed over")
m("cs-null-noexc", OS, "iteration", "    | none => setError .TypeError ⊳ fun _ => decref x ⊳ fun _ => give false", "    | none => decref x ⊳ fun _ => give false",
  "no exception is set when an item is no pair", "C85: NULL is returned only with an exception")
m("cs-score-leak", OS, "finish", "  decref doclen ⊳ fun _ =>\n  (match score with\n    | none => give ()\n    | some s => decref s) ⊳ fun _ =>\n", "  decref doclen ⊳ fun _ =>\n",
  "the score object is never released", "C85: every reference is given back")
m("cs-status", OS, "finish", "  give status\n", "  give true\n",
  "a failing store is ignored", "C85: None is returned only with no exception set")
m("cs-short", OS, "toCInt", "(n + 2147483648) % 4294967296 - 2147483648", "(n + 32768) % 65536 - 32768",
  "the length is a C short", "C85: the score of every document is stored")
m("cs-off-by-one", OS, "score", "(List.range n.toNat) ⊳ fun ok", "(List.range (n.toNat - 1)) ⊳ fun ok",
  "the last item is left out", "C85: the score of every document is stored")
