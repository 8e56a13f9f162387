"""Wrong programs: formulas of the scores, and the HTML splitter."""
M = []


def m(name, file, definition, old, new, edit, claim, **kw):
    M.append(dict(name=name, file=file, definition=definition, old=old, new=new, edit=edit, claim=claim, **kw))


TX, LX, HT = "Model/TextIndex.lean", "Model/Lexicon.lean", "Model/HtmlSplitter.lean"

m("rd-tf-k1", TX, "Text.okapiTf", "pyDiv A (A.mul f (A.add P.k1 A.one))", "pyDiv A (A.mul f P.k1)",
  "term frequency weight with k1 instead of k1 + 1", "C74: scores are close to BM25")
m("rd-lenweight", TX, "Text.okapiTf", "let lenweight := A.add (A.sub A.one P.b) q\n  pyDiv", "let lenweight := A.add P.b q\n  pyDiv",
  "length weight b + b*len/mean", "C74: scores are close to BM25")
m("rd-len-swap", TX, "Text.okapiTf", "pyDiv A (A.mul P.b doclen) meandoclen", "pyDiv A (A.mul P.b meandoclen) doclen",
  "mean length divided by length", "C74: scores are close to BM25")
m("rd-idf", TX, "Text.idf", "pyLog A (A.add A.one q)", "pyLog A (A.add (A.add A.one A.one) q)",
  "log(2 + N/n)", "C74: scores are close to BM25 and cosine weights")
m("rd-phrase-one", TX, "Text.phraseLoop", "(result.set p.1 (K.arith.store p.2))", "(result.set p.1 (K.arith.store K.arith.one))",
  "phrases score 1", "C74: scores of phrases are close to the formula")
m("rd-union-second", "Model/SetOps.lean", "SetOps.wUnionVal", "| some a, some b => some (A.add (A.mul a wx) (A.mul b wy))\n  | some a, none => some (A.mul a wx)",
  "| some a, some _ => some (A.mul a wx)\n  | some a, none => some (A.mul a wx)",
  "the union keeps the first score instead of the sum", "C74: scores add up")
m("html-glob-and", HT, "Html.processGlob", "isW c || Lexicon.isGlobChar c", "isW c && Lexicon.isGlobChar c",
  "glob words are one word character and then nothing", "C45: glob words")
m("html-glob-plain", HT, "Html.processGlob", "(fun c => isW c || Lexicon.isGlobChar c)", "isW",
  "processGlob cuts words at * and ?", "C45: glob words")
m("html-no-blank", HT, "Html.subF", "| some r => ' ' :: subF fuel r", "| some r => subF fuel r",
  "markup is deleted instead of replaced by a blank", "C45, C75: words on both sides of markup stay apart")
m("html-no-lower", HT, "Html.split", "pattern (sub (lower text))", "lower (sub text) |> pattern",
  "lower-cased after removing markup (the Kelvin sign in an entity)", "C45: the text is lower-cased first")
m("html-entity", HT, "Html.markupRest", "else if c = '&' then entityRest t else none", "else none",
  "entities are not removed", "C45, C75: words inside entities never show")
m("html-tag-lt", HT, "Html.tagRest", "(fun c => c ≠ '<' && c ≠ '>')", "(fun c => c ≠ '>')",
  "a tag may contain <", "C45: an unclosed < is text")
m("html-first", HT, "Html.apply", "text.flatMap (split lower pattern)", "(text.take 1).flatMap (split lower pattern)",
  "only the first chunk is read", "C45, C75: words of every chunk")
m("rd-qw-k1", TX, "Text.okapiQueryWeight", "(A.add A.one P.k1)) A.zero", "P.k1) A.zero",
  "query weight with k1 instead of 1 + k1", "C74: scores are divided by the documented weight")
m("rd-scale-mul", TX, "Text.scaleStep", "  let q ← pyDiv A p.2 qw\n  return results.set p.1 (A.store q)", "  return results.set p.1 (A.store (A.mul p.2 qw))",
  "scores are multiplied by the query weight", "C74: scores are divided by the documented weight")
m("rd-cos-norm", TX, "Text.cosineFreqs", "    let q ← pyDiv A p.2 W\n    return (p.1, q))", "    return (p.1, p.2))",
  "weights of words are not divided by the weight of the document", "C74: scores are close to the cosine weights")
m("rd-cos-sqrt", TX, "Text.cosineQueryWeight", "  pySqrt A sum", "  return sum",
  "query weight without the root", "C74: scores are divided by the documented weight")
m("rd-cos-idf", TX, "Text.cosineWord", "A.store v), idf)", "A.store v), A.one)",
  "cosine scores without the inverse document frequency", "C74: scores are close to the cosine weights")
m("rd-mean", TX, "Text.okapiSearchWids", "    let meandoclen ← pyDiv A (A.ofInt s.total) N\n    wids.mapM (okapiWord", "    let meandoclen ← pyDiv A (A.ofInt s.total) (A.ofInt s.wordCount)\n    wids.mapM (okapiWord",
  "mean length taken over the words", "C74: scores are close to BM25")
