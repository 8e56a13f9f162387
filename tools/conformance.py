"""Evaluates the model on the cases of the project's own tests of the query parser, and compares with what those tests expect.
usage: conformance.py.  Exits 0 only if Lean does and every case agrees.

This tests the model with Lean's interpreter.  It proves nothing and is not part of the build.  For queries that are rejected it
only compares that there is an error."""
import ast
import os
import random
import subprocess
import sys

ROOT = os.path.join(os.path.dirname(os.path.abspath(__file__)), '..')
SRC = '/repo/src/zope/index/text/tests/test_queryparser.py'


def word(s):
    def ch(c):
        return {"'": "'\\''", '\\': "'\\\\'", '\n': "'\\n'", '\t': "'\\t'"}.get(c, "'%s'" % c)
    return '[' + ', '.join(ch(c) for c in s) + ']'


def node(e):
    name = e.func.id
    a = e.args[0]
    if name in ('AndNode', 'OrNode'):
        return '.%s [%s]' % (name[:-4].lower(), ', '.join(node(x) for x in a.elts))
    if name == 'NotNode':
        return '.not (%s)' % node(a)
    if name == 'PhraseNode':
        return '.phrase [%s]' % ', '.join(word(x.value) for x in a.elts)
    return '.%s %s' % (name[:-4].lower(), word(a.value))


out = ['''import Verif.Model.QueryParser
import Verif.Props.Lexicon
import Verif.Props.Query
import Verif.Model.HtmlSplitter
import Verif.Model.NBest
import Verif.Props.SetOps
import Verif.Model.WidCode
import Verif.Props.Field
import Verif.Model.Keyword
import Verif.Model.Topic
import Verif.Model.TextIndex
import Verif.Model.RiceCode

/-!
# The project's tests of the query parser, on the model

Generated by `tools/conformance.py`.
-/

set_option autoImplicit false

namespace Verif.Conformance

/-- test_queryparser.py:31-33 `_makePipeline` of `TestQueryParserBase` -/
def parserPipeline : List Element := [Splitter.element exIsW]

/-- test_queryparser.py:335-337, 413-419: with `FakeStopWordRemover` -/
def parserStopPipeline : List Element := [Splitter.element exIsW, stopWordRemover (fun w => w == ['s', 't', 'o', 'p'])]

/-- test_queryparser.py:39-48 `parser.parseQueryEx(input)` -/
def parsed (pipeline : List Element) (input : Word) := QueryParser.parseQuery exIsSpace exUpper (Lexicon.parseTerms pipeline) input
''']
n = 0
for cls in ast.parse(open(SRC).read()).body:
    if not isinstance(cls, ast.ClassDef):
        continue
    pipe = 'parserStopPipeline' if cls.name.startswith('StopWord') else 'parserPipeline'
    for f in cls.body:
        if not isinstance(f, ast.FunctionDef) or not f.name.startswith('test'):
            continue
        for st in f.body:
            if not (isinstance(st, ast.Expr) and isinstance(st.value, ast.Call) and isinstance(st.value.func, ast.Attribute)):
                continue
            c = st.value
            if c.func.attr == '_expect':
                ign = [x.value for x in c.args[3].elts] if len(c.args) > 3 else []
                out.append('#eval IO.println (match parsed %s %s with | .ok x => "CASE %s " ++ toString (reprStr x == reprStr ((%s, [%s]) : Node × List Word)) '
                           '| .error _ => "CASE %s false")' % (
                               pipe, word(c.args[1].value), f.name, node(c.args[2]), ', '.join(word(x) for x in ign), f.name))
            elif c.func.attr == '_failure':
                out.append('#eval IO.println (match parsed %s %s with | .ok _ => "CASE %s false" | .error _ => "CASE %s true")' % (
                    pipe, word(c.args[1].value), f.name, f.name))
            else:
                continue
            n += 1

# test_lexicon.py, test_htmlsplitter.py and tests/tests.py, written out by hand: (test, Lean term of type Bool)
W = word


def ws(*l):
    return '([%s] : List Word)' % ', '.join(word(x) for x in l)


SP = '[Splitter.element exIsW]'
SRC_ = lambda pipe, s: '(Lexicon.sourceToWordIds %s Lexicon.new (.str %s))' % (pipe, word(s))
TERM = lambda pipe, s, t: '(match Lexicon.termToWordIds %s %s.1 (.str %s) with | .ok l => l | .error _ => [-1])' % (pipe, SRC_(pipe, s), word(t))
GLOB = lambda s, p: '(match Lexicon.globToWordIds (fun _ => .error .ValueError) %s.1 %s with | .ok l => l | .error _ => [-1])' % (SRC_(SP, s), word(p))
ELT = '{ process := fun l => l.map (fun w => if w == %s then %s else w), processGlob := none }'
STUPID = lambda a, b: ELT % (word(a), word(b))
STOP = 'stopWordRemover (fun w => w == %s)' % word('and')
CASE_ = 'caseNormalizer exLowerWord'
C, E5 = 'cats and dogs', 'cats and dogs are enemies'
HAND = [
    ('sourceToWordIds_empty', '%s.2 == []' % SRC_(SP, '')),
    ('sourceToWordIds', '%s.2 == [1, 2, 3]' % SRC_(SP, C)),
    ('get_wid', 'Lexicon.getWid %s.1 %s == 1' % (SRC_(SP, C), W('cats'))),
    ('termToWordIds_hit', '%s == [3]' % TERM(SP, C, 'dogs')),
    ('termToWordIds_miss', '%s == [0]' % TERM(SP, C, 'boxes')),
    ('w_extra_pipeline_element', '%s == [3]' % TERM('[Splitter.element exIsW, %s]' % STUPID('dogs', 'fish'), C, 'fish')),
    ('w_case_normalizer', '%s == [1, 2, 3]' % TERM('[Splitter.element exIsW, %s]' % CASE_, 'CATS and dogs', C)),
    ('wo_case_normalizer', '%s == [0, 2, 3]' % TERM(SP, 'CATS and dogs', C)),
    ('w_two_extra', '%s == [1]' % TERM('[Splitter.element exIsW, %s, %s]' % (STUPID('cats', 'fish'), STUPID('fish', 'hsif')), C, 'hsif')),
    ('w_three_extra', '%s == [2]' % TERM('[Splitter.element exIsW, %s, %s, %s]' % (STOP, STUPID('dogs', 'fish'), STUPID('fish', 'hsif')), C, 'hsif')),
    ('parseTerms', 'Lexicon.parseTerms %s %s == %s' % (SP, W('a b*c de?f'), ws('a', 'b*c', 'de?f'))),
    ('parseTerms_empty', 'Lexicon.parseTerms %s [] == []' % SP),
    ('isGlob', 'Lexicon.isGlob %s && Lexicon.isGlob %s && !Lexicon.isGlob %s && !Lexicon.isGlob []' % (W('a?c'), W('abc*'), W('abc'))),
    ('glob_invalid', '%s == [-1]' % GLOB(C, '*s')),
    ('glob_simple', '%s == [2, 4]' % GLOB(E5, 'a*')),
    ('glob_simple2', '%s == [4]' % GLOB(E5, 'a?e')),
    ('glob_prefix', '%s == [4]' % GLOB(E5, 'are')),
    ('getWordIdCreate_new', '(Lexicon.getWordIdCreate Lexicon.new %s).2 == 1' % W('nonesuch')),
    ('getWordIdCreate_extant', '(Lexicon.getWordIdCreate %s.1 %s).2 == 1' % (SRC_(SP, E5), W('cats'))),
    ('new_wid_damaged', 'Lexicon.newWid { %s.1 with count := 0 } == 4' % SRC_(SP, C)),
    ('case_normalizer', '(%s).process %s == %s' % (CASE_, ws('ABC Def'), ws('abc def'))),
    ('stop', '(stopWordRemover isStop).process %s == %s' % (ws(*'the end of government is justice'.split()), ws('end', 'government', 'justice'))),
    ('stop_single', '(stopWordRemover isStopOrSingle).process %s == %s' % (ws(*'the end of government is justice z x q'.split()), ws('end', 'government', 'justice'))),
    ('nbest_zero', '(match (NBest.new 0 : Except PyErr (NBest Nat Int)) with | .ok _ => false | .error _ => true)'),
    ('nbest_negative', '(match (NBest.new (-1) : Except PyErr (NBest Nat Int)) with | .ok _ => false | .error _ => true)'),
]
for k, (proc, glob) in {'splitter': ('Splitter.process exIsW', 'Splitter.processGlob exIsW'),
                        'html': ('Html.process exIsW exLowerWord', 'Html.processGlob exIsW exLowerWord')}.items():
    G = 'abc?def hij*klm nop* qrs?'
    HAND += [(k + '_empty', '%s %s == []' % (proc, ws(''))), (k + '_simple', '%s %s == %s' % (proc, ws('abc def'), ws('abc', 'def'))),
             (k + '_w_glob', '%s %s == %s' % (proc, ws(G), ws('abc', 'def', 'hij', 'klm', 'nop', 'qrs'))),
             (k + '_glob_empty', '%s %s == []' % (glob, ws(''))), (k + '_glob_simple', '%s %s == %s' % (glob, ws('abc def'), ws('abc', 'def'))),
             (k + '_glob_w_glob', '%s %s == %s' % (glob, ws(G), ws('abc?def', 'hij*klm', 'nop*', 'qrs?')))]
for s in ('<h1>abc</h1> &nbsp; <p>def</p>', '<h1>abc</h1>&nbsp;<p>def</p>'):
    HAND.append(('html_markup', 'Html.process exIsW exLowerWord %s == %s' % (ws(s), ws('abc', 'def'))))
HAND.append(('html_glob_markup', 'Html.processGlob exIsW exLowerWord %s == %s' % (ws('<h1>abc</h1> &nbsp; <p>def</p>'), ws('abc', 'def'))))
NB = lambda N, seq: '(match (do let b ← NBest.new %d; NBest.addmany b %s : Except PyErr (NBest Int Int)) with | .ok b => NBest.getbest b | .error _ => [])' % (N, seq)
PAIRS = lambda l: '[%s]' % ', '.join('((%d : Int), (%d : Int))' % p for p in l)
for N in range(1, 51, 5):
    ins = [(-i, i) for i in range(50)]
    for src in (ins, ins[::-1]):
        HAND.append(('nbest_many_%d' % N, '%s == %s' % (NB(N, PAIRS(src)), PAIRS(ins[-N:][::-1]))))
for N in range(1, 12):
    ins = [(i, 0) for i in range(10)]
    HAND.append(('nbest_same_%d' % N, '%s == %s' % (NB(N, PAIRS(ins)), PAIRS(ins[:N]))))

# test_setops.py: pairs and many (with the trees in order, not shuffled); test_widcode.py
MAP = lambda d: '(SMap.ofList %s : SMap Int Int)' % PAIRS(sorted(d.items()))
RES = lambda e: '(match %s with | .ok m => m.items | .error _ => [(-1, -1)])' % e
UNION = lambda l: RES('SetOps.massUnion (Spec.exact Int) [%s]' % ', '.join('(%s, (%d : Int))' % (MAP(d), w) for d, w in l))
INTER = lambda l: RES('SetOps.massIntersection (Spec.exact Int) [%s]' % ', '.join('(some %s, (%d : Int))' % (MAP(d), w) for d, w in l))


def both(name, l):
    keys = sorted(set().union(*[d for d, _ in l])) if l else []
    u = [(k, sum(d.get(k, 0) * w for d, w in l)) for k in keys]
    i = [(k, sum(d[k] * w for d, w in l)) for k in keys if all(k in d for d, _ in l)]
    HAND.append((name + '_union', '%s == %s' % (UNION(l), PAIRS(u))))
    HAND.append((name + '_inter', '%s == %s' % (INTER(l), PAIRS(i))))


both('setops_empty', [])
both('setops_identity', [({1: 2}, 1)])
for factor in 0, 1, 5, 10:
    both('setops_scalar_%d' % factor, [({1: 2, 2: 3, 3: 4}, factor)])
T1, T2 = {1: 10, 3: 30, 7: 70}, {3: 30, 5: 50, 7: 7, 9: 90}
for x in T1, T2:
    for y in T1, T2:
        for w1, w2 in (0, 0), (1, 10), (10, 1), (2, 3):
            both('setops_pairs', [(x, w1), (y, w2)])
            both('setops_pairs_swapped', [(y, w2), (x, w1)])
MANY = []
for i in range(15):
    d = {15000: i}
    d.update((i + j, 15 * i + j) for j in range(15 - i))
    MANY.append((d, i + 1))
both('setops_many', MANY)
both('setops_many_reversed', MANY[::-1])
ENC = '(match WidCode.encode [Int.ofNat w] with | .ok l => l | .error _ => [])'
DEC = '(match WidCode.decode %s with | .ok l => l | .error _ => [])'
STEPS = '((List.range %d).map (fun i => %d + i * %d))'


def steps(lo, hi, step):
    return STEPS % (len(range(lo, hi, step)), lo, step)


for name, rng, code in [('7', (0, 2**7, 1), '[w + 128]'), ('14', (2**7, 2**14, 1), '[w / 128 + 128, w % 128]'),
                        ('21', (2**14, 2**21, 255), '[w / 16384 + 128, w / 128 % 128, w % 128]'),
                        ('28', (2**21, 2**28, 256 * 512 - 1), '[w / 2097152 + 128, w / 16384 % 128, w / 128 % 128, w % 128]')]:
    HAND.append(('widcode_encode_' + name, '%s.all (fun w => %s == %s)' % (steps(*rng), ENC, code)))
HAND.append(('widcode_decode_zero', '%s == [0]' % (DEC % '[0x80]')))
BAD = '(match WidCode.decodeBig %s with | .error .AssertionError => true | _ => false)'
GOOD = '(match WidCode.decodeBig %s with | .ok v => v == Int.ofNat w | _ => false)'
for name, rng, code, form in [('one', (1, 128, 1), '[128 + w]', BAD), ('two', (128, 2**14, 1), '[w / 128 + 128, w % 128]', BAD),
                              ('three', (2**14, 2**21, 247), '[w / 16384 + 128, w / 128 % 128, w % 128]', GOOD),
                              ('four', (2**21, 2**28, 256 * 512 - 7), '[w / 2097152 + 128, w / 16384 % 128, w / 128 % 128, w % 128]', GOOD)]:
    HAND.append(('widcode_decode_' + name, '%s.all (fun w => %s)' % (steps(*rng), form % code)))
HAND.append(('widcode_symmetric', '%s.all (fun w => %s == [Int.ofNat w])' % (steps(0, 2**26, 1117), DEC % ENC)))

# keyword/tests.py
POP = [(1, 'zope CMF Zope3'), (2, 'the quick brown FOX'), (3, 'Zope'), (4, ''), (5, 'cmf')]
POPI = [(1, 'zope CMF zope3 Zope3'), (2, 'the quick brown FOX'), (3, 'Zope zope'), (4, ''), (5, 'cmf')]
NORM = {'kw': 'id', 'kwi': '(Keyword.normalizeLower exLowerWord)'}
IDX = lambda l: ['.index %d (.list %s)' % (d, ws(*s.split())) for d, s in l]
RUN = lambda k, ops: '(Keyword.run %s [%s] : Keyword Int Word)' % (NORM[k], ', '.join(ops))
KEYS = lambda e: '(match %s with | .ok r => r.keys | .error _ => [-1])' % e
SEQ = lambda q: '.seq %s' % ws(*q.split(' ')) if not q.startswith('=') else '.str %s' % word(q[1:])


def kw(k, name, ops, q, op, expected):
    r = RUN(k, ops)
    for e in ['Keyword.search %s %s (%s) .%s' % (NORM[k], r, SEQ(q), op)] + (
            ['(Keyword.apply %s %s (.plain (%s))).1' % (NORM[k], r, SEQ(q))] if op == 'and' else []) + [
            '(Keyword.apply %s %s (.dict (some (%s)) (some .%s))).1' % (NORM[k], r, SEQ(q), op)]:
        HAND.append(('%s_%s' % (k, name), '%s == %s' % (KEYS(e), list(expected))))


for q, e in [('', []), ('=cmf', [5]), ('cmf', [5]), ('Zope', [3]), ('Zope3', [1]), ('foo', []), ('CMF Zope3', [1]), ('CMF zope', [1]),
             ('cmf zope4', []), ('quick FOX', [2])]:
    kw('kw', 'and', IDX(POP), q, 'and', e)
    kw('kw', 'and_tree_set', ['.setThreshold 0'] + IDX(POP), q, 'and', e)
    kw('kw', 'and_mix', ['.setThreshold 2'] + IDX(POP), q, 'and', e)
for q, e in [('cmf Zope3', [1, 5]), ('cmf zope', [1, 5]), ('cmf zope4', [5]), ('zope Zope', [1, 3])]:
    kw('kw', 'or', IDX(POP), q, 'or', e)
for q, e in [('', []), ('=cmf', [1, 5]), ('cmf', [1, 5]), ('zope', [1, 3]), ('zope3', [1]), ('foo', []), ('cmf zope3', [1]), ('cmf zope', [1]),
             ('cmf zope4', []), ('zope ZOPE', [1, 3])]:
    kw('kwi', 'and', IDX(POPI), q, 'and', e)
for q, e in [('cmf zope3', [1, 5]), ('cmf zope', [1, 3, 5]), ('cmf zope4', [1, 5]), ('zope ZOPE', [1, 3])]:
    kw('kwi', 'or', IDX(POPI), q, 'or', e)
kw('kw', 'empty_unindexes', IDX(POP + [(5, '')]), '=cmf', 'and', [])
TREE = lambda ops: '(%s.fwd.get? %s).map (·.isTree)' % (RUN('kw', ops), word('zope'))
for name, ops, tree in [('tree0', ['.setThreshold 0'] + IDX(POP), True), ('mix', ['.setThreshold 2'] + IDX(POP), False),
                        ('optimize_tree', IDX(POP) + ['.setThreshold 0', '.optimize'], True),
                        ('optimize_simple', ['.setThreshold 0'] + IDX(POP) + ['.setThreshold 99', '.optimize'], False),
                        ('optimize_alone', IDX(POP) + ['.setThreshold 99', '.optimize'], False)]:
    HAND.append(('kw_type_' + name, '%s == some %s' % (TREE(ops), str(tree).lower())))
for k, pop, wc in (('kw', POP, 9), ('kwi', POPI, 7)):
    for name, ops, dc, n_words, docs in [
            ('empty', [], 0, 0, []), ('single', IDX([(1, 'albatross cormorant')]), 1, 2, [1]),
            ('existing', IDX([(1, 'albatross cormorant'), (1, 'buzzard cormorant')]), 1, 2, [1]), ('many', IDX(pop), 4, wc, [1, 2, 3, 5]),
            ('clear', IDX(pop) + ['.clear'], 0, 0, []), ('unindex_missing', ['.unindex 1'], 0, 0, []),
            ('no_residue', IDX([(1, 'albatross')]) + ['.unindex 1'], 0, 0, []),
            ('residue', IDX([(1, 'albatross'), (2, 'albatross cormorant')]) + ['.unindex 1'], 1, 2, [2])]:
        r = RUN(k, ops)
        HAND.append(('%s_%s' % (k, name), '(%s.documentCount, %s.wordCount, ([1, 2, 3, 4, 5, 6] : List Int).filter (%s.hasDoc ·)) == (%d, %d, %s)' % (
            r, r, r, dc, n_words, docs)))
    HAND.append((k + '_str', '(Keyword.indexDoc %s (Keyword.new : Keyword Int Word) 1 .str).2 == some .TypeError' % NORM[k]))
    HAND.append((k + '_bad_operator', '(match Keyword.search %s (Keyword.new : Keyword Int Word) (.str %s) .other with | .error .TypeError => true | _ => false)' % (
        NORM[k], W('whatever'))))

# topic/tests: expressions and objects are words, an expression is true of the object that is the same word
EVAL = '(fun e _ x => if e == %s then .error () else .ok (e == x || e == %s))' % (word('1/0'), word('True'))
TRUN = lambda ops: '(Topic.run %s [%s] : Topic Word Int Word)' % (EVAL, ', '.join('(%s : Topic.Op Word Int Word Word)' % o for o in ops))
TPOP = ['.addFilter %s (Filter.new .python %s)' % (word(f), word(f)) for f in ('doc1', 'doc2', 'doc3')] + [
    '.index %d %s' % (i, word(o)) for i, o in enumerate('doc0 doc1 doc1 doc2 doc2 doc3 doc3'.split())]


def topic(name, ops, q, op, expected):
    r = TRUN(ops)
    for e in ['Topic.search %s (%s) .%s' % (r, SEQ(q), op), '(Topic.apply %s (.dict (some (%s)) (some .%s))).1' % (r, SEQ(q), op)] + (
            ['(Topic.apply %s (.plain (%s))).1' % (r, SEQ(q)), '(Topic.apply %s (.dict (some (%s)) none)).1' % (r, SEQ(q))] if op == 'and' else []):
        HAND.append(('topic_' + name, '%s == %s' % (KEYS(e), list(expected))))


for q, o, a in [('=doc1', [1, 2], [1, 2]), ('doc1', [1, 2], [1, 2]), ('=doc2', [3, 4], [3, 4]), ('doc2', [3, 4], [3, 4]), ('doc1 doc2', [1, 2, 3, 4], [])]:
    topic('or', TPOP, q, 'or', o)
    topic('and', TPOP, q, 'and', a)
UN = TPOP + ['.unindex (-99)', '.unindex 3', '.unindex 4', '.unindex 5']
for q, e in [('=doc1', [1, 2]), ('=doc2', []), ('=doc3', [6]), ('=doc4', [])]:
    topic('unindex', UN, q, 'or', e)
topic('no_filters', [], 'nonesuch', 'and', [])
topic('no_filters', [], '=nonesuch', 'and', [])
DUMMY = lambda d: ['.addFilter %s { (Filter.new .python [] : Filter Int Word) with ids := SSet.ofList %s }' % (word(f), l) for f, l in d.items()]
for d, q, op, e in [({'foo': [1, 2, 3], 'bar': [2, 3, 4]}, 'foo', 'and', [1, 2, 3]), ({'foo': [1, 2, 3], 'bar': [2, 3, 4]}, 'foo bar', 'and', [2, 3]),
                    ({'foo': [1, 2, 3], 'bar': [4, 5, 6]}, 'foo bar', 'and', []), ({'foo': [1, 2, 3], 'bar': [2, 3, 4]}, 'foo bar', 'or', [1, 2, 3, 4])]:
    topic('dummy', DUMMY(d), q, op, e)
FOOBAR = DUMMY({'foo': [], 'bar': []})
for name, ops, e in [('clear', FOOBAR + ['.clear'], []), ('duplicate', FOOBAR[:1] * 2, ['foo']), ('delFilter', FOOBAR + ['.delFilter %s' % word('foo')], ['bar'])]:
    HAND.append(('topic_' + name, '%s.filters.keys == %s' % (TRUN(ops), ws(*e))))
HAND.append(('topic_del_nonesuch', '(Topic.delFilter %s %s).2 == some .KeyError' % (TRUN([]), word('nonesuch'))))
HAND.append(('topic_bad_query', '(match Topic.search %s .other .and with | .error .TypeError => true | _ => false)' % TRUN([])))
HAND.append(('topic_bad_operator', '(match Topic.search %s (.seq []) .other with | .error .TypeError => true | _ => false)' % TRUN([])))
FILT = lambda kind, e: '(Filter.indexDoc %s (Filter.new .%s %s : Filter Int Word) 1 ([] : Word))' % (EVAL, kind, word(e))
HAND.append(('filter_base', '%s.2 == some .NotImplementedError' % FILT('base', 'True')))
for e, ids in (('True', [1]), ('False', []), ('1/0', [])):
    HAND.append(('filter_' + e, '%s.2 == none && %s.1.ids.keys == %s' % (FILT('python', e), FILT('python', e), ids)))

# field/tests.py, values as in Props/Field: (1, n) is the int n, (2, n) is a str, 'albatross' being (2, 5) between 'a' (2, 0) and 'b' (2, 10)
V = lambda k, v: '(toLex ((%d : Nat), (%d : Int)) : ExV)' % (k, v)
FRUN = lambda ops: '(Field.run [%s] : Field Int ExV)' % ', '.join(ops)
FIX = lambda l: ['.index %d %s' % (d, V(*v)) for d, v in l]
FIELD = [(5, 1), (2, 2), (1, 3), (3, 4), (4, 5), (8, 6), (9, 7), (7, 8), (6, 9), (11, 10), (10, 11)]
FPOP = FIX([(d, (1, v)) for d, v in FIELD])
ALB = FIX([(1, (2, 5))])


def fsort(name, ops, ids, expected, lazy=False, nbest=False, reverse=False, limit=None):
    e = 'Field.sort %s %s %s %s %s %s' % (FRUN(ops), str(lazy).lower(), str(nbest).lower(), ids, str(reverse).lower(), 'none' if limit is None else '(some %d)' % limit)
    if expected is ValueError:
        HAND.append(('sort_' + name, '(match %s with | .error .ValueError => true | _ => false)' % e))
    else:
        HAND.append(('sort_' + name, '(match %s with | .ok l => l | .error _ => [-1]) == %s' % (e, expected)))


C1, C99 = [1, 2, 3, 4, 5], [1, 2, 3, 4, 5, 99]
fsort('limit_lt_1', [], [1, 2, 3], ValueError, limit=0)
fsort('empty_index', [], [1, 2, 3], [])
fsort('empty_docids', ALB, [], [])
fsort('missing', ALB, [2, 3], [])
fsort('nbest_missing', ALB, [2, 3], [], nbest=True)
fsort('lazy_missing', ALB, [2, 3], [], lazy=True)
fsort('lazy_nolimit', FPOP, C1, [5, 2, 1, 3, 4], lazy=True)
fsort('lazy_limit', FPOP, C1, [5, 2, 1], lazy=True, limit=3)
fsort('nolimit', FPOP, C1, [5, 2, 1, 3, 4])
fsort('missingdocid', FPOP, C99, [5, 2, 1, 3, 4])
fsort('limit', FPOP, C1, [5, 2, 1], limit=3)
fsort('reverse', FPOP, C1, [4, 3, 1, 2, 5], reverse=True)
fsort('reverse_limit', FPOP, C1, [4, 3, 1], reverse=True, limit=3)
fsort('nbest', FPOP, C1, [5, 2, 1], nbest=True, limit=3)
fsort('nbest_reverse', FPOP, C1, [4, 3, 1], nbest=True, reverse=True, limit=3)
fsort('nbest_missing', FPOP, C99, [5, 2, 1], nbest=True, limit=3)
fsort('nbest_missing_reverse', FPOP, C99, [4, 3, 1], nbest=True, reverse=True, limit=3)
fsort('nodocids', FPOP, [], [])
fsort('badlimit', FPOP, C1, ValueError, limit=0)
for name, ops, dc, wc, rev in [('new', FIX([(1, (2, 1))]), 1, 1, [1]), ('same', FIX([(1, (2, 1))] * 2), 1, 1, [1]),
                               ('new_value', FIX([(1, (2, 1)), (1, (2, 2))]), 1, 1, [1]), ('nonesuch', ['.unindex 1'], 0, 0, []),
                               ('no_residual', FIX([(1, (2, 1))]) + ['.unindex 1'], 0, 0, []),
                               ('residual', FIX([(1, (2, 1)), (2, (2, 1))]) + ['.unindex 1'], 1, 1, [2]), ('none', FIX([(1, (0, 0))]), 1, 1, [1])]:
    r = FRUN(ops)
    HAND.append(('field_' + name, '(%s.documentCount, %s.wordCount, %s.rev.keys) == (%d, %d, %s)' % (r, r, r, dc, wc, rev)))
for name, ops, q, e in [('miss', [], '.tuple [some %s, some %s]' % (V(2, 0), V(2, 10)), []), ('hit', ALB, '.tuple [some %s, some %s]' % (V(2, 0), V(2, 10)), [1])]:
    HAND.append(('field_apply_' + name, '%s == %s' % (KEYS('Field.apply %s (%s)' % (FRUN(ops), q)), e)))
for q in ('.sized 2', '.tuple [some %s]' % V(2, 0), '.tuple [some %s, some %s, some %s]' % (V(2, 0), V(2, 1), V(2, 2))):
    HAND.append(('field_apply_raises', '(match Field.apply %s (%s) with | .error .TypeError => true | _ => false)' % (FRUN([]), q)))

# text indexes, with Lean's floating point numbers; in trees and buckets they are stored in single precision
out.append('''
def fa : Arith Float :=
  { zero := 0, one := 1, add := (· + ·), mul := (· * ·), isOne := (· == 1), ofNat := Float.ofNat, ofInt := Float.ofInt, sub := (· - ·)
    div := fun x y => if y == 0 then none else some (x / y)
    log := fun x => if x > 0 then some x.log else none
    sqrt := fun x => if x < 0 then none else some x.sqrt
    neq := (· != ·), isZero := (· == 0), store := fun x => x.toFloat32.toFloat, toInt := fun x => x.toInt64.toInt }
def okapiF : Text.Kind Int Float := Text.okapi fa { k1 := 1.2, b := 0.75 }
def okapiCF : Text.Kind Int Float := Text.okapiC fa (· / ·) { k1 := 1.2, b := 0.75 }
def cosineF : Text.Kind Int Float := Text.cosine fa
def noOdd : Word → Except PyErr (Word → Bool) := fun _ => .error .ValueError
/-- the word characters of README.rst -/
def readmeW (c : Char) : Bool := c.isAlphanum || c == '_' || c.val == 0xe7 || (0x3b1 ≤ c.val && c.val ≤ 0x3c9)
def readmeP : List Element := Text.defaultPipeline readmeW exLowerWord
def ti (K : Text.Kind Int Float) (p : List Element) (ops : List (Text.Op Int)) : Text.TI Int Float :=
  match Text.run K p ops with | .ok s => s | .error _ => { lex := Lexicon.new, ix := { (Text.new : Text.Ix Int Float) with documentCount := -1 } }
def rounded (k : Float) (r : Except PyErr (Option (SMap Int Float))) : List (Int × Int) :=
  match r with | .ok (some m) => m.items.map (fun p => (p.1, (p.2 * k).round.toInt64.toInt)) | .ok none => [(-1, -1)] | .error _ => [(-2, -2)]
def keysOf (r : Except PyErr (SMap Int Float)) : List Int := match r with | .ok m => m.keys | .error _ => [-1]
def optKeys (r : Except PyErr (Option (SMap Int Float))) : List Int := match r with | .ok (some m) => m.keys | .ok none => [-2] | .error _ => [-1]
def faux : Searcher Int Float :=
  { search := fun w => .ok (some (SMap.ofList (if w == ['f', 'o', 'o'] then [(1, 1), (3, 1)] else if w == ['b', 'a', 'r'] then [(1, 1), (2, 1)]
      else if w == ['h', 'a', 'm'] then [(1, 1), (2, 1), (3, 1), (4, 1)] else [])))
    searchPhrase := fun _ => .ok none, searchGlob := fun _ => .ok none }
def engine (q : Word) : List (Int × Int) :=
  match QueryParser.parseQuery exIsSpace exUpper (Lexicon.parseTerms [Splitter.element exIsW]) q with
  | .ok (tree, _) => rounded 1 (tree.execute fa.toWArith faux)
  | .error _ => [(-3, -3)]''')

rm = open('/repo/src/zope/index/text/README.rst').read().split('\n')
WORD = chr(0x3b4) + chr(0x3b5) + chr(0x3bb) + chr(0x3c4) + chr(0x3b1)


def block(n):
    i = next(k for k, l in enumerate(rm) if 'index.index_doc(%d, u"""' % n in l)
    j = next(k for k in range(i + 1, len(rm)) if '... """)' in rm[k])
    return '\n' + ''.join(l[8:] + '\n' for l in rm[i + 1:j])


TEXTS = {1: 'the quick brown fox jumps over the lazy dog', 2: "the brown fox and the yellow fox don't need the retriever", 3: block(3),
         4: 'Fran\xe7ois', 5: WORD + chr(0x2014) + chr(0x3b1), 6: block(6), 7: block(7), 8: block(8)}
TOPS = '[%s]' % ', '.join('.index %d (.str %s)' % (d, word(x)) for d, x in TEXTS.items())
out.append('def readmeOps : List (Text.Op Int) := %s' % TOPS)
for kind in ('okapiF', 'okapiCF'):
    for q, k, e in [('brown fox', 10000, [(1, 6153), (2, 6734)]), ('quick fox', 10000, [(1, 6153)]), ('brown python', 10000, []), ('dalmatian', 10000, []),
                    ('brown or python', 10000, [(1, 2602), (2, 2529), (8, 934)]), ('butts', 10000, [(7, 6948)]), ('Fran\xe7ois', 10000, [(4, 7427)]),
                    (WORD, 10000, [(5, 7179)]), ('fo*', 1000, [(1, 2179), (2, 2651), (3, 2041)])]:
        HAND.append(('readme_%s_%s' % (kind, q), 'rounded %d (Text.apply %s exIsSpace exUpper noOdd readmeP (ti %s readmeP readmeOps) %s) == %s' % (
            k, kind, kind, word(q), PAIRS(e))))
    HAND.append(('readme_counts', '((ti %s readmeP readmeOps).documentCount, (ti %s readmeP readmeOps).wordCount) == (8, 114)' % (kind, kind)))
    HAND.append(('readme_zorro', 'rounded 10000 (Text.apply %s exIsSpace exUpper noOdd readmeP (ti %s readmeP [.index 1 (.list []), .index 1 (.list [%s])]) %s) == [(1, 4545)]' % (
        kind, kind, word('Zorro'), word('Zorro'))))
    for ops, total in [([], 0), ([(1, 'one two three'), (2, 'two three four')], 6), ([(1, 'one two three'), (1, 'two three four')], 3)]:
        HAND.append(('totaldoclen', '(ti %s %s [%s]).ix.total == %d' % (kind, SP, ', '.join('.index %d (.str %s)' % (d, word(x)) for d, x in ops), total)))
FUNKY, NEWER = '.index 100 (.str %s)' % word('a new funky value'), '.index 100 (.str %s)' % word('an even newer funky value')
TRACK = [FUNKY, FUNKY, NEWER, '.unindex 100', '.unindex 100']
for kind in ('okapiF', 'okapiCF'):
    for done, total in enumerate([0, 3, 3, 5, 0, 0]):
        HAND.append(('readme_tracking', '(ti %s readmeP [%s]).ix.total == %d' % (kind, ', '.join(TRACK[:done]), total)))
DOC1, DOC2 = 'simple document contains five words', 'another document just four'
for kind in ('okapiF', 'okapiCF', 'cosineF'):
    S = lambda l: '(ti %s %s [%s])' % (kind, SP, ', '.join(x if isinstance(x, str) else '.index %d (.str %s)' % (x[0], word(x[1])) for x in l))
    for name, l, dw, wi in [('empty', [], 0, 0), ('index', [(1, DOC1)], 1, 5), ('unindex', [(1, DOC1), '.unindex 1'], 0, 0),
                            ('absent', [(1, DOC1), '.unindex 2'], 1, 5), ('clear', [(1, DOC1), '.clear'], 0, 0), ('two', [(1, DOC1), (2, DOC2)], 2, 8),
                            ('two_unindex', [(1, DOC1), (2, DOC2), '.unindex 1'], 1, 4),
                            ('duplicated', [(1, 'very simple repeat repeat repeat document test')], 1, 5)]:
        HAND.append(('%s_%s' % (kind, name), '(let s := %s; (s.ix.docweight.len, s.ix.wordinfo.len, s.ix.docwords.len, s.wordCount, s.documentCount)) == (%d, %d, %d, %d, %d)' % (
            S(l), dw, wi, dw, wi, dw)))
    HAND.append((kind + '_words', '(match Text.getWords %s.ix 1 with | .ok l => l.length | .error _ => 0) == 7' % S([(1, 'very simple repeat repeat repeat document test')])))
    NOT = [(1, 'not the same document')]
    for l, q, e in [(NOT, 'document', [1]), (NOT, 'frobnicate', []), (NOT + [(2, 'something about something else')], 'document', [1])]:
        HAND.append((kind + '_search', '(let s := %s; optKeys (Text.search %s %s s.lex s.ix (.str %s))) == %s' % (S(l), kind, SP, word(q), e)))
    FOX = [(1, 'the quick brown fox jumps over the lazy dog'), (2, 'the quick fox jumps lazy over the brown dog')]
    HAND.append((kind + '_phrase', '(let s := %s; keysOf (Text.searchPhrase %s %s s.lex s.ix (.str %s))) == [1]' % (S(FOX), kind, SP, word('quick brown fox'))))
    COW = [(1, 'how now brown cow'), (2, 'hough nough browne cough'), (3, 'bar brawl')]
    for q, e in [('bro*', [1, 2]), ('b*', [1, 2, 3])]:
        HAND.append((kind + '_glob', '(let s := %s; keysOf (Text.searchGlob %s noOdd s.lex s.ix %s)) == %s' % (S(COW), kind, word(q), e)))
    ONE, MULTI = [(1, 'one two three')], [(1, 'one one two three one')]
    QW = lambda l, ts: '(match Text.queryWeight %s %s %s [%s] with | .ok x => x | .error _ => (-1 : Float) : Float)' % (kind, SP, S(l), ', '.join('.str %s' % word(x) for x in ts))
    HAND.append((kind + '_weight_empty', '%s == 0' % QW(ONE, [])))
    HAND.append((kind + '_weight_oov', '%s == 0' % QW(ONE, ['nonesuch'])))
    for l in (ONE, MULTI):
        HAND.append((kind + '_weight_hit', '(let w := %s; w > 0 %s : Bool)' % (QW(l, ['one']), '&& w < 1' if kind == 'cosineF' else '')))
    for n_docs, hits in ((1, 1), (11, 11)):
        l = ONE if n_docs == 1 else [(i, 'one two three %d' % i) for i in range(11)]
        HAND.append((kind + '_search_wids', '(match Text.Kind.searchWids %s %s.ix [1, 2, 3] with | .ok r => r.map (fun p => p.1.len) | .error _ => []) == [%d, %d, %d]' % (
            kind, S(l), hits, hits, hits)))
for q, d in [('foo AND bar', {1: 2}), ('foo OR bar', {1: 2, 2: 1, 3: 1}), ('foo AND NOT bar', {3: 1}), ('foo AND foo AND foo', {1: 3, 3: 3}),
             ('foo OR foo OR foo', {1: 3, 3: 3}), ('ham AND NOT foo AND NOT bar', {4: 1}), ('ham OR foo OR bar', {1: 3, 2: 2, 3: 2, 4: 1}), ('ham AND foo AND bar', {1: 3})]:
    HAND.append(('engine', 'engine %s == %s' % (word(q), PAIRS(sorted(d.items())))))
HAND.append(('engine_not', '(match (Node.not (.atom %s)).execute fa.toWArith faux with | .error _ => true | .ok _ => false)' % word('foo')))

# Rice codes; the lists the tests draw at random are drawn once, with a fixed seed
rnd = random.Random(0)
for size in [1, 10, 20, 50, 100, 200]:
    l = [rnd.randint(1, size) for i in range(50)]
    HAND.append(('rice_random', '(match Rice.encode %d %s with | .ok c => decide (c.tolist.toOption = some %s) | .error _ => false)' % (rnd.randint(1, 16), l, l)))
for size in [1, 10, 20, 50, 100, 200]:
    l = list(range(rnd.randint(1, size), size + rnd.randint(1, size)))
    HAND.append(('rice_deltas', '(match Rice.encodeDeltas %s with | .ok r => decide ((Rice.decodeDeltas r.1 r.2).toOption = some %s) | .error _ => false)' % (l, l)))
HAND.append(('rice_one', '(match Rice.encodeDeltas [7] with | .ok (7, .emptyList) => true | _ => false)'))
HAND.append(('rice_decode_one', 'decide ((Rice.decodeDeltas 7 .emptyList).toOption = some [7])'))
for m in (-1, 17):
    HAND.append(('rice_range', '(match Rice.RiceCode.new (%d) with | .error .ValueError => true | _ => false)' % m))
HAND.append(('rice_length', '(match Rice.RiceCode.new 6 with | .ok c => (c.len, c.bits.len, (c.append 1).1.len, (c.append 1).1.bits.len) == (0, 0, 1, 7) | .error _ => false)'))
HAND.append(('rice_invalid', '(match Rice.RiceCode.new 6 with | .ok c => (match (c.append 0).2 with | some .ValueError => true | _ => false) | .error _ => false)'))
HAND.append(('rice_pickle', '(match Rice.RiceCode.new 6 with | .error _ => false | .ok c => (fun (d : Rice.RiceCode) => (match (Rice.RiceCode.setstate (d.getstate)) with '
             '| .error _ => false | .ok e => d.m == e.m && d.bits.bytes == e.bits.bytes && d.len == 1 && e.len == 0)) (c.append 1).1)'))

# parse trees: the atoms a and b stand for the dummy nodes with five and six results, n for one with the result None
out.append('''
def bucket (n : Nat) : SMap Int Float := SMap.ofList ((List.range n).map (fun i => ((i : Int), (Float.ofNat n) * 3.1415926)))
def nodes : Searcher Int Float :=
  { search := fun w => .ok (if w == ['a'] then some (bucket 5) else if w == ['b'] then some (bucket 6) else none)
    searchPhrase := fun l => .ok (if l == [['X'], ['Y']] then some (bucket 2) else none)
    searchGlob := fun w => .ok (if w == ['X', '*'] then some (bucket 3) else none) }''')
for name, node, e in [('and_none', '.and [.atom [\'n\']]', []), ('and', '.and [.atom [\'a\'], .atom [\'b\']]', [0, 1, 2, 3, 4]),
                      ('and_not', '.and [.not (.atom [\'a\']), .atom [\'b\']]', [5]), ('or_none', '.or [.atom [\'n\']]', []),
                      ('or', '.or [.atom [\'a\'], .atom [\'b\']]', [0, 1, 2, 3, 4, 5]), ('atom', '.atom [\'a\']', [0, 1, 2, 3, 4]),
                      ('phrase', '.phrase [[\'X\'], [\'Y\']]', [0, 1]), ('glob', '.glob [\'X\', \'*\']', [0, 1, 2])]:
    HAND.append(('tree_' + name, 'optKeys ((%s : Node).execute fa.toWArith nodes) == %s' % (node, e)))
HAND.append(('tree_not', '(match (Node.not (.atom [\'a\'])).execute fa.toWArith nodes with | .error .NotQueryError => true | _ => false)'))
HAND.append(('tree_not_terms', '(Node.not (.atom [\'a\'])).terms.length == 0'))
HAND.append(('tree_atom_terms', '(match (Node.atom [\'X\']).terms with | [.str [\'X\']] => true | _ => false)'))

# base index, with the methods of the Okapi and cosine indexes
for kind in ('okapiF', 'okapiCF', 'cosineF'):
    for first, then, wids in [('one two three', None, [1, 2, 3]), ('one two three', 'two three four', [2, 3, 4]), ('one two three', 'one two three', [1, 2, 3]),
                              ('one two three', 'four five six', [4, 5, 6]), ('one two three', 'two three', [2, 3]),
                              ('one two three', 'one two three four five six', [1, 2, 3, 4, 5, 6])]:
        ops = ', '.join('.index 1 (.str %s)' % word(x) for x in (first, then) if x)
        HAND.append(('base_index_' + kind, '(let s := ti %s %s [%s]; (s.wordCount, s.documentCount, s.ix.wordinfo.keys, (Text.getWords s.ix 1).toOption, Text.hasDoc s.ix 1)) == '
                     '(%d, 1, %s, some %s, true)' % (kind, SP, ops, len(wids), wids, wids)))
    HAND.append(('base_unindex_' + kind, '(let s := ti %s %s [.index 1 (.str %s), .unindex 1]; (s.wordCount, s.documentCount, s.ix.wordinfo.len, s.ix.docweight.len, '
                 'Text.hasDoc s.ix 1, (match Text.getWords s.ix 1 with | .error .KeyError => true | _ => false))) == (0, 0, 0, 0, false, true)' % (kind, SP, word('one two three'))))
    E = 'ti %s %s []' % (kind, SP)
    HAND.append(('base_search_empty', '(let s := %s; optKeys (Text.search %s %s s.lex s.ix (.str []))) == [-2]' % (E, kind, SP)))
    HAND.append(('base_search_oov', '(let s := %s; optKeys (Text.search %s %s s.lex s.ix (.str %s))) == []' % (E, kind, SP, word('nonesuch'))))
    for q in ('', 'nonesuch*'):
        HAND.append(('base_glob', '(let s := %s; keysOf (Text.searchGlob %s noOdd s.lex s.ix %s)) == []' % (E, kind, word(q))))
    for q in ('', 'nonesuch'):
        HAND.append(('base_phrase', '(let s := %s; keysOf (Text.searchPhrase %s %s s.lex s.ix (.str %s))) == []' % (E, kind, SP, word(q))))
for name, term in HAND:
    out.append('#eval IO.println ("CASE %s " ++ toString (%s))' % (name, term))
    n += 1
out.append('\nend Verif.Conformance')
FILE = '/tmp/conformance.lean'
open(FILE, 'w').write('\n'.join(out) + '\n')
r = subprocess.run(['lake', 'env', 'lean', FILE], cwd=os.path.join(ROOT, 'lean'), capture_output=True, text=True)
cases = [l for l in r.stdout.split('\n') if l.startswith('CASE ')]
bad = [l for l in cases if not l.endswith(' true')]
print('exit code %d, %d cases in the tests, %d evaluated, %d differ' % (r.returncode, n, len(cases), len(bad)))
for l in bad:
    print(l)
if r.returncode != 0:
    print("\n".join(l for l in (r.stdout + r.stderr).split("\n") if not l.startswith("CASE "))[:1500])
sys.exit(0 if r.returncode == 0 and len(cases) == n and not bad else 1)
