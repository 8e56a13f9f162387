import Verif.Model.Lexicon

/-! # What a lexicon promises, without looking at its code -/

set_option autoImplicit false

namespace Verif.Spec

/-- the words of a text: the pipeline elements applied one after the other -/
def pipelined : List Element → List Word → List Word
  | [], l => l
  | e :: es, l => pipelined es (e.process l)

/-- the text of an argument; `None` is the empty text -/
def textOf : TextArg → List Word
  | .none => [[]]
  | .str s => [s]
  | .list l => l

/-- the words of one call -/
def wordsOfOp (pipeline : List Element) : Lexicon.Op → List Word
  | .source t => pipelined pipeline (textOf t)
  | .reload _ => []

/-- all words passed in by a history of calls -/
def seen (pipeline : List Element) (ops : List Lexicon.Op) : List Word := ops.flatMap (wordsOfOp pipeline)

/-- no counter value read from the database was negative -/
def NonNegReloads (ops : List Lexicon.Op) : Prop := ∀ n, Lexicon.Op.reload n ∈ ops → 0 ≤ n

/-- the counter was never changed behind the lexicon's back -/
def NoReloads (ops : List Lexicon.Op) : Prop := ∀ n, Lexicon.Op.reload n ∉ ops

/-- shell-style matching: `*` is any run of characters, `?` any one character, other characters themselves -/
inductive GlobMatch : Word → Word → Prop
  | nil : GlobMatch [] []
  | star (p run s : Word) : GlobMatch p s → GlobMatch ('*' :: p) (run ++ s)
  | quest (p : Word) (c : Char) (s : Word) : GlobMatch p s → GlobMatch ('?' :: p) (c :: s)
  | char (c : Char) (p s : Word) : c ≠ '*' → c ≠ '?' → GlobMatch p s → GlobMatch (c :: p) (c :: s)

/-- `ws` are the words of `s`, in order: each begins with a character of class `A` and goes on with characters of class `B` as far
as possible; no character of class `A` is left outside them -/
inductive Runs (isA isB : Char → Bool) : Word → List Word → Prop
  | done (sep : Word) : (∀ c ∈ sep, isA c = false) → Runs isA isB sep []
  | word (sep : Word) (c : Char) (w rest : Word) (ws : List Word) :
      (∀ x ∈ sep, isA x = false) → isA c = true → (∀ x ∈ w, isB x = true) →
      (∀ x, rest.head? = some x → isB x = false) → Runs isA isB rest ws →
      Runs isA isB (sep ++ (c :: w) ++ rest) ((c :: w) :: ws)

end Verif.Spec
