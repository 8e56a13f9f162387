import Verif.Spec.Boolean

/-! # Queries whose glob patterns `globToWordIds` looks up exactly (see C43 and C59) -/

set_option autoImplicit false

namespace Verif.Spec

open QueryParser

variable {D : Type}

/-- the glob patterns of a parsed query, if it has any, begin with a literal part without regular expression metacharacters other than
`.`, and then no word in the lexicon has a newline.  A query without globs meets this on every index (`globsFine_plain`), and every
query does on an index with the default pipeline or the HTML splitter (`globsFine_pipeline`). -/
def GlobsFine (pipeline : List Element) (ops : List (Text.Op D)) (t : Node) : Prop :=
  ∀ p, LeafOf (.glob p) t → GlobOk p ∧ ∀ w ∈ seen pipeline (lexCalls ops), '\n' ∉ w

/-- the same for the text of a query -/
def QueryFine (isSpace : Char → Bool) (upper : Word → Word) (pipeline : List Element) (ops : List (Text.Op D)) (q : Word) : Prop :=
  ∀ t ign, parseQuery isSpace upper (Lexicon.parseTerms pipeline) q = .ok (t, ign) → GlobsFine pipeline ops t

end Verif.Spec
