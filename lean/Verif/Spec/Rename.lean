import Verif.Model.Field
import Verif.Model.Keyword
import Verif.Model.Topic
import Verif.Model.TextIndex

/-! # The same calls with other docids -/

set_option autoImplicit false

namespace Verif.Spec

variable {D D' : Type}

/-- the call with the docid replaced -/
def renameField {V : Type} (f : D → D') : Field.Op D V → Field.Op D' V
  | .index d v => .index (f d) v
  | .unindex d => .unindex (f d)
  | .clear => .clear

/-- the call with the docid replaced -/
def renameKeyword {W : Type} (f : D → D') : Keyword.Op D W → Keyword.Op D' W
  | .index d seq => .index (f d) seq
  | .unindex d => .unindex (f d)
  | .clear => .clear
  | .optimize => .optimize
  | .setThreshold n => .setThreshold n

/-- the call with the docid replaced, and with the docids of filters that are registered replaced -/
def renameTopic {F E X : Type} [LinearOrder D] [LinearOrder D'] (f : D → D') : Topic.Op F D E X → Topic.Op F D' E X
  | .addFilter i g => .addFilter i { kind := g.kind, expr := g.expr, ids := SSet.ofList (g.ids.toList.map f) }
  | .delFilter i => .delFilter i
  | .clearFilters => .clearFilters
  | .clear => .clear
  | .index d obj => .index (f d) obj
  | .unindex d => .unindex (f d)
  | .setExpression i e => .setExpression i e

/-- the call with the docid replaced -/
def renameText (f : D → D') : Text.Op D → Text.Op D'
  | .index d t => .index (f d) t
  | .unindex d => .unindex (f d)
  | .clear => .clear
  | .lexicon op => .lexicon op

/-- `b` holds the new names of the docids in `a`, and nothing else -/
def RenamedDocs (f : D → D') (a : List D) (b : List D') : Prop := ∀ x, x ∈ b ↔ ∃ d ∈ a, f d = x

/-- the answer of `apply` with the docids replaced: the same exception, or `None` twice, or the same scores under the new names -/
inductive RenamedAnswer [LinearOrder D] [LinearOrder D'] {R : Type} (f : D → D') :
    Except PyErr (Option (SMap D R)) → Except PyErr (Option (SMap D' R)) → Prop
  | error (e : PyErr) : RenamedAnswer f (.error e) (.error e)
  | none : RenamedAnswer f (.ok none) (.ok none)
  | some (m : SMap D R) (m' : SMap D' R) : (∀ d, m'.get? (f d) = m.get? d) → RenamedDocs f m.keys m'.keys →
      RenamedAnswer f (.ok (some m)) (.ok (some m'))

end Verif.Spec
