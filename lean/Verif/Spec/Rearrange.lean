import Verif.Spec.Scores

/-! # Queries that differ in the order and the grouping of their parts -/

set_option autoImplicit false

namespace Verif.Spec

variable {D : Type}

/-- the second tree comes from the first by changing, anywhere in the tree, the order of the parts of an AND or of an OR, or by
adding or removing brackets around parts of an AND inside an AND or of an OR inside an OR.  Brackets in an AND count only if they
hold a part that is neither negated nor ignored. -/
inductive Rearranged (L : Leaves D) : Node → Node → Prop
  | refl (t : Node) : Rearranged L t t
  | symm {t t' : Node} : Rearranged L t t' → Rearranged L t' t
  | trans {t t' t'' : Node} : Rearranged L t t' → Rearranged L t' t'' → Rearranged L t t''
  | orderAnd {l l' : List Node} : l.Perm l' → Rearranged L (.and l) (.and l')
  | orderOr {l l' : List Node} : l.Perm l' → Rearranged L (.or l) (.or l')
  | groupAnd (l r : List Node) : L.positive l ≠ [] → Rearranged L (.and (.and l :: r)) (.and (l ++ r))
  | groupOr (l r : List Node) : Rearranged L (.or (.or l :: r)) (.or (l ++ r))
  | insideNot {t t' : Node} : Rearranged L t t' → Rearranged L (.not t) (.not t')
  | insideAnd {t t' : Node} (l : List Node) : Rearranged L t t' → Rearranged L (.and (t :: l)) (.and (t' :: l))
  | insideOr {t t' : Node} (l : List Node) : Rearranged L t t' → Rearranged L (.or (t :: l)) (.or (t' :: l))

end Verif.Spec
