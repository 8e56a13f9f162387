import Verif.Spec.Txn

/-! Specification of transactions that replace the set object of a keyword. -/

set_option autoImplicit false

namespace Verif.Spec.Txn

variable {D W : Type} [LinearOrder D] [LinearOrder W]

/-- the call is `index_doc`, `unindex_doc` or `optimize` -/
def IsUpdateOrOptimize : Keyword.Op D W → Prop
  | .index _ _ | .unindex _ | .optimize => True
  | _ => False

/-- between `s` and `t`, the set object of the keyword `w` has been given up although it still holds documents: it was replaced by
another object (a `Set` by a `TreeSet`, or the other way round) -/
def Replaced (s t : HKeyword D W) (w : W) : Prop :=
  ∃ a, s.fwd.get? w = some a ∧ t.fwd.get? w ≠ some a ∧ (t.setAt a).ids.isEmpty = false

/-- in `s` and in `t`, the keyword `w` has the same set object, with the same documents, or in both it has none -/
def Kept (s t : HKeyword D W) (w : W) : Prop :=
  t.fwd.get? w = s.fwd.get? w ∧ ∀ a, s.fwd.get? w = some a → (t.setAt a).ids = (s.setAt a).ids

/-- when a transaction commits, and it or one that committed since it began has replaced the set object of a keyword, the other side
has left the documents of that keyword as they were -/
def ReplacedApart (normalize : List W → List W) (ts : List (Verif.Txn (Keyword.Op D W))) : Prop :=
  let db := Db.run (HKeyword.engine normalize) (HKeyword.new : HKeyword D W)
  ∀ before t after, ts = before ++ t :: after → (db (before ++ [t])).older = (db before).states →
    ∀ base, (db before).states[t.back]? = some base →
      let mine := HKeyword.exec normalize (db before).next base t.ops
      ∀ w, (Replaced base (db before).latest w → Kept base mine w) ∧ (Replaced base mine w → Kept base (db before).latest w)

end Verif.Spec.Txn
