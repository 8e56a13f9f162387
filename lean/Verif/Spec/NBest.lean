import Verif.Model.NBest

/-! Specification vocabulary for C25-C27. -/

set_option autoImplicit false

namespace Verif.Spec

variable {ι S : Type} [LinearOrder S]

/-- `L` is `xs` sorted by decreasing score, earlier entries first among equal scores: a
rearrangement of `xs`, scores do not increase along it, and for each score the entries having it
appear in the order of `xs`. -/
structure SortedByDecreasingScore (xs L : List (ι × S)) : Prop where
  perm : L.Perm xs
  decreasing : L.Pairwise (fun a b => b.2 ≤ a.2)
  stable : ∀ s : S, L.filter (fun q => decide (q.2 = s)) = xs.filter (fun q => decide (q.2 = s))

/-- everything a history adds -/
def added : List (NBest.Op ι S) → List (ι × S)
  | [] => []
  | .add i s :: t => (i, s) :: added t
  | .addmany l :: t => l ++ added t
  | .pop :: t => added t

/-- what the successful `pop_smallest` calls of a history return, oldest first -/
def popped (b : NBest ι S) : List (NBest.Op ι S) → List (ι × S)
  | [] => []
  | .pop :: t =>
    match b.popSmallest with
    | .ok (p, b') => p :: popped b' t
    | .error _ => popped b t
  | op :: t => popped (b.step op) t

/-- no addition of the history finds the object without room for it -/
def NeverOverflows (b : NBest ι S) : List (NBest.Op ι S) → Prop
  | [] => True
  | .add i s :: t => b.len + 1 ≤ b.capacity ∧ NeverOverflows (b.step (.add i s)) t
  | .addmany l :: t => b.len + l.length ≤ b.capacity ∧ NeverOverflows (b.step (.addmany l)) t
  | .pop :: t => NeverOverflows (b.step .pop) t

end Verif.Spec
