import Verif.Model.Txn

/-! Specification of concurrent transactions on something that assigns to each docid a value. -/

set_option autoImplicit false

namespace Verif.Spec.Txn

variable {D X O : Type}

/-- `History upd m₀ ts ms`: starting from the assignment `m₀`, the transactions `ts`, in the order of their commits, may have
produced the committed assignments `ms` (newest first).  `upd` is the effect of one call.

A transaction either is aborted and has no effect, or it commits: then no docid has been changed both by it and, since it began, by
others, and afterwards each docid it changed has the value it gave it, each other docid the value it had before the commit. -/
inductive History (upd : (D → X) → O → D → X) (m₀ : D → X) : List (Verif.Txn O) → List (D → X) → Prop
  | start : History upd m₀ [] [m₀]
  | aborted {ts ms t} : History upd m₀ ts ms → History upd m₀ (ts ++ [t]) ms
  | committed {ts ms t} {base latest m : D → X} :
      History upd m₀ ts (latest :: ms) → (latest :: ms)[t.back]? = some base →
      (∀ d, (t.ops.foldl upd base d ≠ base d → latest d = base d ∧ m d = t.ops.foldl upd base d) ∧
            (t.ops.foldl upd base d = base d → m d = latest d)) →
      History upd m₀ (ts ++ [t]) (m :: latest :: ms)

end Verif.Spec.Txn

namespace Verif.Spec.Txn

/-- effect of a call on the sets of keywords the documents have.  A transaction may call `index_doc` and `unindex_doc`; the other
calls are left out of the theorems. -/
def kwUpdate {D W : Type} [DecidableEq D] (normalize : List W → List W) (m : D → W → Prop) : Keyword.Op D W → D → W → Prop
  | .index d (.seq truthy items) => fun x => if x = d then (fun w => truthy = true ∧ w ∈ normalize items) else m x
  | .unindex d => fun x => if x = d then (fun _ => False) else m x
  | _ => m

/-- the call is `index_doc` or `unindex_doc` -/
def IsUpdate {D W : Type} : Keyword.Op D W → Prop
  | .index _ _ | .unindex _ => True
  | _ => False

/-- some transaction passes the keyword `w` for the document `d` -/
def Given {D W : Type} (normalize : List W → List W) (ts : List (Verif.Txn (Keyword.Op D W))) (w : W) (d : D) : Prop :=
  ∃ t ∈ ts, ∃ items, Keyword.Op.index d (.seq true items) ∈ t.ops ∧ w ∈ normalize items

/-- no keyword is ever passed for as many as `n` different documents -/
def FewerThan {D W : Type} (n : Nat) (normalize : List W → List W) (ts : List (Verif.Txn (Keyword.Op D W))) : Prop :=
  ∀ (w : W) (docs : List D), docs.Nodup → (∀ d ∈ docs, Given normalize ts w d) → docs.length < n

end Verif.Spec.Txn
