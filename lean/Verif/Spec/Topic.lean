import Verif.Model.Topic

/-! # Specification of the topic index: what a filter holds after a history -/

set_option autoImplicit false

namespace Verif.Spec.Topic

open Verif.Topic

variable {F D E X : Type} [LinearOrder F] [LinearOrder D]

/-- the expression of filter `i` after a call, given the one before it; `none` if `i` is not registered -/
def exprStep (i : F) (e : Option E) : Op F D E X → Option E
  | .addFilter j f => if j = i then some f.expr else e
  | .delFilter j => if j = i then none else e
  | .clear => none
  | .setExpression j e' => if j = i then e.map (fun _ => e') else e
  | _ => e

/-- the expression of filter `i` after a history -/
def exprAt (ops : List (Op F D E X)) (i : F) : Option E := ops.foldl (exprStep i) none

/-- `op`, made after the history `pre`, puts docid `d` into filter `i`: it indexes an object that matches, or registers a
filter that holds `d` already -/
def Enters (eval : E → D → X → Except Unit Bool) (pre : List (Op F D E X)) (i : F) (d : D) (op : Op F D E X) : Prop :=
  (∃ obj e, op = .index d obj ∧ exprAt pre i = some e ∧ eval e d obj = .ok true) ∨
  (∃ f, op = .addFilter i f ∧ d ∈ f.ids.keys)

/-- `op` takes `d` out of filter `i`, or takes filter `i` away -/
def Leaves (i : F) (d : D) (op : Op F D E X) : Prop :=
  op = .unindex d ∨ op = .clearFilters ∨ op = .clear ∨ op = .delFilter i ∨ ∃ f, op = .addFilter i f

/-- `d` entered `i` at some point of the history and did not leave since -/
def Held (eval : E → D → X → Except Unit Bool) (ops : List (Op F D E X)) (i : F) (d : D) : Prop :=
  ∃ pre op post, ops = pre ++ op :: post ∧ Enters eval pre i d op ∧ ∀ o ∈ post, ¬ Leaves i d o

/-- every filter registered in the history is a `PythonFilteredSet` (the base class is abstract) -/
def AllPython (ops : List (Op F D E X)) : Prop := ∀ i f, Op.addFilter i f ∈ ops → f.kind = .python

/-- the filter ids named by a query -/
def ids : QueryArg F → List F
  | .str i => [i]
  | .seq l => l
  | .other => []

/-- the docids filter `i` of the index holds, none if it is not registered -/
def contents (s : Verif.Topic F D E) (i : F) : List D :=
  match s.filters.get? i with
  | none => []
  | some f => f.getIds.toList

end Verif.Spec.Topic
