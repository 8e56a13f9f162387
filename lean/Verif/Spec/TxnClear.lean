import Verif.Spec.Txn
import Verif.Spec.TxnText
import Verif.Spec.TxnReplace
import Verif.Model.TxnClear

/-! Specification of concurrent transactions that may call `clear()`. -/

set_option autoImplicit false

namespace Verif.Spec.Txn

variable {D X C : Type}

/-- `ClearHistory upd clears m₀ ts ms`: starting from the assignment `m₀`, the transactions `ts`, in the order of their commits, may
have produced the committed assignments `ms` (newest first), each with whether its transaction called `clear()`.

A transaction is aborted and has no effect, or it commits.  The commits since it began are the first `t.back` of `ms`.

* It did not call `clear()`, and none of these did: as in `History`.
* It did not call `clear()`, but one of these did: nothing of it remains, as if it had been run before that one.
* It called `clear()`: none of these did, and the index holds what it put there since, nothing of the others, as if they had been run
  before it. -/
inductive ClearHistory (upd : (D → X) → C → D → X) (clears : C → Prop) (m₀ : D → X) :
    List (Verif.Txn C) → List ((D → X) × Bool) → Prop
  | start : ClearHistory upd clears m₀ [] [(m₀, false)]
  | aborted {ts ms t} : ClearHistory upd clears m₀ ts ms → ClearHistory upd clears m₀ (ts ++ [t]) ms
  | committed {ts ms t} {base latest : (D → X) × Bool} {m : D → X} :
      ClearHistory upd clears m₀ ts (latest :: ms) → (latest :: ms)[t.back]? = some base →
      (∀ c ∈ t.ops, ¬ clears c) → (∀ x ∈ (latest :: ms).take t.back, x.2 = false) →
      (∀ d, (t.ops.foldl upd base.1 d ≠ base.1 d → latest.1 d = base.1 d ∧ m d = t.ops.foldl upd base.1 d) ∧
            (t.ops.foldl upd base.1 d = base.1 d → m d = latest.1 d)) →
      ClearHistory upd clears m₀ (ts ++ [t]) ((m, false) :: latest :: ms)
  | swept {ts ms t} {base latest : (D → X) × Bool} :
      ClearHistory upd clears m₀ ts (latest :: ms) → (latest :: ms)[t.back]? = some base →
      (∀ c ∈ t.ops, ¬ clears c) → (∃ x ∈ (latest :: ms).take t.back, x.2 = true) →
      ClearHistory upd clears m₀ (ts ++ [t]) ((latest.1, false) :: latest :: ms)
  | cleared {ts ms t} {base latest : (D → X) × Bool} :
      ClearHistory upd clears m₀ ts (latest :: ms) → (latest :: ms)[t.back]? = some base →
      (∃ c ∈ t.ops, clears c) → (∀ x ∈ (latest :: ms).take t.back, x.2 = false) →
      ClearHistory upd clears m₀ (ts ++ [t]) ((t.ops.foldl upd base.1, true) :: latest :: ms)

/-- effect of a call on the sets of keywords the documents have, `clear()` included -/
def kwUpdateC {D W : Type} [DecidableEq D] (normalize : List W → List W) (m : D → W → Prop) : Keyword.Op D W → D → W → Prop
  | .clear => fun _ _ => False
  | op => kwUpdate normalize m op

/-- effect of a call on the word sequences of the documents; `none` is `clear()` -/
def textUpdateC {D : Type} [DecidableEq D] (pipeline : List Element) (m : D → Option (List Word)) :
    Option (Text.TOp D) → D → Option (List Word)
  | none => fun _ => none
  | some op => textUpdate pipeline m op

/-- as `ReplacedApart`, for transactions that may call `clear()`: when a transaction commits, neither it nor one that committed since it
began has called `clear()`, and it or one of these has replaced the set object of a keyword, the other side has left the documents of
that keyword as they were -/
def ReplacedApartC {D W : Type} [LinearOrder D] [LinearOrder W] (normalize : List W → List W) (ts : List (Verif.Txn (Keyword.Op D W))) : Prop :=
  let db := Db.run (Housed.engine (HKeyword.engine normalize) HKeyword.clearing) ⟨0, (HKeyword.new : HKeyword D W)⟩
  ∀ before t after, ts = before ++ t :: after → (db (before ++ [t])).older = (db before).states →
    ∀ base, (db before).states[t.back]? = some base →
      let mine := (Housed.exec (HKeyword.engine normalize) HKeyword.clearing (db before).next base t.ops).1.1
      (db before).latest.home = base.home → mine.home = base.home →
        ∀ w, (Replaced base.inner (db before).latest.inner w → Kept base.inner mine.inner w) ∧
          (Replaced base.inner mine.inner w → Kept base.inner (db before).latest.inner w)

end Verif.Spec.Txn
