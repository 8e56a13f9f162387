import Verif.Proofs.QueryTree
import Verif.Proofs.QueryTokens
import Verif.Model.ParseTree
import Verif.Props.SetOps

set_option autoImplicit false

namespace Verif

open QueryParser Spec

variable {D R : Type} [LinearOrder D]

/-- an exception that one of the index's own searches raises -/
def Raises (ix : Searcher D R) (e : PyErr) : Prop :=
  (∃ w, ix.search w = .error e) ∨ (∃ ws, ix.searchPhrase ws = .error e) ∨ ∃ w, ix.searchGlob w = .error e

theorem executeAnd_not {A : WArith R} {ix : Searcher D R} (l : List Node) (rest : List Node) (e : PyErr)
    (hl : ∀ n ∈ l, n.execute A ix = .error e → Raises ix e)
    (h : Node.executeAnd A ix (l.map .not ++ rest) = .error e) : Raises ix e ∨ Node.executeAnd A ix rest = .error e := by
  induction l with
  | nil => exact Or.inr h
  | cons n l ih =>
    rw [List.map_cons, List.cons_append, Node.executeAnd] at h
    cases hn : n.execute A ix with
    | error e' =>
      rw [hn] at h
      cases h
      exact Or.inl (hl n List.mem_cons_self hn)
    | ok r =>
      rw [hn] at h
      cases hr : Node.executeAnd A ix (l.map .not ++ rest) with
      | error e' =>
        rw [hr] at h
        cases h
        exact ih (fun m hm => hl m (List.mem_cons_of_mem _ hm)) hr
      | ok ms => rw [hr] at h; cases h

theorem clean_not_not {n : Node} (h : Clean n) : ∀ m, n ≠ .not m := by
  intro m e
  subst e
  cases h

theorem executeAnd_pos {A : WArith R} {ix : Searcher D R} (n : Node) (rest : List Node) (hn : ∀ m, n ≠ .not m) :
    Node.executeAnd A ix (n :: rest) = (do
      let r ← n.execute A ix
      let ms ← Node.executeAnd A ix rest
      return (r.toList ++ ms.1, ms.2)) := by
  cases n with
  | not m => exact absurd rfl (hn m)
  | _ => rw [Node.executeAnd]; intro m; simp

theorem executeAnd_raises {A : WArith R} {ix : Searcher D R} (pos neg : List Node) (e : PyErr)
    (hc : ∀ n ∈ pos, Clean n)
    (hp : ∀ n ∈ pos, n.execute A ix = .error e → Raises ix e) (hq : ∀ n ∈ neg, n.execute A ix = .error e → Raises ix e)
    (h : Node.executeAnd A ix (pos ++ neg.map .not) = .error e) : Raises ix e := by
  induction pos with
  | nil =>
    rw [List.nil_append] at h
    rcases executeAnd_not neg [] e hq (by rw [List.append_nil]; exact h) with h | h
    · exact h
    · rw [Node.executeAnd] at h; cases h
  | cons n l ih =>
    rw [List.cons_append, executeAnd_pos n _ (clean_not_not (hc n List.mem_cons_self))] at h
    cases hn : n.execute A ix with
    | error e' =>
      rw [hn] at h
      cases h
      exact hp n List.mem_cons_self hn
    | ok r =>
      rw [hn] at h
      cases hr : Node.executeAnd A ix (l ++ neg.map .not) with
      | error e' =>
        rw [hr] at h
        cases h
        exact ih (fun m hm => hc m (List.mem_cons_of_mem _ hm)) (fun m hm => hp m (List.mem_cons_of_mem _ hm)) hr
      | ok ms => rw [hr] at h; cases h

theorem executeOr_raises {A : WArith R} {ix : Searcher D R} (l : List Node) (e : PyErr)
    (hp : ∀ n ∈ l, n.execute A ix = .error e → Raises ix e) (h : Node.executeOr A ix l = .error e) : Raises ix e := by
  induction l with
  | nil => rw [Node.executeOr] at h; cases h
  | cons n l ih =>
    rw [Node.executeOr] at h
    cases hn : n.execute A ix with
    | error e' =>
      rw [hn] at h
      cases h
      exact hp n List.mem_cons_self hn
    | ok r =>
      rw [hn] at h
      cases hr : Node.executeOr A ix l with
      | error e' =>
        rw [hr] at h
        cases h
        exact ih (fun m hm => hp m (List.mem_cons_of_mem _ hm)) hr
      | ok ms => rw [hr] at h; cases h

theorem clean_execute {A : WArith R} {ix : Searcher D R} {t : Node} (hc : Clean t) (e : PyErr)
    (h : t.execute A ix = .error e) : Raises ix e := by
  induction hc with
  | atom w => rw [Node.execute] at h; exact Or.inl ⟨w, h⟩
  | phrase ws _ => rw [Node.execute] at h; exact Or.inr (Or.inl ⟨ws, h⟩)
  | glob w => rw [Node.execute] at h; exact Or.inr (Or.inr ⟨w, h⟩)
  | and pos neg _ _ hcp _ ih1 ih2 =>
    rw [Node.execute] at h
    cases hr : Node.executeAnd A ix (pos ++ neg.map .not) with
    | error e' =>
      rw [hr] at h
      cases h
      exact executeAnd_raises pos neg e hcp ih1 ih2 hr
    | ok r =>
      rw [hr] at h
      simp only [bind, Except.bind] at h
      obtain ⟨m, hm, -⟩ := C29_inter_keys A (r.1.map (fun x => (some x, A.one)))
      rw [hm] at h
      simp only at h
      split at h
      · cases h
      · obtain ⟨m', hm', -⟩ := C28_union_keys A (r.2.map (fun x => (x, A.one)))
        rw [hm'] at h
        cases h
  | or l _ _ ih =>
    rw [Node.execute] at h
    cases hr : Node.executeOr A ix l with
    | error e' =>
      rw [hr] at h
      cases h
      exact executeOr_raises l e ih hr
    | ok r =>
      rw [hr] at h
      simp only [bind, Except.bind] at h
      obtain ⟨m', hm', -⟩ := C28_union_keys A (r.map (fun x => (x, A.one)))
      rw [hm'] at h
      cases h

variable (upper : Word → Word) (parseTerms : Word → List Word)

theorem ignT_eq (ts : List Word) : ignT parseTerms (ts.map (classify upper)) =
    ts.filter (fun w => decide (classify upper w = .atom w) && (parseTerms w).isEmpty) := by
  unfold ignT ign atomsOf
  induction ts with
  | nil => rfl
  | cons w ts ih =>
    rw [List.map_cons, List.filter_cons, ← ih]
    cases hc : classify upper w with
    | atom x =>
      obtain rfl := classify_atom hc
      rw [List.filterMap_cons]
      simp only [decide_true, Bool.true_and]
      rw [List.filter_cons]
    | _ => simp

end Verif
