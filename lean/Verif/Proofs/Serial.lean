import Verif.Spec.Serial
import Verif.Proofs.TxnMerge
import Mathlib.Data.List.Infix

/-! Transactions that name only documents unchanged since they began have the effect of being run one after the other. -/

set_option autoImplicit false

namespace Verif.Txn

open Spec.Txn

theorem committed_snoc {S O : Type} (E : Engine S O) (s : S) (ts : List (Txn O)) (t : Txn O) :
    committed E s (ts ++ [t]) = if (Db.run E s (ts ++ [t])).older.length = (Db.run E s ts).older.length then committed E s ts
      else committed E s ts ++ [t] := by
  have key : ∀ (ts : List (Txn O)) (db : Db S) (l : List (Txn O)),
      (ts.foldl (fun (p : Db S × List (Txn O)) t =>
        let db := p.1.commit E t
        (db, if db.older.length = p.1.older.length then p.2 else p.2 ++ [t])) (db, l)).1 = ts.foldl (Db.commit E) db := by
    intro ts
    induction ts with
    | nil => intro db l; rfl
    | cons t ts ih => intro db l; rw [List.foldl_cons, List.foldl_cons, ← ih]
  unfold committed Db.run
  rw [List.foldl_append, List.foldl_cons, List.foldl_nil, List.foldl_append, List.foldl_cons, List.foldl_nil]
  dsimp only
  rw [key]

/-- the effect of calls on one document depends only on that document -/
structure Local {O D X : Type} (upd : (D → X) → O → D → X) (names : O → D → Prop) : Prop where
  other : ∀ m op d, ¬ names op d → upd m op d = m d
  self : ∀ m m' op d, m d = m' d → upd m op d = upd m' op d

theorem Local.foldl_other {O D X : Type} {upd : (D → X) → O → D → X} {names : O → D → Prop} (h : Local upd names) (ops : List O)
    (m : D → X) (d : D) (hn : ∀ op ∈ ops, ¬ names op d) : ops.foldl upd m d = m d := by
  induction ops generalizing m with
  | nil => rfl
  | cons op ops ih => rw [List.foldl_cons, ih _ (fun o ho => hn o (by simp [ho])), h.other _ _ _ (hn op (by simp))]

theorem Local.foldl_self {O D X : Type} {upd : (D → X) → O → D → X} {names : O → D → Prop} (h : Local upd names) (ops : List O)
    (m m' : D → X) (d : D) (he : m d = m' d) : ops.foldl upd m d = ops.foldl upd m' d := by
  induction ops generalizing m m' with
  | nil => exact he
  | cons op ops ih => exact ih _ _ (h.self _ _ _ _ he)

theorem Sound.serial {S O D X : Type} {E : Engine S O} {upd : (D → X) → O → D → X} {okOp : O → Prop} {names : O → D → Prop}
    (h : Sound E upd okOp) (hl : Local upd names) {s₀ : S} (h₀ : h.Wf 0 s₀) (ts : List (Txn O)) (hok : ∀ t ∈ ts, ∀ op ∈ t.ops, okOp op)
    (hn : NamedUntouched E s₀ names (fun s t d => h.abs s d = h.abs t d) ts) :
    List.Forall₂ (fun s done => h.abs s = (calls done).foldl upd (h.abs s₀)) (Db.run E s₀ ts).states.reverse (committed E s₀ ts).inits := by
  induction ts using List.reverseRecOn with
  | nil => simp [Db.run, Db.new, Db.states, committed, calls]
  | append_singleton ts t ih =>
    have ih := ih (fun t' ht => hok t' (by simp [ht])) (fun before t' after he => hn before t' (after ++ [t]) (by rw [he]; simp))
    obtain ⟨i1, i2, i3⟩ := h.history h₀ ts (fun t' ht => hok t' (by simp [ht]))
    have hn := hn ts t [] rfl
    rw [committed_snoc]
    have hrun : Db.run E s₀ (ts ++ [t]) = Db.commit E (Db.run E s₀ ts) t := by simp [Db.run]
    rw [hrun] at hn ⊢
    generalize hdb : Db.run E s₀ ts = db at *
    generalize committed E s₀ ts = com at *
    cases hb : db.states[t.back]? with
    | none =>
      have : Db.commit E db t = db := by unfold Db.commit; rw [hb]
      rw [this, if_pos rfl]
      exact ih
    | some base =>
      have hbm : base ∈ db.states := List.mem_of_getElem? hb
      obtain ⟨e1, he⟩ := h.exec db.next base t.ops (i2 base hbm) (hok t (by simp))
      cases hm : (if (t.refused || E.fails db.next base t.ops) = true then none else E.merge base db.latest (E.run db.next base t.ops).1) with
      | none =>
        have : Db.commit E db t = { db with next := (E.run db.next base t.ops).2 } := by unfold Db.commit; rw [hb]; dsimp only; rw [hm]
        rw [this, if_pos rfl]
        exact ih
      | some r =>
        have hc : Db.commit E db t = { latest := r, older := db.states, next := (E.run db.next base t.ops).2 } := by
          unfold Db.commit; rw [hb]; dsimp only; rw [hm]
        rw [hc] at hn ⊢
        rw [if_neg (by simp [Db.states])]
        have hn := hn rfl base hb
        have hm' : E.merge base db.latest (E.run db.next base t.ops).1 = some r := by
          split at hm
          · cases hm
          · exact hm
        obtain ⟨e2, e3, e4, e5⟩ := he (by
          split at hm
          · cases hm
          · rename_i hc
            rw [Bool.or_eq_true, not_or] at hc
            simpa using hc.2)
        have hlat : db.latest ∈ db.states := by simp [Db.states]
        have hbl : h.Evo base db.latest := by
          unfold Db.states at hbm i3
          rcases List.mem_cons.1 hbm with rfl | hb'
          · exact h.refl _
          · exact List.rel_of_pairwise_cons i3 hb'
        obtain ⟨-, -, m3⟩ := h.merge db.next _ base db.latest _ r (i2 base hbm) (i2 _ hlat) hbl e1 e2 e3 e4 hm'
        have hstates : (Db.states { latest := r, older := db.states, next := (E.run db.next base t.ops).2 }).reverse =
            db.states.reverse ++ [r] := by simp [Db.states]
        rw [hstates]
        have hinits : (com ++ [t]).inits = com.inits ++ [com ++ [t]] := by
          rw [List.inits_append]; simp
        rw [hinits]
        refine List.rel_append ih (List.Forall₂.cons ?_ List.Forall₂.nil)
        have hlast : h.abs db.latest = (calls com).foldl upd (h.abs s₀) := by
          have h1 : db.states.reverse = db.older.reverse ++ [db.latest] := by simp [Db.states]
          have h2 : ∃ l, com.inits = l ++ [com] := by
            induction com using List.reverseRecOn with
            | nil => exact ⟨[], rfl⟩
            | append_singleton a b _ => exact ⟨a.inits, by rw [List.inits_append]; simp⟩
          obtain ⟨l, hl⟩ := h2
          rw [h1, hl] at ih
          have := List.rel_reverse ih
          simp only [List.reverse_append, List.reverse_cons, List.reverse_nil, List.nil_append, List.singleton_append] at this
          cases this with
          | cons a _ => exact a
        have hcalls : calls (com ++ [t]) = calls com ++ t.ops := by simp [calls]
        rw [hcalls, List.foldl_append, ← hlast]
        funext d
        by_cases hd : ∃ op ∈ t.ops, names op d
        · obtain ⟨op, hop, hd⟩ := hd
          have hsame : h.abs base d = h.abs db.latest d := hn op hop d hd
          rw [← hl.foldl_self t.ops _ _ d hsame, ← e5 d]
          rcases m3 d with ⟨-, x2⟩ | ⟨x1, x2⟩
          · exact x2
          · rw [x2, ← hsame, x1]
        · have hd : ∀ op ∈ t.ops, ¬ names op d := fun op hop hx => hd ⟨op, hop, hx⟩
          rw [hl.foldl_other _ _ _ hd]
          have := e5 d
          rw [hl.foldl_other _ _ _ hd] at this
          rcases m3 d with ⟨x1, x2⟩ | ⟨x1, x2⟩
          · rw [x2, this, x1]
          · exact x2

end Verif.Txn

namespace Verif.Txn

open Spec.Txn

theorem Sound.untouched {S O D X : Type} {E : Engine S O} {upd : (D → X) → O → D → X} {okOp : O → Prop} {names : O → D → Prop}
    (h : Sound E upd okOp) {s₀ : S} (h₀ : h.Wf 0 s₀) (ts : List (Txn O)) (hok : ∀ t ∈ ts, ∀ op ∈ t.ops, okOp op)
    {same : S → S → D → Prop} (hs : ∀ n s t d, h.Wf n s → h.Wf n t → h.Evo s t → same s t d → h.abs s d = h.abs t d)
    (hn : NamedUntouched E s₀ names same ts) : NamedUntouched E s₀ names (fun s t d => h.abs s d = h.abs t d) ts := by
  intro before t after he hc base hb op hop d hd
  obtain ⟨-, i2, i3⟩ := h.history h₀ before (fun t' ht => hok t' (by rw [he]; simp [ht]))
  have hbm := List.mem_of_getElem? hb
  refine hs _ _ _ _ (i2 _ hbm) (i2 _ (by simp [Db.states])) ?_ (hn before t after he hc base hb op hop d hd)
  unfold Db.states at hbm i3
  rcases List.mem_cons.1 hbm with h' | hb'
  · rw [h']; exact h.refl _
  · exact List.rel_of_pairwise_cons i3 hb'

theorem committed_sublist {S O : Type} (E : Engine S O) (s : S) (ts : List (Txn O)) : (committed E s ts).Sublist ts := by
  induction ts using List.reverseRecOn with
  | nil => exact List.Sublist.refl _
  | append_singleton ts t ih =>
    rw [committed_snoc]
    split
    · exact ih.trans (List.sublist_append_left _ _)
    · exact ih.append (List.Sublist.refl _)

theorem mem_calls {S O : Type} {E : Engine S O} {s : S} {ts done : List (Txn O)} (h : done ∈ (committed E s ts).inits) {op : O}
    (ho : op ∈ calls done) : ∃ t ∈ ts, op ∈ t.ops := by
  rw [List.mem_inits] at h
  unfold calls at ho
  obtain ⟨t, ht, ho⟩ := List.mem_flatMap.1 ho
  exact ⟨t, (committed_sublist E s ts).subset (h.subset ht), ho⟩

theorem forall₂_mem {α β : Type} {R : α → β → Prop} {l : List α} {u : List β} (h : List.Forall₂ R l u) :
    List.Forall₂ (fun a b => a ∈ l ∧ b ∈ u ∧ R a b) l u := by
  induction h with
  | nil => exact .nil
  | cons hr _ ih =>
    refine .cons ⟨by simp, by simp, hr⟩ (ih.imp ?_)
    rintro a b ⟨h1, h2, h3⟩
    exact ⟨by simp [h1], by simp [h2], h3⟩

end Verif.Txn
