import Verif.Model.Alias
import Verif.Proofs.TextIx
import Verif.Proofs.SetOps

/-! # Object identity: lemmas -/

set_option autoImplicit false

namespace Verif

open SetOps Text

variable {D R : Type} [LinearOrder D]

theorem bind_split {α β : Type} {x : Except PyErr α} {f : α → Except PyErr β} {b : β} (h : (x >>= f) = .ok b) :
    ∃ a, x = .ok a ∧ f a = .ok b := by
  cases x with
  | error e => cases h
  | ok a => exact ⟨a, rfl, h⟩

namespace NBest

variable {ι κ S : Type} [LinearOrder S]

/-- other items, same scores -/
def mapItems (f : ι → κ) (b : NBest ι S) : NBest κ S := { capacity := b.capacity, scores := b.scores, items := b.items.map f }

theorem len_mapItems (f : ι → κ) (b : NBest ι S) : (b.mapItems f).len = b.len := rfl

theorem popSmallest_map (f : ι → κ) (b : NBest ι S) :
    (b.mapItems f).popSmallest = b.popSmallest.map (fun r => ((f r.1.1, r.1.2), r.2.mapItems f)) := by
  unfold popSmallest mapItems
  cases b.scores with
  | nil => rfl
  | cons s ss => cases b.items with
    | nil => rfl
    | cons i is => rfl

theorem map_insertIdx' (f : ι → κ) (l : List ι) (n : Nat) (a : ι) : (l.insertIdx n a).map f = (l.map f).insertIdx n (f a) := by
  induction l generalizing n with
  | nil => cases n <;> simp
  | cons x l ih => cases n <;> simp [ih]

theorem add_map (f : ι → κ) (b : NBest ι S) (i : ι) (s : S) :
    (b.mapItems f).add (f i) s = (b.add i s).map (mapItems f) := by
  unfold add addmany addmanyC
  simp only [List.foldlM_cons, List.foldlM_nil, mapItems]
  unfold loopStep
  by_cases h : b.scores.length ≥ b.capacity
  · simp only [h, if_true]
    cases hs : b.scores with
    | nil => rfl
    | cons s0 ss =>
      by_cases h2 : s ≤ s0
      · simp [bind, Except.bind, pure, Except.pure, Except.map, h2, mapItems]
      · by_cases h3 : (s0 :: ss).length = b.capacity
        · simp only [bind, Except.bind, pure, Except.pure, h2, decide_false, Bool.false_eq_true, if_false, h3, if_true]
          split <;> simp [Except.map, mapItems, map_insertIdx', List.map_tail]
        · simp only [bind, Except.bind, pure, Except.pure, h2, decide_false, Bool.false_eq_true, if_false, h3]
          split <;> simp [Except.map, mapItems, map_insertIdx']
  · simp only [h, if_false]
    by_cases h3 : b.scores.length = b.capacity
    · omega
    · simp only [bind, Except.bind, pure, Except.pure, Bool.false_eq_true, if_false, h3]
      split <;> simp [Except.map, mapItems, map_insertIdx']

end NBest

/-! ## Forgetting the identities -/

theorem trivialObj_map (A : WArith R) (L : List (Obj D R × R)) :
    (trivialObj A L).map (·.map) = trivialOp A (L.map plain) := by
  match L with
  | [] => rfl
  | [(o, w)] =>
    unfold trivialObj trivialOp
    simp only [List.map_cons, List.map_nil, plain]
    split <;> rfl
  | _ :: _ :: _ => rfl

theorem dropNone_some (L : List (Obj D R × R)) : dropNone (L.map (fun p => (some p.1.map, p.2))) = L.map plain := by
  unfold dropNone
  induction L with
  | nil => rfl
  | cons p L ih => rw [List.map_cons, List.filterMap_cons, ih]; rfl

theorem except_map_map {α β γ : Type} (f : α → β) (g : β → γ) (x : Except PyErr α) : (x.map f).map g = x.map (fun a => g (f a)) := by
  cases x <;> rfl

theorem except_map_id {α : Type} (f : α → α) (h : ∀ a, f a = a) (x : Except PyErr α) : x.map f = x := by
  cases x with
  | error e => rfl
  | ok a => exact congrArg Except.ok (h a)

theorem massIntersectionObj_map (A : WArith R) (L : List (Obj D R × R)) :
    (massIntersectionObj A L).map (·.map) = massIntersection A (L.map (fun p => (some p.1.map, p.2))) := by
  unfold massIntersectionObj
  split
  · rename_i h
    rw [trivialObj_map]
    unfold massIntersection
    simp only [dropNone_some]
    rw [if_pos (by simpa using h)]
  · rw [except_map_map]
    exact except_map_id _ (fun _ => rfl) _

theorem unionLoopObj_map (A : WArith R) : ∀ (fuel : Nat) (b : NBest (Obj D R × R) Nat),
    (unionLoopObj A fuel b).map (·.map) = unionLoop A fuel (b.mapItems plain) := by
  intro fuel
  induction fuel with
  | zero => intro b; rfl
  | succ fuel ih =>
    intro b
    unfold unionLoopObj unionLoop
    rw [NBest.len_mapItems]
    split
    · rw [NBest.popSmallest_map]
      cases b.popSmallest with
      | error e => rfl
      | ok r =>
        obtain ⟨xw, b1⟩ := r
        simp only [Except.map, bind_ok]
        rw [NBest.popSmallest_map]
        cases b1.popSmallest with
        | error e => rfl
        | ok r =>
          obtain ⟨yw, b2⟩ := r
          simp only [Except.map, bind_ok]
          have := NBest.add_map plain b2 (Obj.fresh (wUnion A xw.1.1.map yw.1.1.map xw.1.2 yw.1.2), A.one)
            (wUnion A xw.1.1.map yw.1.1.map xw.1.2 yw.1.2).len
          have this' : (b2.mapItems plain).add (wUnion A (plain xw.1).1 (plain yw.1).1 (plain xw.1).2 (plain yw.1).2, A.one)
            (wUnion A (plain xw.1).1 (plain yw.1).1 (plain xw.1).2 (plain yw.1).2).len = _ := this
          rw [this']
          show Except.map _ (_ >>= _) = _
          have e : (Obj.fresh (wUnion A xw.1.1.map yw.1.1.map xw.1.2 yw.1.2)).map = wUnion A xw.1.1.map yw.1.1.map xw.1.2 yw.1.2 := rfl
          rw [e]
          cases b2.add (Obj.fresh (wUnion A xw.1.1.map yw.1.1.map xw.1.2 yw.1.2), A.one)
            (wUnion A xw.1.1.map yw.1.1.map xw.1.2 yw.1.2).len with
          | error e => rfl
          | ok b3 => exact ih b3
    · rw [NBest.popSmallest_map]
      cases b.popSmallest with
      | error e => rfl
      | ok r => rfl

theorem fillObj_map (L : List (Obj D R × R)) : ∀ b : NBest (Obj D R × R) Nat,
    (L.foldlM fillStepObj b).map (NBest.mapItems plain) = (L.map plain).foldlM fillStep (b.mapItems plain) := by
  induction L with
  | nil => intro b; rfl
  | cons p L ih =>
    intro b
    rw [List.foldlM_cons, List.map_cons, List.foldlM_cons]
    unfold fillStepObj fillStep
    have := NBest.add_map plain b p p.1.map.len
    have this' : (b.mapItems plain).add (plain p) (plain p).1.len = _ := this
    rw [this']
    cases b.add p p.1.map.len with
    | error e => rfl
    | ok b' => exact ih b'

theorem massUnionObj_map (A : WArith R) (L : List (Obj D R × R)) :
    (massUnionObj A L).map (·.map) = massUnion A (L.map plain) := by
  unfold massUnionObj massUnion
  rw [List.length_map]
  split
  · exact trivialObj_map A L
  · unfold NBest.new
    split
    · rfl
    · rw [bind_ok, bind_ok]
      have := fillObj_map L { capacity := (L.length : Int).toNat, scores := [], items := [] }
      have this' : (L.map plain).foldlM fillStep { capacity := (L.length : Int).toNat, scores := [], items := [] } = _ := this.symm
      rw [this']
      cases L.foldlM fillStepObj { capacity := (L.length : Int).toNat, scores := [], items := [] } with
      | error e => rfl
      | ok b => exact unionLoopObj_map A _ b


theorem toList_objs (o : Option (Obj D R)) : o.toList.map (·.map) = (o.map (·.map)).toList := by cases o <;> rfl

section

variable (A : WArith R) (ixo : SearcherObj D R) (ix : Searcher D R)
  (h1 : ∀ w, (ixo.search w).map (Option.map (·.map)) = ix.search w)
  (h2 : ∀ ws, (ixo.searchPhrase ws).map (Option.map (·.map)) = ix.searchPhrase ws)
  (h3 : ∀ w, (ixo.searchGlob w).map (Option.map (·.map)) = ix.searchGlob w)

include h1 h2 h3

mutual

theorem executeObj_map : ∀ n : Node, (n.executeObj A ixo).map (Option.map (·.map)) = n.execute A ix
  | .atom w => by rw [Node.executeObj, Node.execute]; exact h1 w
  | .phrase ws => by rw [Node.executeObj, Node.execute]; exact h2 ws
  | .glob w => by rw [Node.executeObj, Node.execute]; exact h3 w
  | .not _ => by rw [Node.executeObj, Node.execute]; rfl
  | .and l => by
    rw [Node.executeObj, Node.execute, ← executeAndObj_map l]
    cases Node.executeAndObj A ixo l with
    | error e => rfl
    | ok r =>
      simp only [Except.map, bind_ok]
      have e : (r.1.map (·.map)).map (fun x => (some x, A.one))
          = (r.1.map (fun x => (x, A.one))).map (fun p => (some p.1.map, p.2)) := by simp
      rw [e, ← massIntersectionObj_map]
      cases massIntersectionObj A (r.1.map (fun x => (x, A.one))) with
      | error e => rfl
      | ok set =>
        simp only [Except.map, bind_ok, List.isEmpty_map]
        by_cases hn : r.2.isEmpty = true
        · rw [if_pos hn, if_pos hn]; rfl
        · rw [if_neg hn, if_neg hn]
          have e : (r.2.map (·.map)).map (fun x => (x, A.one)) = (r.2.map (fun x => (x, A.one))).map plain := by
            simp [plain]
          rw [e, ← massUnionObj_map]
          cases massUnionObj A (r.2.map (fun x => (x, A.one))) with
          | error e => rfl
          | ok ns => rfl
  | .or l => by
    rw [Node.executeObj, Node.execute, ← executeOrObj_map l]
    cases Node.executeOrObj A ixo l with
    | error e => rfl
    | ok r =>
      simp only [Except.map, bind_ok]
      have e : (r.map (·.map)).map (fun x => (x, A.one)) = (r.map (fun x => (x, A.one))).map plain := by
        simp [plain]
      rw [e, ← massUnionObj_map]
      cases massUnionObj A (r.map (fun x => (x, A.one))) with
      | error e => rfl
      | ok ns => rfl

theorem executeAndObj_map : ∀ l : List Node,
    (Node.executeAndObj A ixo l).map (fun r => (r.1.map (·.map), r.2.map (·.map))) = Node.executeAnd A ix l
  | [] => by rw [Node.executeAndObj, Node.executeAnd]; rfl
  | n :: rest => by
    have hr := executeAndObj_map rest
    cases n with
    | not m =>
      rw [Node.executeAndObj, Node.executeAnd, ← executeObj_map m, ← hr]
      cases m.executeObj A ixo with
      | error e => rfl
      | ok o =>
        cases Node.executeAndObj A ixo rest with
        | error e => rfl
        | ok r =>
          show Except.ok _ = Except.ok _
          simp [toList_objs]
    | _ =>
      rename_i x
      all_goals
        rw [Node.executeAndObj, Node.executeAnd, ← executeObj_map _, ← hr]
        · cases Node.executeObj A ixo _ with
          | error e => rfl
          | ok o =>
            cases Node.executeAndObj A ixo rest with
            | error e => rfl
            | ok r =>
              show Except.ok _ = Except.ok _
              simp [toList_objs]
        all_goals intro m h; cases h

theorem executeOrObj_map : ∀ l : List Node,
    (Node.executeOrObj A ixo l).map (fun r => r.map (·.map)) = Node.executeOr A ix l
  | [] => by rw [Node.executeOrObj, Node.executeOr]; rfl
  | n :: rest => by
    rw [Node.executeOrObj, Node.executeOr, ← executeObj_map n, ← executeOrObj_map rest]
    cases n.executeObj A ixo with
    | error e => rfl
    | ok o =>
      cases Node.executeOrObj A ixo rest with
      | error e => rfl
      | ok r =>
        show Except.ok _ = Except.ok _
        simp [toList_objs]

end

end

/-! ## New objects -/

theorem trivialObj_fresh {A : WArith R} {L : List (Obj D R × R)} (h : ∀ p ∈ L, A.isOne p.2 = true → p.1.own = none)
    {o : Obj D R} (ho : trivialObj A L = .ok o) : o.own = none := by
  match L, h, ho with
  | [], _, ho => cases ho; rfl
  | [p], h, ho =>
    obtain ⟨x, w⟩ := p
    simp only [trivialObj] at ho
    split at ho
    · cases ho; rfl
    · rename_i hw
      cases ho
      exact h _ (List.mem_singleton_self _) (by simpa using hw)
  | _ :: _ :: _, _, ho => cases ho

theorem massIntersectionObj_fresh {A : WArith R} {L : List (Obj D R × R)} (h : ∀ p ∈ L, A.isOne p.2 = true → p.1.own = none)
    {o : Obj D R} (ho : massIntersectionObj A L = .ok o) : o.own = none := by
  unfold massIntersectionObj at ho
  split at ho
  · exact trivialObj_fresh h ho
  · cases hm : massIntersection A (L.map (fun p => (some p.1.map, p.2))) with
    | error e => rw [hm] at ho; cases ho
    | ok m => rw [hm] at ho; cases ho; rfl


theorem nbest_add {ι : Type} {b : NBest ι Nat} (hb : b.Inv) (hlt : b.len < b.capacity) (p : ι) (n : Nat) :
    ∃ b', b.add p n = .ok b' ∧ b'.Inv ∧ b'.capacity = b.capacity ∧ b'.len = b.len + 1 ∧
      (b'.pairs.map (·.1)).Perm (p :: b.pairs.map (·.1)) := by
  obtain ⟨b', e, hi, hc, hp⟩ := NBest.add_ok hb p n
  have hpl := NBest.pairs_length hb
  rw [NBest.addPairs, if_pos (by omega)] at hp
  refine ⟨b', e, hi, hc, ?_, ?_⟩
  · rw [← NBest.pairs_length hi, hp, NBest.insAsc_length, hpl]
  · rw [hp]
    exact (NBest.insAsc_perm (p, n) b.pairs).map _

theorem unionLoopObj_fresh (A : WArith R) : ∀ (fuel : Nat) (b : NBest (Obj D R × R) Nat) (o : Obj D R), b.Inv →
    (∀ p ∈ b.pairs, p.1.1.own ≠ none → 2 ≤ b.len) → unionLoopObj A fuel b = .ok o → o.own = none := by
  intro fuel
  induction fuel with
  | zero => intro b o _ _ ho; cases ho
  | succ fuel ih =>
    intro b o hb hP ho
    have hpl := NBest.pairs_length hb
    unfold unionLoopObj at ho
    cases hp : b.pairs with
    | nil =>
      have h0 : b.len = 0 := by rw [← hpl, hp]; rfl
      rw [if_neg (by omega)] at ho
      rw [NBest.pop_empty hb hp] at ho
      cases ho
    | cons p1 T1 =>
      obtain ⟨b1, e1, i1, c1, q1⟩ := NBest.pop_ok hb hp
      rw [e1] at ho
      by_cases hlen : b.len > 1
      · rw [if_pos hlen, bind_ok] at ho
        cases hp1 : b1.pairs with
        | nil => rw [hp, ← q1, hp1] at hpl; simp at hpl; omega
        | cons p2 T2 =>
          obtain ⟨b2, e2, i2, c2, q2⟩ := NBest.pop_ok i1 hp1
          have hpl2 := NBest.pairs_length i2
          have hl2 : b2.len + 2 = b.len := by
            rw [← hpl, ← hpl2, hp, ← q1, hp1, ← q2]; simp
          have hle := hb.le
          change b.len ≤ b.capacity at hle
          obtain ⟨b3, e3, i3, c3, l3, q3⟩ := nbest_add i2 (by omega)
            (Obj.fresh (wUnion A p1.1.1.map p2.1.1.map p1.1.2 p2.1.2), A.one)
            (wUnion A p1.1.1.map p2.1.1.map p1.1.2 p2.1.2).len
          have ho' : ((b1.popSmallest >>= fun yw => yw.2.add
            (Obj.fresh (wUnion A p1.1.1.map yw.1.1.1.map p1.1.2 yw.1.1.2), A.one)
            (wUnion A p1.1.1.map yw.1.1.1.map p1.1.2 yw.1.1.2).len >>= unionLoopObj A fuel) : Except PyErr (Obj D R)) = .ok o := ho
          rw [e2, bind_ok, e3, bind_ok] at ho'
          refine ih b3 o i3 ?_ ho'
          intro p hp' hne
          have hm : p.1 ∈ b3.pairs.map (·.1) := List.mem_map_of_mem hp'
          rw [q3.mem_iff] at hm
          rcases List.mem_cons.1 hm with h | h
          · rw [h] at hne; exact absurd rfl hne
          · have : 0 < b2.pairs.length := by
              rcases hb2 : b2.pairs with _ | ⟨a, t⟩
              · rw [hb2] at h; cases h
              · simp
            omega
      · rw [if_neg hlen, bind_ok] at ho
        cases ho
        by_contra hne
        have := hP p1 (by rw [hp]; exact List.mem_cons_self) hne
        omega

theorem fillObj_ok (L : List (Obj D R × R)) : ∀ (b : NBest (Obj D R × R) Nat), b.Inv → b.len + L.length ≤ b.capacity →
    ∃ b', L.foldlM fillStepObj b = .ok b' ∧ b'.Inv ∧ b'.len = b.len + L.length := by
  induction L with
  | nil => intro b hb _; exact ⟨b, rfl, hb, rfl⟩
  | cons p t ih =>
    intro b hb hl
    rw [List.length_cons] at hl
    obtain ⟨b1, e1, i1, c1, l1, -⟩ := nbest_add hb (by omega) p p.1.map.len
    obtain ⟨b2, e2, i2, l2⟩ := ih b1 i1 (by omega)
    refine ⟨b2, ?_, i2, ?_⟩
    · rw [List.foldlM_cons]
      show (fillStepObj b p >>= _) = _
      rw [show fillStepObj b p = .ok b1 from e1]
      exact e2
    · rw [List.length_cons]; omega

theorem massUnionObj_fresh {A : WArith R} {L : List (Obj D R × R)} (h : ∀ p ∈ L, A.isOne p.2 = true → p.1.own = none)
    {o : Obj D R} (ho : massUnionObj A L = .ok o) : o.own = none := by
  unfold massUnionObj at ho
  split at ho
  · exact trivialObj_fresh h ho
  · unfold NBest.new at ho
    rw [if_neg (by omega), bind_ok] at ho
    obtain ⟨b', e, i, l⟩ := fillObj_ok L { capacity := (L.length : Int).toNat, scores := [], items := [] }
      (NBest.init_inv (by omega)) (by simp [NBest.len])
    rw [e, bind_ok] at ho
    refine unionLoopObj_fresh A _ _ _ i ?_ ho
    intro p _ _
    have : b'.len = L.length := by rw [l]; simp [NBest.len]
    omega

section

variable (A : WArith R) (ixo : SearcherObj D R)
  (h1 : ∀ w o, ixo.search w = .ok (some o) → o.own = none)
  (h2 : ∀ ws o, ixo.searchPhrase ws = .ok (some o) → o.own = none)
  (h3 : ∀ w o, ixo.searchGlob w = .ok (some o) → o.own = none)

include h1 h2 h3

mutual

theorem executeObj_fresh : ∀ (n : Node) (o : Obj D R), n.executeObj A ixo = .ok (some o) → o.own = none
  | .atom w, o => by rw [Node.executeObj]; exact h1 w o
  | .phrase ws, o => by rw [Node.executeObj]; exact h2 ws o
  | .glob w, o => by rw [Node.executeObj]; exact h3 w o
  | .not _, o => by rw [Node.executeObj]; intro h; cases h
  | .and l, o => by
    rw [Node.executeObj]
    intro h
    obtain ⟨r, hr, h⟩ := bind_split h
    obtain ⟨set, hs, h⟩ := bind_split h
    by_cases hn : r.2.isEmpty = true
    · rw [if_pos hn] at h
      cases h
      refine massIntersectionObj_fresh ?_ hs
      intro p hp _
      obtain ⟨x, hx, rfl⟩ := List.mem_map.1 hp
      exact executeAndObj_fresh l r hr x hx
    · rw [if_neg hn] at h
      obtain ⟨ns, _, h⟩ := bind_split h
      cases h
      rfl
  | .or l, o => by
    rw [Node.executeObj]
    intro h
    obtain ⟨r, hr, h⟩ := bind_split h
    obtain ⟨set, hs, h⟩ := bind_split h
    cases h
    refine massUnionObj_fresh ?_ hs
    intro p hp _
    obtain ⟨x, hx, rfl⟩ := List.mem_map.1 hp
    exact executeOrObj_fresh l r hr x hx

theorem executeAndObj_fresh : ∀ (l : List Node) (r : List (Obj D R) × List (Obj D R)), Node.executeAndObj A ixo l = .ok r →
    ∀ o ∈ r.1, o.own = none
  | [], r => by rw [Node.executeAndObj]; intro h; cases h; simp
  | n :: rest, r => by
    have hr := executeAndObj_fresh rest
    cases n with
    | not m =>
      rw [Node.executeAndObj]
      intro h
      obtain ⟨x, _, h⟩ := bind_split h
      obtain ⟨ms, hm, h⟩ := bind_split h
      cases h
      exact hr ms hm
    | _ =>
      all_goals
        rw [Node.executeAndObj]
        · intro h o ho
          obtain ⟨x, hx, h⟩ := bind_split h
          obtain ⟨ms, hm, h⟩ := bind_split h
          cases h
          rcases List.mem_append.1 ho with h | h
          · rw [Option.mem_toList] at h
            subst h
            exact executeObj_fresh _ o hx
          · exact hr ms hm o h
        all_goals intro m h; cases h

theorem executeOrObj_fresh : ∀ (l : List Node) (r : List (Obj D R)), Node.executeOrObj A ixo l = .ok r → ∀ o ∈ r, o.own = none
  | [], r => by rw [Node.executeOrObj]; intro h; cases h; simp
  | n :: rest, r => by
    rw [Node.executeOrObj]
    intro h o ho
    obtain ⟨x, hx, h⟩ := bind_split h
    obtain ⟨ms, hm, h⟩ := bind_split h
    cases h
    rcases List.mem_append.1 ho with h | h
    · rw [Option.mem_toList] at h
      subst h
      exact executeObj_fresh _ o hx
    · exact executeOrObj_fresh rest ms hm o h

end

end


/-! ## The index -/

namespace Text

theorem mapM_length {α β : Type} (f : α → Except PyErr β) : ∀ (l : List α) (r : List β), l.mapM f = .ok r → r.length = l.length := by
  intro l
  induction l with
  | nil => intro r h; cases h; rfl
  | cons a l ih =>
    intro r h
    rw [List.mapM_cons] at h
    obtain ⟨x, _, h⟩ := bind_split h
    obtain ⟨xs, hxs, h⟩ := bind_split h
    cases h
    rw [List.length_cons, List.length_cons, ih xs hxs]

/-- one result per word -/
def PerWord (K : Kind D R) : Prop := ∀ s wids L, K.searchWids s wids = .ok L → L.length = wids.length

theorem okapi_perWord (A : Arith R) (P : Bm25 R) : PerWord (okapi A P : Kind D R) := by
  intro s wids L h
  change okapiSearchWids A P s wids = .ok L at h
  unfold okapiSearchWids at h
  split at h
  · cases h; simp_all
  · obtain ⟨x, _, h⟩ := bind_split h
    exact mapM_length _ _ _ h

theorem okapiC_perWord (A : Arith R) (cdiv : R → R → R) (P : Bm25 R) : PerWord (okapiC A cdiv P : Kind D R) := by
  intro s wids L h
  change cSearchWids A cdiv P s wids = .ok L at h
  unfold cSearchWids at h
  split at h
  · cases h; simp_all
  · obtain ⟨x, _, h⟩ := bind_split h
    exact mapM_length _ _ _ h

theorem cosine_perWord (A : Arith R) : PerWord (cosine A : Kind D R) := by
  intro s wids L h
  change cosineSearchWids A s wids = .ok L at h
  unfold cosineSearchWids at h
  split at h
  · cases h; simp_all
  · exact mapM_length _ _ _ h

theorem zipWith_plain (owns : Ix D R → Int → Bool) (s : Ix D R) : ∀ (wids : List Int) (L : List (SMap D R × R)),
    L.length = wids.length → (List.zipWith (wordObj owns s) wids L).map plain = L := by
  intro wids
  induction wids with
  | nil => intro L h; simp at h; subst h; rfl
  | cons w wids ih =>
    intro L h
    cases L with
    | nil => simp at h
    | cons p L =>
      rw [List.zipWith_cons_cons, List.map_cons, ih L (by simpa using h)]
      rfl

variable {K : Kind D R} (hK : PerWord K) (owns : Ix D R → Int → Bool)

include hK

theorem searchWidsObj_map (s : Ix D R) (wids : List Int) :
    (searchWidsObj K owns s wids).map (List.map plain) = K.searchWids s wids := by
  unfold searchWidsObj
  cases h : K.searchWids s wids with
  | error e => rfl
  | ok L => exact congrArg Except.ok (zipWith_plain owns s wids L (hK s wids L h))

theorem searchUnionObj_map (s : Ix D R) (wids : List Int) : (searchUnionObj K owns s wids).map (·.map) = searchUnion K s wids := by
  unfold searchUnionObj searchUnion
  rw [← searchWidsObj_map hK owns]
  cases searchWidsObj K owns s (removeOov s wids) with
  | error e => rfl
  | ok L => exact massUnionObj_map _ L

theorem searchObj_map (pipeline : List Element) (lex : Lexicon) (s : Ix D R) (t : TextArg) :
    (searchObj K owns pipeline lex s t).map (Option.map (·.map)) = search K pipeline lex s t := by
  unfold searchObj search
  cases lex.termToWordIds pipeline t with
  | error e => rfl
  | ok wids =>
    rw [bind_ok, bind_ok]
    by_cases h : wids.isEmpty = true
    · rw [if_pos h, if_pos h]; rfl
    · rw [if_neg h, if_neg h, ← searchUnionObj_map hK owns]
      cases searchUnionObj K owns s wids <;> rfl

theorem searchGlobObj_map (odd : Word → Except PyErr (Word → Bool)) (lex : Lexicon) (s : Ix D R) (w : Word) :
    (searchGlobObj K owns odd lex s w).map (·.map) = searchGlob K odd lex s w := by
  unfold searchGlobObj searchGlob
  cases lex.globToWordIds odd w with
  | error e => rfl
  | ok wids => exact searchUnionObj_map hK owns s wids

theorem searchPhraseObj_map (pipeline : List Element) (lex : Lexicon) (s : Ix D R) (t : TextArg) :
    (searchPhraseObj K owns pipeline lex s t).map (·.map) = searchPhrase K pipeline lex s t := by
  unfold searchPhraseObj searchPhrase
  cases lex.termToWordIds pipeline t with
  | error e => rfl
  | ok wids =>
    rw [bind_ok, bind_ok]
    by_cases h : wids.length ≠ (removeOov s wids).length
    · rw [if_pos h, if_pos h]; rfl
    · rw [if_neg h, if_neg h, ← searchWidsObj_map hK owns]
      cases searchWidsObj K owns s wids with
      | error e => rfl
      | ok L =>
        simp only [Except.map, bind_ok]
        have e : (L.map plain).map (fun p => (some p.1, p.2)) = L.map (fun p => (some p.1.map, p.2)) := by simp [plain]
        rw [e, ← massIntersectionObj_map]
        cases massIntersectionObj K.arith.toWArith L with
        | error e => rfl
        | ok hits =>
          simp only [Except.map, bind_ok]
          by_cases hh : hits.map.isEmpty = true
          · rw [if_pos hh, if_pos hh]; rfl
          · rw [if_neg hh, if_neg hh]
            cases WidCode.encode wids with
            | error e => rfl
            | ok code =>
              simp only [bind_ok]
              cases hits.map.items.foldlM (phraseLoop K s code) SMap.empty <;> rfl

theorem applyTreeObj_fst (odd : Word → Except PyErr (Word → Bool)) (pipeline : List Element) (s : TI D R) (t : Node) :
    (applyTreeObj K owns odd pipeline s t).map Prod.fst = applyTree K odd pipeline s t := by
  unfold applyTreeObj applyTree
  rw [← executeObj_map K.arith.toWArith (searcherObj K owns odd pipeline s) (searcher K odd pipeline s)
    (fun w => searchObj_map hK owns pipeline s.lex s.ix (.str w))
    (fun ws => by
      show ((searchPhraseObj K owns pipeline s.lex s.ix (.list ws)).map some).map _ = (searchPhrase K pipeline s.lex s.ix (.list ws)).map some
      rw [← searchPhraseObj_map hK owns]
      cases searchPhraseObj K owns pipeline s.lex s.ix (.list ws) <;> rfl)
    (fun w => by
      show ((searchGlobObj K owns odd s.lex s.ix w).map some).map _ = (searchGlob K odd s.lex s.ix w).map some
      rw [← searchGlobObj_map hK owns]
      cases searchGlobObj K owns odd s.lex s.ix w <;> rfl)]
  cases t.executeObj K.arith.toWArith (searcherObj K owns odd pipeline s) with
  | error e => rfl
  | ok r =>
    simp only [Except.map, bind_ok]
    cases r with
    | none => rfl
    | some o =>
      simp only [Option.map]
      by_cases h : o.map.isEmpty = true
      · rw [if_pos h, if_pos h]; rfl
      · rw [if_neg h, if_neg h]
        cases queryWeight K pipeline s t.terms with
        | error e => rfl
        | ok qw =>
          simp only [bind_ok]
          cases o.map.items.foldlM (scaleStep K.arith _) o.map <;> rfl

omit hK

/-- the words' own mappings never come with the weight 1 -/
def Safe (K : Kind D R) (owns : Ix D R → Int → Bool) (s : Ix D R) : Prop :=
  ∀ wids L, searchWidsObj K owns s wids = .ok L → ∀ p ∈ L, K.arith.isOne p.2 = true → p.1.own = none

variable {s : TI D R} (hS : Safe K owns s.ix)
include hS

theorem searchUnionObj_fresh {wids : List Int} {o : Obj D R} (h : searchUnionObj K owns s.ix wids = .ok o) : o.own = none := by
  unfold searchUnionObj at h
  obtain ⟨L, hL, h⟩ := bind_split h
  exact massUnionObj_fresh (hS _ L hL) h

theorem applyTreeObj_same (odd : Word → Except PyErr (Word → Bool)) (pipeline : List Element) (t : Node)
    (r : Option (SMap D R)) (s' : TI D R) (h : applyTreeObj K owns odd pipeline s t = .ok (r, s')) : s' = s := by
  unfold applyTreeObj at h
  obtain ⟨o, ho, h⟩ := bind_split h
  cases o with
  | none => cases h; rfl
  | some o =>
    have hf : o.own = none := by
      refine executeObj_fresh K.arith.toWArith (searcherObj K owns odd pipeline s) ?_ ?_ ?_ t o ho
      · intro w o h
        change searchObj K owns pipeline s.lex s.ix (.str w) = _ at h
        unfold searchObj at h
        obtain ⟨wids, _, h⟩ := bind_split h
        by_cases he : wids.isEmpty = true
        · rw [if_pos he] at h; cases h
        · rw [if_neg he] at h
          obtain ⟨x, hx, h⟩ := bind_split h
          cases h
          exact searchUnionObj_fresh owns hS hx
      · intro ws o h
        change (searchPhraseObj K owns pipeline s.lex s.ix (.list ws)).map some = _ at h
        cases hp : searchPhraseObj K owns pipeline s.lex s.ix (.list ws) with
        | error e => rw [hp] at h; cases h
        | ok x =>
          rw [hp] at h
          cases h
          unfold searchPhraseObj at hp
          obtain ⟨wids, _, h⟩ := bind_split hp
          by_cases he : wids.length ≠ (removeOov s.ix wids).length
          · rw [if_pos he] at h; cases h; rfl
          · rw [if_neg he] at h
            obtain ⟨L, hL, h⟩ := bind_split h
            obtain ⟨hits, hh, h⟩ := bind_split h
            by_cases he : hits.map.isEmpty = true
            · rw [if_pos he] at h
              cases h
              exact massIntersectionObj_fresh (hS _ L hL) hh
            · rw [if_neg he] at h
              obtain ⟨code, _, h⟩ := bind_split h
              obtain ⟨r, _, h⟩ := bind_split h
              cases h
              rfl
      · intro w o h
        change (searchGlobObj K owns odd s.lex s.ix w).map some = _ at h
        cases hp : searchGlobObj K owns odd s.lex s.ix w with
        | error e => rw [hp] at h; cases h
        | ok x =>
          rw [hp] at h
          cases h
          unfold searchGlobObj at hp
          obtain ⟨wids, _, h⟩ := bind_split hp
          exact searchUnionObj_fresh owns hS h
    simp only at h
    by_cases he : o.map.isEmpty = true
    · rw [if_pos he] at h; cases h; rfl
    · rw [if_neg he] at h
      obtain ⟨qw, _, h⟩ := bind_split h
      obtain ⟨m, _, h⟩ := bind_split h
      cases h
      unfold writeObj
      rw [hf]

omit hS

theorem safe_of_not_owns (K : Kind D R) (s : Ix D R) : Safe K (okapiOwns : Ix D R → Int → Bool) s := by
  intro wids L h p hp _
  unfold searchWidsObj at h
  obtain ⟨L', _, h⟩ := bind_split h
  cases h
  rw [List.zipWith_eq_zipWith_take_min, List.mem_iff_getElem] at hp
  obtain ⟨i, hi, rfl⟩ := hp
  rw [List.getElem_zipWith]
  rfl

theorem cosine_safe (A : Arith R) (s : Ix D R)
    (h : ∀ wid e, s.wordinfo.get? wid = some e → e.tree = true → ∀ v, idf A e.map.len (A.ofNat s.docweight.len) = .ok v → A.isOne v = false) :
    Safe (cosine A : Kind D R) cosineOwns s := by
  intro wids L hL p hp h1
  unfold searchWidsObj at hL
  obtain ⟨L', hL', hL⟩ := bind_split hL
  cases hL
  change cosineSearchWids A s wids = .ok L' at hL'
  unfold cosineSearchWids at hL'
  split at hL'
  · cases hL'
    simp at hp
  · clear * - h hL' hp h1
    induction wids generalizing L' with
    | nil => simp at hp
    | cons w wids ih =>
      rw [List.mapM_cons] at hL'
      obtain ⟨x, hx, hL'⟩ := bind_split hL'
      obtain ⟨xs, hxs, hL'⟩ := bind_split hL'
      cases hL'
      rw [List.zipWith_cons_cons] at hp
      rcases List.mem_cons.1 hp with rfl | hp
      · unfold cosineWord at hx
        cases hg : s.wordinfo.get? w with
        | none => rw [hg] at hx; cases hx
        | some e =>
          rw [hg] at hx
          obtain ⟨v, hv, hx⟩ := bind_split hx
          cases hx
          by_cases ht : e.tree = true
          · have := h w e hg ht v hv
            change A.isOne v = true at h1
            rw [this] at h1
            cases h1
          · simp [wordObj, cosineOwns, hg, ht]
      · exact ih xs hp hxs

end Text

end Verif
