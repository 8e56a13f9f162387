import Verif.Spec.Query
import Verif.Proofs.Lexicon

set_option autoImplicit false

namespace Verif
namespace QueryParser

open Spec (OrE AndE Items TermE atomMean atomsMean join atomsOf Clean Tokens WordChar)

section parser

variable {parseTerms : Word → List Word} {toks : List Tok}

/-! ### token access -/

theorem getElem?_of_drop {i : Nat} {t : Tok} {l : List Tok} (h : toks.drop i = t :: l) : toks[i]? = some t := by
  have := congrArg List.head? h
  rw [List.head?_drop] at this
  exact this

theorem drop_succ {i : Nat} {t : Tok} {l : List Tok} (h : toks.drop i = t :: l) : toks.drop (i + 1) = l := by
  have := congrArg (List.drop 1) h
  rw [List.drop_drop] at this
  simpa using this

theorem drop_add {i : Nat} {a l : List Tok} (h : toks.drop i = a ++ l) : toks.drop (i + a.length) = l := by
  rw [← List.drop_drop, h, List.drop_left]

theorem check_yes {t : Tok} {l : List Tok} {st : St} (h : toks.drop st.index = t :: l) :
    check toks t st = .ok (true, { st with index := st.index + 1 }) := by
  unfold check; rw [getElem?_of_drop h]; simp

theorem check_no {t t' : Tok} {l : List Tok} {st : St} (h : toks.drop st.index = t' :: l) (hne : t' ≠ t) :
    check toks t st = .ok (false, st) := by
  unfold check; rw [getElem?_of_drop h]; simp [hne]

theorem require_yes {t : Tok} {l : List Tok} {st : St} (h : toks.drop st.index = t :: l) :
    require toks t st = .ok { st with index := st.index + 1 } := by
  unfold require; rw [check_yes h]; rfl

theorem require_no {t t' : Tok} {l : List Tok} {st : St} (h : toks.drop st.index = t' :: l) (hne : t' ≠ t) :
    require toks t st = .error .parse := by
  unfold require; rw [check_no h hne]; rfl

/-! ### atoms -/

theorem isNot_not (n : Node) : (Node.not n).isNot = true := rfl

/-- the node of an atom -/
def nodeOf (parseTerms : Word → List Word) (w : Word) : Option Node :=
  (atomMean parseTerms w).map (fun m => if m.1 then Node.not m.2 else m.2)

/-- the ignored atoms among some words -/
def ign (parseTerms : Word → List Word) (ws : List Word) : List Word := ws.filter (fun w => (parseTerms w).isEmpty)

theorem ign_append (a b : List Word) : ign parseTerms (a ++ b) = ign parseTerms a ++ ign parseTerms b := List.filter_append ..

theorem isGlob_iff (w : Word) : Lexicon.isGlob w = true ↔ '*' ∈ w ∨ '?' ∈ w := by
  unfold Lexicon.isGlob; simp

theorem atomMean_eq (c : Char) (w : Word) :
    atomMean parseTerms (c :: w) = (atomNode (parseTerms (c :: w))).map (fun n => (decide (c = '-'), n)) := by
  unfold atomMean atomNode
  split
  · rename_i h; rw [h]; rfl
  · rename_i x h
    rw [h]
    by_cases hg : '*' ∈ x ∨ '?' ∈ x
    · simp [(isGlob_iff x).2 hg, hg]
    · have : Lexicon.isGlob x = false := by
        by_contra hc; exact hg ((isGlob_iff x).1 (by simpa using hc))
      simp [this, hg]
  · rename_i xs h1 h2
    split
    · rename_i h; exact absurd h h1
    · rename_i x h; exact absurd h (h2 x)
    · simp

theorem atomNode_not (l : List Word) (n : Node) (h : atomNode l = some n) : n.isNot = false := by
  unfold atomNode at h
  split at h
  · cases h
  · split at h <;> · cases h; rfl
  · cases h; rfl

theorem atomMean_not {w : Word} {m : Bool × Node} (h : atomMean parseTerms w = some m) : m.2.isNot = false := by
  unfold atomMean at h
  split at h
  · cases h
  · cases h; dsimp only; split <;> rfl
  · cases h; rfl

theorem parseAtom_eq {w : Word} {l : List Tok} {st : St} (h : toks.drop st.index = .atom w :: l) (hw : w ≠ []) :
    parseAtom parseTerms toks st =
      .ok (nodeOf parseTerms w, { index := st.index + 1, ignored := st.ignored ++ ign parseTerms [w] }) := by
  obtain ⟨c, w, rfl⟩ := List.exists_cons_of_ne_nil hw
  unfold parseAtom getAtom
  rw [getElem?_of_drop h]
  show (match atomNode (parseTerms (c :: w)) with
    | none => _
    | some tree => _ : Except Fail (Option Node × St)) = _
  unfold nodeOf
  rw [atomMean_eq]
  cases hn : atomNode (parseTerms (c :: w)) with
  | none =>
    have : parseTerms (c :: w) = [] := by
      unfold atomNode at hn
      split at hn
      · assumption
      · split at hn <;> cases hn
      · cases hn
    simp [ign, this]; rfl
  | some n =>
    have : parseTerms (c :: w) ≠ [] := by
      intro e; rw [e] at hn; cases hn
    simp only [Option.map_some, ign]
    rw [List.filter_cons_of_neg (by simpa using this), List.filter_nil, List.append_nil]
    by_cases hc : c = '-'
    · subst hc; rfl
    · simp [hc]; rfl

/-- a token that is not an atom -/
def NotAtom (t : Tok) : Prop := ∀ w, t ≠ .atom w

theorem peek_yes {w : Word} {l : List Tok} {st : St} (h : toks.drop st.index = .atom w :: l) :
    peekAtom toks st = .ok true := by
  unfold peekAtom; rw [getElem?_of_drop h]

theorem peek_no {t : Tok} {l : List Tok} {st : St} (h : toks.drop st.index = t :: l) (hne : NotAtom t) :
    peekAtom toks st = .ok false := by
  unfold peekAtom; rw [getElem?_of_drop h]
  cases t with
  | atom w => exact absurd rfl (hne w)
  | _ => rfl

theorem atomLoop_eq {ws : List Word} {t : Tok} {rest : List Tok} {st : St} {nodes : List (Option Node)} {fuel : Nat}
    (h : toks.drop st.index = ws.map .atom ++ t :: rest) (ht : NotAtom t) (hw : ∀ w ∈ ws, w ≠ []) (hf : ws.length + 1 ≤ fuel) :
    atomLoop parseTerms toks fuel nodes st =
      .ok (nodes ++ ws.map (nodeOf parseTerms), { index := st.index + ws.length, ignored := st.ignored ++ ign parseTerms ws }) := by
  induction ws generalizing st nodes fuel with
  | nil =>
    obtain ⟨n, rfl⟩ : ∃ n, fuel = n + 1 := ⟨fuel - 1, by simp at hf; omega⟩
    unfold atomLoop
    rw [peek_no (by simpa using h) ht]
    simp [ign]; rfl
  | cons w ws ih =>
    obtain ⟨n, rfl⟩ : ∃ n, fuel = n + 1 := ⟨fuel - 1, by simp at hf; omega⟩
    have h : toks.drop st.index = .atom w :: (ws.map .atom ++ t :: rest) := by simpa using h
    unfold atomLoop
    rw [peek_yes h]
    simp only [bind, Except.bind, if_true]
    rw [parseAtom_eq h (hw w List.mem_cons_self)]
    simp only
    rw [ih (st := { index := st.index + 1, ignored := st.ignored ++ ign parseTerms [w] }) (drop_succ h)
      (fun v hv => hw v (List.mem_cons_of_mem _ hv)) (by simp at hf ⊢; omega)]
    have e : ign parseTerms (w :: ws) = ign parseTerms [w] ++ ign parseTerms ws := ign_append [w] ws
    simp only [e, List.map_cons, List.append_assoc, List.length_cons]
    congr 3
    omega

/-- from `Spec` errors to the model's -/
def lift {α : Type} : Except Unit α → Except Fail α
  | .ok a => .ok a
  | .error _ => .error .parse

theorem filterMap_nodeOf (ws : List Word) :
    (ws.map (nodeOf parseTerms)).filterMap id =
      (ws.filterMap (atomMean parseTerms)).map (fun m => if m.1 then Node.not m.2 else m.2) := by
  rw [List.filterMap_map, List.map_filterMap]
  rfl

theorem join_and (n : Node) (rest : List Node) :
    join .and (n :: rest) = if rest.isEmpty then some n else some (.and (n :: rest)) := by
  cases rest <;> rfl

theorem termTree_eq (ws : List Word) :
    termTree (ws.map (nodeOf parseTerms)) = lift (atomsMean parseTerms ws) := by
  unfold termTree atomsMean
  rw [filterMap_nodeOf]
  have hnot : ∀ m ∈ ws.filterMap (atomMean parseTerms), m.2.isNot = false := by
    intro m hm
    rw [List.mem_filterMap] at hm
    obtain ⟨w, -, h⟩ := hm
    exact atomMean_not h
  generalize ws.filterMap (atomMean parseTerms) = ms at hnot
  simp only
  have e1 : (ms.map (fun m => if m.1 then Node.not m.2 else m.2)).filter (fun n => !n.isNot) =
      (ms.filter (fun m => !m.1)).map (·.2) := by
    induction ms with
    | nil => rfl
    | cons m ms ih =>
      have := hnot m List.mem_cons_self
      have ih := ih (fun m' h => hnot m' (List.mem_cons_of_mem _ h))
      rw [List.map_cons, List.filter_cons, List.filter_cons]
      cases hb : m.1
      · simp [this, ih]
      · simp [isNot_not, ih]
  have e2 : (ms.map (fun m => if m.1 then Node.not m.2 else m.2)).filter (fun n => n.isNot) =
      (ms.filter (fun m => m.1)).map (fun m => Node.not m.2) := by
    clear e1
    induction ms with
    | nil => rfl
    | cons m ms ih =>
      have := hnot m List.mem_cons_self
      have ih := ih (fun m' h => hnot m' (List.mem_cons_of_mem _ h))
      rw [List.map_cons, List.filter_cons, List.filter_cons]
      cases hb : m.1
      · simp [this, ih]
      · simp [isNot_not, ih]
  rw [e1, e2]
  have hempty : (ms.map (fun m => if m.1 then Node.not m.2 else m.2)).isEmpty =
      ((ms.filter (fun m => !m.1)).map (·.2) ++ (ms.filter (fun m => m.1)).map (fun m => Node.not m.2)).isEmpty := by
    clear e1 e2 hnot
    induction ms with
    | nil => rfl
    | cons m ms ih =>
      rw [List.map_cons, List.filter_cons, List.filter_cons]
      cases hb : m.1 <;> simp
  rw [hempty]
  have hp : ∀ n ∈ (ms.filter (fun m => !m.1)).map (·.2), n.isNot = false := by
    intro n hn
    rw [List.mem_map] at hn
    obtain ⟨m, hm, rfl⟩ := hn
    exact hnot m (List.mem_filter.1 hm).1
  have hq : ∀ n ∈ (ms.filter (fun m => m.1)).map (fun m => Node.not m.2), n.isNot = true := by
    intro n hn
    rw [List.mem_map] at hn
    obtain ⟨m, hm, rfl⟩ := hn
    rfl
  generalize (ms.filter (fun m => !m.1)).map (·.2) = pos at *
  generalize (ms.filter (fun m => m.1)).map (fun m => Node.not m.2) = neg at *
  rcases pos with _ | ⟨n, pos⟩
  · rcases neg with _ | ⟨n, neg⟩
    · rfl
    · have := hq n List.mem_cons_self
      simp [this, lift]
  · have := hp n List.mem_cons_self
    simp only [List.cons_append, List.isEmpty_cons, Bool.false_eq_true, if_false, this, false_and, lift, join_and]
    split <;> rfl

/-! ### completeness: phrases of the grammar are parsed, with their meaning -/

theorem atomsOf_append (a b : List Tok) : atomsOf (a ++ b) = atomsOf a ++ atomsOf b := List.filterMap_append ..

theorem atomsOf_atoms (ws : List Word) : atomsOf (ws.map Tok.atom) = ws := by
  unfold atomsOf
  rw [List.filterMap_map]
  induction ws with
  | nil => rfl
  | cons w ws ih => simpa using ih

/-- the ignored atoms among some tokens -/
def ignT (parseTerms : Word → List Word) (ts : List Tok) : List Word := ign parseTerms (atomsOf ts)

theorem ignT_append (a b : List Tok) : ignT parseTerms (a ++ b) = ignT parseTerms a ++ ignT parseTerms b := by
  unfold ignT; rw [atomsOf_append, ign_append]

theorem ignT_cons (t : Tok) (b : List Tok) : ignT parseTerms (t :: b) = ignT parseTerms [t] ++ ignT parseTerms b :=
  ignT_append [t] b

@[simp] theorem ignT_and : ignT parseTerms [.and] = [] := rfl
@[simp] theorem ignT_or : ignT parseTerms [.or] = [] := rfl
@[simp] theorem ignT_not : ignT parseTerms [.not] = [] := rfl
@[simp] theorem ignT_lparen : ignT parseTerms [.lparen] = [] := rfl
@[simp] theorem ignT_rparen : ignT parseTerms [.rparen] = [] := rfl
@[simp] theorem ignT_eof : ignT parseTerms [.eof] = [] := rfl
@[simp] theorem ignT_nil : ignT parseTerms [] = [] := rfl

/-- the state after some tokens -/
def adv (parseTerms : Word → List Word) (st : St) (ts : List Tok) : St :=
  { index := st.index + ts.length, ignored := st.ignored ++ ignT parseTerms ts }

theorem adv_adv (st : St) (a b : List Tok) : adv parseTerms (adv parseTerms st a) b = adv parseTerms st (a ++ b) := by
  unfold adv
  simp [ignT_append, Nat.add_assoc]

theorem adv_nil (st : St) : adv parseTerms st [] = st := by simp [adv]

theorem drop_adv {st : St} {a l : List Tok} (h : toks.drop st.index = a ++ l) : toks.drop (adv parseTerms st a).index = l :=
  drop_add h

/-- no atom is the empty string -/
def NonEmptyAtoms (ts : List Tok) : Prop := ∀ w, Tok.atom w ∈ ts → w ≠ []

theorem check_adv {t : Tok} {l : List Tok} {st : St} (h : toks.drop st.index = t :: l) (ht : NotAtom t) :
    check toks t st = .ok (true, adv parseTerms st [t]) := by
  rw [check_yes h]
  have : ignT parseTerms [t] = [] := by
    cases t with
    | atom w => exact absurd rfl (ht w)
    | _ => rfl
  simp [adv, this]

theorem require_adv {t : Tok} {l : List Tok} {st : St} (h : toks.drop st.index = t :: l) (ht : NotAtom t) :
    require toks t st = .ok (adv parseTerms st [t]) := by
  unfold require; rw [check_adv (parseTerms := parseTerms) h ht]; rfl

theorem map_ok {ε α β : Type} (f : α → β) (x : Except ε α) : (do return f (← x)) = x.map f := by
  cases x <;> rfl

theorem lift_map {α β : Type} (f : α → β) (x : Except Unit α) : lift (x.map f) = (lift x).map f := by cases x <;> rfl

/-- what the parser returns: the lifted meaning together with a state -/
def ret {α : Type} (x : Except Unit α) (st : St) : Except Fail (α × St) := (lift x).map (fun a => (a, st))

theorem andTree_eq (l nots : List Node) : andTree l nots = if l.isEmpty then none else join .and (l ++ nots) := by
  unfold andTree
  split
  · rfl
  · rename_i h
    rcases l with _ | ⟨a, l⟩
    · simp at h
    · rcases l with _ | ⟨b, l⟩
      · rcases nots <;> rfl
      · rfl

theorem orTree_eq (l : List (Option Node)) : orTree l = join .or (l.filterMap id) := by
  unfold orTree
  generalize l.filterMap id = l
  rcases l with _ | ⟨a, _ | ⟨b, l⟩⟩ <;> rfl

theorem join_not_isNot {f : List Node → Node} (hf : ∀ l, (f l).isNot = false) {l : List Node} (hl : ∀ n ∈ l, n.isNot = false)
    {n : Node} (h : join f l = some n) : n.isNot = false := by
  unfold join at h
  split at h
  · cases h
  · cases h; exact hl _ List.mem_cons_self
  · cases h; exact hf _

theorem atomsMean_isNot {ws : List Word} {n : Node} (h : atomsMean parseTerms ws = .ok (some n)) : n.isNot = false := by
  have ht := termTree_eq (parseTerms := parseTerms) ws
  rw [h] at ht
  unfold termTree at ht
  dsimp only at ht
  split at ht
  · cases ht
  · split at ht
    · cases ht
    · split at ht
      · cases ht
      · rename_i hn
        split at ht
        · cases ht; simpa using hn
        · cases ht; rfl

mutual

theorem OrE_isNot (o : OrE) (l : List Node) (h : o.parts parseTerms = .ok l) : ∀ n ∈ l, n.isNot = false := by
  cases o with
  | one a =>
    rw [OrE.parts] at h
    cases ha : a.mean parseTerms with
    | error e => rw [ha] at h; cases h
    | ok m =>
      rw [ha] at h
      cases h
      intro n hn
      rw [Option.mem_toList] at hn
      rw [Option.mem_def.1 hn] at ha
      exact AndE_isNot a n ha
  | more a rest =>
    rw [OrE.parts] at h
    cases ha : a.mean parseTerms with
    | error e => rw [ha] at h; cases h
    | ok m =>
      rw [ha] at h
      cases hr : rest.parts parseTerms with
      | error e => rw [hr] at h; cases h
      | ok ms =>
        rw [hr] at h
        cases h
        intro n hn
        rcases List.mem_append.1 hn with hn | hn
        · rw [Option.mem_toList] at hn
          rw [Option.mem_def.1 hn] at ha
          exact AndE_isNot a n ha
        · exact OrE_isNot rest ms hr n hn

theorem AndE_isNot (a : AndE) (n : Node) (h : a.mean parseTerms = .ok (some n)) : n.isNot = false := by
  cases a with
  | mk t rest =>
    rw [AndE.mean] at h
    cases ht : t.mean parseTerms with
    | error e => rw [ht] at h; cases h
    | ok m =>
      rw [ht] at h
      cases hr : rest.parts parseTerms with
      | error e => rw [hr] at h; cases h
      | ok ms =>
        rw [hr] at h
        simp only [bind, Except.bind, pure, Except.pure, Except.ok.injEq] at h
        split at h
        · cases h
        · rename_i hne
          -- the first part is positive
          have hpos : ∀ x ∈ m.toList ++ ms.1, x.isNot = false := by
            intro x hx
            rcases List.mem_append.1 hx with hx | hx
            · rw [Option.mem_toList] at hx
              rw [Option.mem_def.1 hx] at ht
              exact TermE_isNot t x ht
            · exact Items_isNot rest ms hr x hx
          generalize m.toList ++ ms.1 = pos at *
          rcases pos with _ | ⟨x, pos⟩
          · simp at hne
          · rw [List.cons_append, join_and] at h
            split at h
            · cases h; exact hpos _ List.mem_cons_self
            · cases h; rfl

theorem Items_isNot (i : Items) (ms : List Node × List Node) (h : i.parts parseTerms = .ok ms) : ∀ n ∈ ms.1, n.isNot = false := by
  cases i with
  | nil => cases h; intro n hn; cases hn
  | andTerm t rest =>
    rw [Items.parts] at h
    cases ht : t.mean parseTerms with
    | error e => rw [ht] at h; cases h
    | ok m =>
      rw [ht] at h
      cases hr : rest.parts parseTerms with
      | error e => rw [hr] at h; cases h
      | ok ms' =>
        rw [hr] at h
        cases h
        intro n hn
        rcases List.mem_append.1 hn with hn | hn
        · rw [Option.mem_toList] at hn
          rw [Option.mem_def.1 hn] at ht
          exact TermE_isNot t n ht
        · exact Items_isNot rest ms' hr n hn
  | andNot t rest =>
    rw [Items.parts] at h
    cases ht : t.mean parseTerms with
    | error e => rw [ht] at h; cases h
    | ok m =>
      rw [ht] at h
      cases hr : rest.parts parseTerms with
      | error e => rw [hr] at h; cases h
      | ok ms' =>
        rw [hr] at h
        cases h
        exact Items_isNot rest ms' hr
  | not t rest =>
    rw [Items.parts] at h
    cases ht : t.mean parseTerms with
    | error e => rw [ht] at h; cases h
    | ok m =>
      rw [ht] at h
      cases hr : rest.parts parseTerms with
      | error e => rw [hr] at h; cases h
      | ok ms' =>
        rw [hr] at h
        cases h
        exact Items_isNot rest ms' hr

theorem TermE_isNot (t : TermE) (n : Node) (h : t.mean parseTerms = .ok (some n)) : n.isNot = false := by
  cases t with
  | paren o =>
    rw [TermE.mean] at h
    cases ho : o.parts parseTerms with
    | error e => rw [ho] at h; cases h
    | ok l =>
      rw [ho] at h
      simp only [bind, Except.bind, pure, Except.pure, Except.ok.injEq] at h
      exact join_not_isNot (fun _ => rfl) (OrE_isNot o l ho) h
  | atoms w ws => exact atomsMean_isNot h

end

/-- what may follow an AndExpr or OrExpr -/
def Stop (t : Tok) : Prop := NotAtom t ∧ t ≠ .and ∧ t ≠ .not

theorem Items_head (i : Items) (t : Tok) (rest : List Tok) (ht : Stop t) :
    ∃ t' l, i.flat ++ t :: rest = t' :: l ∧ NotAtom t' := by
  cases i with
  | nil => exact ⟨t, rest, by rw [Items.flat]; rfl, ht.1⟩
  | andTerm x r => exact ⟨.and, _, by rw [Items.flat]; rfl, by intro w; simp⟩
  | andNot x r => exact ⟨.and, _, by rw [Items.flat]; rfl, by intro w; simp⟩
  | not x r => exact ⟨.not, _, by rw [Items.flat]; rfl, by intro w; simp⟩

theorem notAtom_and : NotAtom .and := by intro w; simp
theorem notAtom_or : NotAtom .or := by intro w; simp
theorem notAtom_not : NotAtom .not := by intro w; simp
theorem notAtom_lparen : NotAtom .lparen := by intro w; simp
theorem notAtom_rparen : NotAtom .rparen := by intro w; simp
theorem notAtom_eof : NotAtom .eof := by intro w; simp

theorem nonEmpty_left {a b : List Tok} (h : NonEmptyAtoms (a ++ b)) : NonEmptyAtoms a :=
  fun w hw => h w (List.mem_append_left _ hw)
theorem nonEmpty_right {a b : List Tok} (h : NonEmptyAtoms (a ++ b)) : NonEmptyAtoms b :=
  fun w hw => h w (List.mem_append_right _ hw)
theorem nonEmpty_tail {t : Tok} {b : List Tok} (h : NonEmptyAtoms (t :: b)) : NonEmptyAtoms b :=
  fun w hw => h w (List.mem_cons_of_mem _ hw)

theorem fuel_succ {n fuel : Nat} (h : n + 1 ≤ fuel) : ∃ k, fuel = k + 1 ∧ n ≤ k := ⟨fuel - 1, by omega, by omega⟩

theorem fuel_pos {fuel : Nat} (h : 1 ≤ fuel) : ∃ k, fuel = k + 1 := ⟨fuel - 1, by omega⟩

/-- the first token of a term -/
theorem TermE_head (x : TermE) : ∃ t' l, x.flat = t' :: l ∧ t' ≠ .not := by
  cases x with
  | paren o => exact ⟨.lparen, _, by rw [TermE.flat]; rfl, by simp⟩
  | atoms w ws => exact ⟨.atom w, _, by rw [TermE.flat], by simp⟩

mutual

theorem parseOr_complete (o : OrE) (fuel : Nat) (st : St) (t : Tok) (rest : List Tok)
    (h : toks.drop st.index = o.flat ++ t :: rest) (ht : Stop t) (hor : t ≠ .or) (hne : NonEmptyAtoms o.flat)
    (hf : 5 * (o.flat.length + rest.length + 1) + 4 ≤ fuel) :
    parseOr parseTerms toks fuel st = ret (o.mean parseTerms) (adv parseTerms st o.flat) := by
  obtain ⟨n, rfl, hf⟩ := fuel_succ hf
  rw [parseOr]
  cases o with
  | one a =>
    rw [OrE.flat] at h hf hne ⊢
    rw [parseAnd_complete a n st t rest h ht hne (by omega)]
    unfold OrE.mean
    rw [OrE.parts]
    cases ha : a.mean parseTerms with
    | error e => rfl
    | ok m =>
      simp only [ret, lift, Except.map, bind, Except.bind, pure, Except.pure]
      obtain ⟨n, rfl⟩ := fuel_pos (fuel := n) (by omega)
      rw [orLoop, check_no (drop_adv h) hor]
      simp only [bind, Except.bind, pure, Except.pure, Bool.false_eq_true, if_false]
      rw [orTree_eq]
      cases m <;> rfl
  | more a r =>
    rw [OrE.flat, List.append_assoc] at h
    rw [OrE.flat] at hf hne ⊢
    simp only [List.length_append, List.length_cons] at hf
    have hlen : (r.flat ++ t :: rest).length = r.flat.length + rest.length + 1 := by simp; omega
    rw [parseAnd_complete a n st .or (r.flat ++ t :: rest) h ⟨notAtom_or, by simp, by simp⟩ (nonEmpty_left hne)
      (by rw [hlen]; omega)]
    unfold OrE.mean
    rw [OrE.parts]
    cases ha : a.mean parseTerms with
    | error e => rfl
    | ok m =>
      simp only [ret, lift, Except.map, bind, Except.bind, pure, Except.pure]
      have hd := drop_adv (parseTerms := parseTerms) h
      have := orLoop_complete r n [m] (adv parseTerms st a.flat) t rest hd ht hor (nonEmpty_tail (nonEmpty_right hne))
        (by omega)
      cases hr : r.parts parseTerms with
      | error e =>
        rw [hr] at this
        simp only at this
        rw [this]
      | ok ms =>
        rw [hr] at this
        obtain ⟨l', e1, e2⟩ := this
        rw [e1]
        simp only
        rw [orTree_eq, e2, adv_adv]
        cases m <;> rfl

theorem orLoop_complete (o : OrE) (fuel : Nat) (l : List (Option Node)) (st : St) (t : Tok) (rest : List Tok)
    (h : toks.drop st.index = .or :: o.flat ++ t :: rest) (ht : Stop t) (hor : t ≠ .or) (hne : NonEmptyAtoms o.flat)
    (hf : 5 * (o.flat.length + rest.length + 1) + 4 ≤ fuel) :
    match o.parts parseTerms with
    | .ok ms => ∃ l', orLoop parseTerms toks fuel l st = .ok (l', adv parseTerms st (.or :: o.flat)) ∧
        l'.filterMap id = l.filterMap id ++ ms
    | .error _ => orLoop parseTerms toks fuel l st = .error .parse := by
  obtain ⟨n, rfl, hf⟩ := fuel_succ hf
  rw [List.cons_append] at h
  rw [orLoop, check_adv (parseTerms := parseTerms) h notAtom_or]
  simp only [bind, Except.bind, if_true]
  have h1 : toks.drop (adv parseTerms st [.or]).index = o.flat ++ t :: rest :=
    drop_adv (parseTerms := parseTerms) (a := [.or]) (by simpa using h)
  cases o with
  | one a =>
    rw [OrE.flat] at h1 hf hne ⊢
    rw [OrE.parts]
    rw [parseAnd_complete a n _ t rest h1 ht hne (by omega)]
    cases ha : a.mean parseTerms with
    | error e => rfl
    | ok m =>
      simp only [ret, lift, Except.map, bind, Except.bind, pure, Except.pure]
      obtain ⟨n, rfl⟩ := fuel_pos (fuel := n) (by omega)
      rw [orLoop, check_no (drop_adv h1) hor]
      simp only [bind, Except.bind, pure, Except.pure, Bool.false_eq_true, if_false]
      refine ⟨l ++ [m], ?_, ?_⟩
      · rw [adv_adv]; rfl
      · rw [List.filterMap_append]; cases m <;> rfl
  | more a r =>
    rw [OrE.flat, List.append_assoc] at h1
    rw [OrE.flat] at hf hne ⊢
    rw [OrE.parts]
    simp only [List.length_append, List.length_cons] at hf
    have hlen : (r.flat ++ t :: rest).length = r.flat.length + rest.length + 1 := by simp; omega
    rw [parseAnd_complete a n _ .or (r.flat ++ t :: rest) h1 ⟨notAtom_or, by simp, by simp⟩ (nonEmpty_left hne)
      (by rw [hlen]; omega)]
    cases ha : a.mean parseTerms with
    | error e => rfl
    | ok m =>
      simp only [ret, lift, Except.map, bind, Except.bind, pure, Except.pure]
      have hd := drop_adv (parseTerms := parseTerms) h1
      have := orLoop_complete r n (l ++ [m]) (adv parseTerms (adv parseTerms st [.or]) a.flat) t rest hd ht hor
        (nonEmpty_tail (nonEmpty_right hne)) (by omega)
      cases hr : r.parts parseTerms with
      | error e =>
        rw [hr] at this
        simpa using this
      | ok ms =>
        rw [hr] at this
        obtain ⟨l', e1, e2⟩ := this
        refine ⟨l', ?_, ?_⟩
        · rw [e1, adv_adv, adv_adv]; rfl
        · rw [e2, List.filterMap_append]; cases m <;> simp

theorem parseAnd_complete (a : AndE) (fuel : Nat) (st : St) (t : Tok) (rest : List Tok)
    (h : toks.drop st.index = a.flat ++ t :: rest) (ht : Stop t) (hne : NonEmptyAtoms a.flat)
    (hf : 5 * (a.flat.length + rest.length + 1) + 3 ≤ fuel) :
    parseAnd parseTerms toks fuel st = ret (a.mean parseTerms) (adv parseTerms st a.flat) := by
  obtain ⟨n, rfl, hf⟩ := fuel_succ hf
  rw [parseAnd]
  cases a with
  | mk x i =>
    rw [AndE.flat, List.append_assoc] at h
    rw [AndE.flat] at hf hne ⊢
    simp only [List.length_append] at hf
    obtain ⟨t', l', e, ht'⟩ := Items_head i t rest ht
    have hlen := congrArg List.length e
    simp only [List.length_append, List.length_cons] at hlen
    rw [parseTerm_complete x n st t' l' (e ▸ h) ht' (nonEmpty_left hne) (by omega)]
    rw [AndE.mean]
    cases hx : x.mean parseTerms with
    | error e => rfl
    | ok m =>
      simp only [ret, lift, Except.map, bind, Except.bind, pure, Except.pure]
      have := andLoop_complete i n m.toList [] (adv parseTerms st x.flat) t rest (drop_adv h) ht (nonEmpty_right hne) (by omega)
      rw [this]
      cases hi : i.parts parseTerms with
      | error e => rfl
      | ok ms =>
        simp only [lift, Except.map]
        rw [andTree_eq, adv_adv]
        rfl

theorem andLoop_complete (i : Items) (fuel : Nat) (l nots : List Node) (st : St) (t : Tok) (rest : List Tok)
    (h : toks.drop st.index = i.flat ++ t :: rest) (ht : Stop t) (hne : NonEmptyAtoms i.flat)
    (hf : 5 * (i.flat.length + rest.length + 1) + 2 ≤ fuel) :
    andLoop parseTerms toks fuel l nots st =
      (lift (i.parts parseTerms)).map (fun ms => (l ++ ms.1, nots ++ ms.2.map .not, adv parseTerms st i.flat)) := by
  obtain ⟨n, rfl, hf⟩ := fuel_succ hf
  rw [andLoop]
  cases i with
  | nil =>
    rw [Items.flat, List.nil_append] at h
    rw [check_no h ht.2.1]
    simp only [bind, Except.bind, Bool.false_eq_true, if_false]
    rw [check_no h ht.2.2]
    simp only [Bool.false_eq_true, if_false, Items.parts, Items.flat, lift, Except.map, adv_nil, List.append_nil, List.map_nil]
    rfl
  | andTerm x r =>
    rw [Items.flat, List.cons_append, List.cons_append, List.append_assoc] at h
    rw [Items.flat] at hf hne ⊢
    simp only [List.length_append, List.length_cons, List.cons_append] at hf hne
    rw [check_adv (parseTerms := parseTerms) h notAtom_and]
    simp only [bind, Except.bind, if_true]
    have h1 : toks.drop (adv parseTerms st [.and]).index = x.flat ++ (r.flat ++ t :: rest) :=
      drop_adv (parseTerms := parseTerms) (a := [.and]) (by simpa using h)
    obtain ⟨t', l', e, ht'⟩ := Items_head r t rest ht
    have hlen := congrArg List.length e
    simp only [List.length_append, List.length_cons] at hlen
    obtain ⟨n, rfl⟩ := fuel_pos (fuel := n) (by omega)
    rw [parseNot]
    obtain ⟨t'', l'', e'', hn''⟩ := TermE_head x
    rw [check_no (by rw [h1, e'']; rfl) hn'']
    simp only [bind, Except.bind, Bool.false_eq_true, if_false]
    rw [parseTerm_complete x n _ t' l' (e ▸ h1) ht' (nonEmpty_left (nonEmpty_tail hne)) (by omega)]
    rw [Items.parts]
    cases hx : x.mean parseTerms with
    | error e => rfl
    | ok m =>
      have hrec : ∀ l, andLoop parseTerms toks (n + 1) l nots (adv parseTerms (adv parseTerms st [.and]) x.flat) =
          (lift (r.parts parseTerms)).map (fun ms => (l ++ ms.1, nots ++ ms.2.map .not,
            adv parseTerms st (.and :: x.flat ++ r.flat))) := by
        intro l
        rw [andLoop_complete r (n + 1) l nots _ t rest (drop_adv h1) ht (nonEmpty_right (nonEmpty_tail hne)) (by omega)]
        rw [adv_adv, adv_adv]; rfl
      simp only [ret, lift, Except.map]
      cases m with
      | none =>
        simp only
        rw [hrec]
        cases hr : r.parts parseTerms <;> rfl
      | some m =>
        simp only [TermE_isNot x m hx, Bool.false_eq_true, if_false]
        rw [hrec]
        cases hr : r.parts parseTerms with
        | error e => rfl
        | ok ms => simp [lift, Except.map, bind, Except.bind, pure, Except.pure]
  | andNot x r =>
    rw [Items.flat, List.cons_append, List.cons_append, List.cons_append, List.cons_append, List.append_assoc] at h
    rw [Items.flat] at hf hne ⊢
    simp only [List.length_append, List.length_cons, List.cons_append] at hf hne
    rw [check_adv (parseTerms := parseTerms) h notAtom_and]
    simp only [bind, Except.bind, if_true]
    have h0 : toks.drop (adv parseTerms st [.and]).index = .not :: (x.flat ++ (r.flat ++ t :: rest)) :=
      drop_adv (parseTerms := parseTerms) (a := [.and]) (by simpa using h)
    have h1 : toks.drop (adv parseTerms (adv parseTerms st [.and]) [.not]).index = x.flat ++ (r.flat ++ t :: rest) :=
      drop_adv (parseTerms := parseTerms) (a := [.not]) (by simpa using h0)
    obtain ⟨t', l', e, ht'⟩ := Items_head r t rest ht
    have hlen := congrArg List.length e
    simp only [List.length_append, List.length_cons] at hlen
    obtain ⟨n, rfl⟩ := fuel_pos (fuel := n) (by omega)
    rw [parseNot]
    rw [check_adv (parseTerms := parseTerms) h0 notAtom_not]
    simp only [bind, Except.bind, if_true]
    rw [parseTerm_complete x n _ t' l' (e ▸ h1) ht' (nonEmpty_left (nonEmpty_tail (nonEmpty_tail hne))) (by omega)]
    rw [Items.parts]
    cases hx : x.mean parseTerms with
    | error e => rfl
    | ok m =>
      have hrec : ∀ nots, andLoop parseTerms toks (n + 1) l nots
          (adv parseTerms (adv parseTerms (adv parseTerms st [.and]) [.not]) x.flat) =
          (lift (r.parts parseTerms)).map (fun ms => (l ++ ms.1, nots ++ ms.2.map .not,
            adv parseTerms st (.and :: .not :: x.flat ++ r.flat))) := by
        intro nots
        rw [andLoop_complete r (n + 1) l nots _ t rest (drop_adv h1) ht (nonEmpty_right (nonEmpty_tail (nonEmpty_tail hne)))
          (by omega)]
        rw [adv_adv, adv_adv, adv_adv]; rfl
      simp only [ret, lift, Except.map]
      cases m with
      | none =>
        simp only [Option.map_none, pure, Except.pure]
        rw [hrec]
        cases hr : r.parts parseTerms <;> rfl
      | some m =>
        simp only [Option.map_some, pure, Except.pure, isNot_not, if_true]
        rw [hrec]
        cases hr : r.parts parseTerms with
        | error e => rfl
        | ok ms => simp [lift, Except.map, bind, Except.bind]
  | not x r =>
    rw [Items.flat, List.cons_append, List.cons_append, List.append_assoc] at h
    rw [Items.flat] at hf hne ⊢
    simp only [List.length_append, List.length_cons, List.cons_append] at hf hne
    rw [check_no h (by simp)]
    simp only [bind, Except.bind, Bool.false_eq_true, if_false]
    rw [check_adv (parseTerms := parseTerms) h notAtom_not]
    simp only [if_true]
    have h1 : toks.drop (adv parseTerms st [.not]).index = x.flat ++ (r.flat ++ t :: rest) :=
      drop_adv (parseTerms := parseTerms) (a := [.not]) (by simpa using h)
    obtain ⟨t', l', e, ht'⟩ := Items_head r t rest ht
    have hlen := congrArg List.length e
    simp only [List.length_append, List.length_cons] at hlen
    rw [parseTerm_complete x n _ t' l' (e ▸ h1) ht' (nonEmpty_left (nonEmpty_tail hne)) (by omega)]
    rw [Items.parts]
    cases hx : x.mean parseTerms with
    | error e => rfl
    | ok m =>
      have hrec : ∀ nots, andLoop parseTerms toks n l nots (adv parseTerms (adv parseTerms st [.not]) x.flat) =
          (lift (r.parts parseTerms)).map (fun ms => (l ++ ms.1, nots ++ ms.2.map .not,
            adv parseTerms st (.not :: x.flat ++ r.flat))) := by
        intro nots
        rw [andLoop_complete r n l nots _ t rest (drop_adv h1) ht (nonEmpty_right (nonEmpty_tail hne)) (by omega)]
        rw [adv_adv, adv_adv]; rfl
      simp only [ret, lift, Except.map]
      cases m with
      | none =>
        simp only
        rw [hrec]
        cases hr : r.parts parseTerms <;> rfl
      | some m =>
        simp only
        rw [hrec]
        cases hr : r.parts parseTerms with
        | error e => rfl
        | ok ms => simp [lift, Except.map, bind, Except.bind, pure, Except.pure]

theorem parseTerm_complete (x : TermE) (fuel : Nat) (st : St) (t : Tok) (rest : List Tok)
    (h : toks.drop st.index = x.flat ++ t :: rest) (ht : NotAtom t) (hne : NonEmptyAtoms x.flat)
    (hf : 5 * (x.flat.length + rest.length + 1) + 1 ≤ fuel) :
    parseTerm parseTerms toks fuel st = ret (x.mean parseTerms) (adv parseTerms st x.flat) := by
  obtain ⟨n, rfl, hf⟩ := fuel_succ hf
  rw [parseTerm]
  cases x with
  | paren o =>
    rw [TermE.flat, List.cons_append, List.cons_append, List.append_assoc] at h
    rw [TermE.flat] at hf hne ⊢
    simp only [List.length_append, List.length_cons, List.cons_append, List.length_nil] at hf hne
    rw [check_adv (parseTerms := parseTerms) h notAtom_lparen]
    simp only [bind, Except.bind, if_true]
    have h1 : toks.drop (adv parseTerms st [.lparen]).index = o.flat ++ .rparen :: (t :: rest) :=
      drop_adv (parseTerms := parseTerms) (a := [.lparen]) (by simpa using h)
    rw [parseOr_complete o n _ .rparen (t :: rest) h1 ⟨notAtom_rparen, by simp, by simp⟩ (by simp)
      (nonEmpty_left (nonEmpty_tail hne)) (by simp only [List.length_cons]; omega)]
    rw [TermE.mean]
    unfold OrE.mean
    cases ho : o.parts parseTerms with
    | error e => rfl
    | ok ms =>
      simp only [ret, lift, Except.map, bind, Except.bind, pure, Except.pure]
      rw [require_adv (parseTerms := parseTerms) (drop_adv h1) notAtom_rparen, adv_adv, adv_adv]
      rfl
  | atoms w ws =>
    rw [TermE.flat, List.cons_append] at h
    rw [TermE.flat] at hf hne ⊢
    simp only [List.length_cons, List.length_map] at hf
    rw [check_no h (by simp)]
    simp only [bind, Except.bind, Bool.false_eq_true, if_false]
    rw [parseAtom_eq h (hne w List.mem_cons_self)]
    simp only
    rw [atomLoop_eq (ws := ws) (t := t) (rest := rest) (drop_succ h) ht
      (fun v hv => hne v (List.mem_cons_of_mem _ (List.mem_map_of_mem hv))) (by omega)]
    simp only
    have e := termTree_eq (parseTerms := parseTerms) (w :: ws)
    rw [List.map_cons] at e
    rw [List.singleton_append, e, TermE.mean]
    have hst : ({ index := st.index + 1 + ws.length, ignored := st.ignored ++ ign parseTerms [w] ++ ign parseTerms ws } : St) =
        adv parseTerms st (.atom w :: ws.map .atom) := by
      unfold adv ignT
      have e2 : atomsOf (Tok.atom w :: ws.map Tok.atom) = w :: ws := atomsOf_atoms (w :: ws)
      have e3 : ign parseTerms (w :: ws) = ign parseTerms [w] ++ ign parseTerms ws := ign_append [w] ws
      rw [e2, e3]
      simp
      omega
    cases ha : atomsMean parseTerms (w :: ws) with
    | error e => rfl
    | ok m =>
      simp only [lift, ret, Except.map, pure, Except.pure]
      rw [hst]

end

/-! ### soundness and totality: a parser method fails with ParseError, or has read a phrase of the grammar -/

/-- the tokens from position `i` on are `u` and the end marker -/
def Rem (toks : List Tok) (i : Nat) (u : List Tok) : Prop := toks.drop i = u ++ [.eof] ∧ .eof ∉ u

theorem Rem.tail {i : Nat} {t : Tok} {u : List Tok} (h : Rem toks i (t :: u)) : Rem toks (i + 1) u :=
  ⟨drop_succ h.1, fun hc => h.2 (List.mem_cons_of_mem _ hc)⟩

theorem check_sound {i : Nat} {u : List Tok} {st : St} (hi : st.index = i) (h : Rem toks i u) (t : Tok) (ht : t ≠ .eof) :
    (∃ u', u = t :: u' ∧ check toks t st = .ok (true, { st with index := i + 1 }) ∧ Rem toks (i + 1) u') ∨
      check toks t st = .ok (false, st) := by
  subst hi
  rcases u with _ | ⟨t', u⟩
  · exact Or.inr (check_no (l := []) h.1 (fun e => ht e.symm))
  · by_cases e : t' = t
    · subst e
      exact Or.inl ⟨u, rfl, check_yes h.1, h.tail⟩
    · exact Or.inr (check_no h.1 e)

theorem atomLoop_sound (fuel : Nat) (l : List (Option Node)) (st : St) (u : List Tok) (h : Rem toks st.index u)
    (hne : NonEmptyAtoms u) (hf : u.length + 1 ≤ fuel) :
    ∃ l' st' u', ∃ ws : List Word, atomLoop parseTerms toks fuel l st = .ok (l', st') ∧ u = ws.map .atom ++ u' ∧ Rem toks st'.index u' := by
  induction fuel generalizing l st u with
  | zero => omega
  | succ n ih =>
    unfold atomLoop
    by_cases hu : ∃ w u', u = .atom w :: u'
    · obtain ⟨w, u', rfl⟩ := hu
      rw [peek_yes h.1]
      simp only [bind, Except.bind, if_true]
      rw [parseAtom_eq h.1 (hne w List.mem_cons_self)]
      simp only
      obtain ⟨l', st', u'', ws, e, rfl, hr⟩ := ih (l ++ [nodeOf parseTerms w])
        { index := st.index + 1, ignored := st.ignored ++ ign parseTerms [w] } u' h.tail (nonEmpty_tail hne)
        (by simp at hf; omega)
      exact ⟨l', st', u'', w :: ws, e, rfl, hr⟩
    · have : peekAtom toks st = .ok false := by
        rcases u with _ | ⟨t, u⟩
        · exact peek_no (l := []) h.1 notAtom_eof
        · exact peek_no h.1 (fun w e => hu ⟨w, u, by rw [e]⟩)
      rw [this]
      exact ⟨l, st, u, [], rfl, rfl, h⟩

theorem parseAtom_sound (st : St) (u : List Tok) (h : Rem toks st.index u) (hne : NonEmptyAtoms u) :
    parseAtom parseTerms toks st = .error .parse ∨
      ∃ m st' w u', parseAtom parseTerms toks st = .ok (m, st') ∧ u = .atom w :: u' ∧ Rem toks st'.index u' := by
  by_cases hu : ∃ w u', u = .atom w :: u'
  · obtain ⟨w, u', rfl⟩ := hu
    exact Or.inr ⟨_, _, w, u', parseAtom_eq h.1 (hne w List.mem_cons_self), rfl, h.tail⟩
  · left
    unfold parseAtom getAtom
    rcases u with _ | ⟨t, u⟩
    · rw [getElem?_of_drop (l := []) h.1]; rfl
    · rw [getElem?_of_drop h.1]
      cases t with
      | atom w => exact absurd ⟨w, u, rfl⟩ hu
      | _ => rfl

theorem termTree_sound (l : List (Option Node)) : termTree l = .error .parse ∨ ∃ m, termTree l = .ok m := by
  unfold termTree
  dsimp only
  split
  · exact Or.inr ⟨_, rfl⟩
  · split
    · exact Or.inr ⟨_, rfl⟩
    · split
      · exact Or.inl rfl
      · split <;> exact Or.inr ⟨_, rfl⟩

mutual

theorem parseOr_sound (fuel : Nat) (st : St) (u : List Tok) (h : Rem toks st.index u) (hne : NonEmptyAtoms u)
    (hf : 5 * u.length + 4 ≤ fuel) :
    parseOr parseTerms toks fuel st = .error .parse ∨
      ∃ m st' u', ∃ o : OrE, parseOr parseTerms toks fuel st = .ok (m, st') ∧ u = o.flat ++ u' ∧ Rem toks st'.index u' := by
  match fuel with
  | 0 => omega
  | n + 1 =>
    rw [parseOr]
    rcases parseAnd_sound n st u h hne (by omega) with e | ⟨m, st1, u1, a, e, rfl, h1⟩
    · left; rw [e]; rfl
    · rw [e]
      simp only [bind, Except.bind]
      rcases orLoop_sound n [m] st1 u1 h1 (nonEmpty_right hne) (by simp at hf; omega) with e | ⟨l', st2, u2, e, hr, h2⟩
      · left; rw [e]
      · right
        rw [e]
        rcases hr with rfl | ⟨o, rfl⟩
        · exact ⟨_, st2, u1, .one a, rfl, by rw [OrE.flat], h2⟩
        · exact ⟨_, st2, u2, .more a o, rfl, by rw [OrE.flat]; simp, h2⟩
termination_by structural fuel

theorem orLoop_sound (fuel : Nat) (l : List (Option Node)) (st : St) (u : List Tok) (h : Rem toks st.index u) (hne : NonEmptyAtoms u)
    (hf : 5 * u.length + 3 ≤ fuel) :
    orLoop parseTerms toks fuel l st = .error .parse ∨
      ∃ l' st' u', orLoop parseTerms toks fuel l st = .ok (l', st') ∧ (u = u' ∨ ∃ o : OrE, u = .or :: o.flat ++ u') ∧
        Rem toks st'.index u' := by
  match fuel with
  | 0 => omega
  | n + 1 =>
    rw [orLoop]
    rcases check_sound rfl h .or (by simp) with ⟨u0, rfl, e, h0⟩ | e
    · rw [e]
      simp only [bind, Except.bind, if_true]
      simp only [List.length_cons] at hf
      rcases parseAnd_sound n { st with index := st.index + 1 } u0 h0 (nonEmpty_tail hne) (by omega) with e | ⟨m, st1, u1, a, e, rfl, h1⟩
      · left; rw [e]
      · rw [e]
        simp only
        simp only [List.length_append] at hf
        rcases orLoop_sound n (l ++ [m]) st1 u1 h1 (nonEmpty_right (nonEmpty_tail hne)) (by omega) with e | ⟨l', st2, u2, e, hr, h2⟩
        · exact Or.inl e
        · right
          refine ⟨l', st2, u2, e, Or.inr ?_, h2⟩
          rcases hr with rfl | ⟨o, rfl⟩
          · exact ⟨.one a, by rw [OrE.flat]; rfl⟩
          · exact ⟨.more a o, by rw [OrE.flat]; simp⟩
    · rw [e]
      exact Or.inr ⟨l, st, u, rfl, Or.inl rfl, h⟩
termination_by structural fuel

theorem parseAnd_sound (fuel : Nat) (st : St) (u : List Tok) (h : Rem toks st.index u) (hne : NonEmptyAtoms u)
    (hf : 5 * u.length + 3 ≤ fuel) :
    parseAnd parseTerms toks fuel st = .error .parse ∨
      ∃ m st' u', ∃ a : AndE, parseAnd parseTerms toks fuel st = .ok (m, st') ∧ u = a.flat ++ u' ∧ Rem toks st'.index u' := by
  match fuel with
  | 0 => omega
  | n + 1 =>
    rw [parseAnd]
    rcases parseTerm_sound n st u h hne (by omega) with e | ⟨m, st1, u1, x, e, rfl, h1⟩
    · left; rw [e]; rfl
    · rw [e]
      simp only [bind, Except.bind]
      simp only [List.length_append] at hf
      rcases andLoop_sound n m.toList [] st1 u1 h1 (nonEmpty_right hne) (by omega) with e | ⟨l', n', st2, u2, i, e, rfl, h2⟩
      · left; rw [e]
      · right
        rw [e]
        exact ⟨_, st2, u2, .mk x i, rfl, by rw [AndE.flat]; simp, h2⟩
termination_by structural fuel

theorem andLoop_sound (fuel : Nat) (l nots : List Node) (st : St) (u : List Tok) (h : Rem toks st.index u) (hne : NonEmptyAtoms u)
    (hf : 5 * u.length + 2 ≤ fuel) :
    andLoop parseTerms toks fuel l nots st = .error .parse ∨
      ∃ l' n' st' u', ∃ i : Items, andLoop parseTerms toks fuel l nots st = .ok (l', n', st') ∧ u = i.flat ++ u' ∧
        Rem toks st'.index u' := by
  match fuel with
  | 0 => omega
  | n + 1 =>
    rw [andLoop]
    rcases check_sound rfl h .and (by simp) with ⟨u0, rfl, e, h0⟩ | e
    · rw [e]
      simp only [bind, Except.bind, if_true]
      simp only [List.length_cons] at hf
      rcases parseNot_sound n { st with index := st.index + 1 } u0 h0 (nonEmpty_tail hne) (by omega) with e | ⟨m, st1, u1, x, e, hu, h1⟩
      · left; rw [e]
      · rw [e]
        simp only
        have hne1 : NonEmptyAtoms u1 := by
          rcases hu with rfl | rfl
          · exact nonEmpty_right (nonEmpty_tail hne)
          · exact nonEmpty_right (nonEmpty_tail (nonEmpty_tail hne))
        have hlen : u1.length ≤ u0.length := by
          rcases hu with rfl | rfl <;> simp <;> omega
        have hrec : ∀ l nots, andLoop parseTerms toks n l nots st1 = .error .parse ∨
            ∃ l' n' st' u', ∃ i : Items, andLoop parseTerms toks n l nots st1 = .ok (l', n', st') ∧ .and :: u0 = i.flat ++ u' ∧
              Rem toks st'.index u' := by
          intro l nots
          rcases andLoop_sound n l nots st1 u1 h1 hne1 (by omega) with e | ⟨l', n', st2, u2, i, e, rfl, h2⟩
          · exact Or.inl e
          · right
            rcases hu with rfl | rfl
            · exact ⟨l', n', st2, u2, .andTerm x i, e, by rw [Items.flat]; simp, h2⟩
            · exact ⟨l', n', st2, u2, .andNot x i, e, by rw [Items.flat]; simp, h2⟩
        cases m with
        | none => exact hrec l nots
        | some m =>
          dsimp only
          split
          · exact hrec _ _
          · exact hrec _ _
    · rw [e]
      simp only [bind, Except.bind, Bool.false_eq_true, if_false]
      rcases check_sound rfl h .not (by simp) with ⟨u0, rfl, e, h0⟩ | e
      · rw [e]
        simp only [if_true]
        simp only [List.length_cons] at hf
        rcases parseTerm_sound n { st with index := st.index + 1 } u0 h0 (nonEmpty_tail hne) (by omega) with e | ⟨m, st1, u1, x, e, rfl, h1⟩
        · left; rw [e]
        · rw [e]
          simp only [List.length_append] at hf ⊢
          have hrec : ∀ l nots, andLoop parseTerms toks n l nots st1 = .error .parse ∨
              ∃ l' n' st' u', ∃ i : Items, andLoop parseTerms toks n l nots st1 = .ok (l', n', st') ∧
                .not :: (x.flat ++ u1) = i.flat ++ u' ∧ Rem toks st'.index u' := by
            intro l nots
            rcases andLoop_sound n l nots st1 u1 h1 (nonEmpty_right (nonEmpty_tail hne)) (by omega) with
              e | ⟨l', n', st2, u2, i, e, rfl, h2⟩
            · exact Or.inl e
            · exact Or.inr ⟨l', n', st2, u2, .not x i, e, by rw [Items.flat]; simp, h2⟩
          cases m with
          | none => exact hrec l nots
          | some m => exact hrec _ _
      · rw [e]
        simp only [Bool.false_eq_true, if_false]
        exact Or.inr ⟨l, nots, st, u, .nil, rfl, by rw [Items.flat]; rfl, h⟩
termination_by structural fuel

theorem parseNot_sound (fuel : Nat) (st : St) (u : List Tok) (h : Rem toks st.index u) (hne : NonEmptyAtoms u)
    (hf : 5 * u.length + 2 ≤ fuel) :
    parseNot parseTerms toks fuel st = .error .parse ∨
      ∃ m st' u', ∃ x : TermE, parseNot parseTerms toks fuel st = .ok (m, st') ∧ (u = x.flat ++ u' ∨ u = .not :: x.flat ++ u') ∧
        Rem toks st'.index u' := by
  match fuel with
  | 0 => omega
  | n + 1 =>
    rw [parseNot]
    rcases check_sound rfl h .not (by simp) with ⟨u0, rfl, e, h0⟩ | e
    · rw [e]
      simp only [bind, Except.bind, if_true]
      simp only [List.length_cons] at hf
      rcases parseTerm_sound n { st with index := st.index + 1 } u0 h0 (nonEmpty_tail hne) (by omega) with e | ⟨m, st1, u1, x, e, rfl, h1⟩
      · left; rw [e]
      · right
        rw [e]
        exact ⟨_, st1, u1, x, rfl, Or.inr (by simp), h1⟩
    · rw [e]
      simp only [bind, Except.bind, Bool.false_eq_true, if_false]
      rcases parseTerm_sound n st u h hne (by omega) with e | ⟨m, st1, u1, x, e, hu, h1⟩
      · exact Or.inl e
      · exact Or.inr ⟨m, st1, u1, x, e, Or.inl hu, h1⟩
termination_by structural fuel

theorem parseTerm_sound (fuel : Nat) (st : St) (u : List Tok) (h : Rem toks st.index u) (hne : NonEmptyAtoms u)
    (hf : 5 * u.length + 1 ≤ fuel) :
    parseTerm parseTerms toks fuel st = .error .parse ∨
      ∃ m st' u', ∃ x : TermE, parseTerm parseTerms toks fuel st = .ok (m, st') ∧ u = x.flat ++ u' ∧ Rem toks st'.index u' := by
  match fuel with
  | 0 => omega
  | n + 1 =>
    rw [parseTerm]
    rcases check_sound rfl h .lparen (by simp) with ⟨u0, rfl, e, h0⟩ | e
    · rw [e]
      simp only [bind, Except.bind, if_true]
      simp only [List.length_cons] at hf
      rcases parseOr_sound n { st with index := st.index + 1 } u0 h0 (nonEmpty_tail hne) (by omega) with e | ⟨m, st1, u1, o, e, rfl, h1⟩
      · left; rw [e]
      · rw [e]
        simp only
        unfold require
        rcases check_sound rfl h1 .rparen (by simp) with ⟨u2, rfl, e, h2⟩ | e
        · right
          rw [e]
          exact ⟨_, _, u2, .paren o, rfl, by rw [TermE.flat]; simp, h2⟩
        · left; rw [e]; rfl
    · rw [e]
      simp only [bind, Except.bind, Bool.false_eq_true, if_false]
      rcases parseAtom_sound (parseTerms := parseTerms) st u h hne with e | ⟨m, st1, w, u1, e, rfl, h1⟩
      · left; rw [e]
      · rw [e]
        simp only
        simp only [List.length_cons] at hf
        obtain ⟨l', st2, u2, ws, e, rfl, h2⟩ := atomLoop_sound (parseTerms := parseTerms) n [m] st1 u1 h1 (nonEmpty_tail hne) (by omega)
        rw [e]
        simp only
        rcases termTree_sound l' with e | ⟨m', e⟩
        · left; rw [e]
        · right
          rw [e]
          exact ⟨m', st2, u2, .atoms w ws, rfl, by rw [TermE.flat]; simp, h2⟩
termination_by structural fuel

end

/-- no phrase of the grammar contains the end marker -/
theorem parse_cases (ts : List Tok) (heof : .eof ∉ ts) (hne : NonEmptyAtoms ts) :
    (∃ o : OrE, o.flat = ts ∧ parseTokens parseTerms (ts ++ [.eof]) =
      match o.mean parseTerms with
      | .ok (some t) => .ok (t, ignT parseTerms ts)
      | _ => .error .parse) ∨
    ((∀ o : OrE, o.flat ≠ ts) ∧ parseTokens parseTerms (ts ++ [.eof]) = .error .parse) := by
  by_cases ho : ∃ o : OrE, o.flat = ts
  · left
    obtain ⟨o, ho⟩ := ho
    refine ⟨o, ho, ?_⟩
    unfold parseTokens
    rw [parseOr_complete (toks := ts ++ [Tok.eof]) o (5 * (ts ++ [Tok.eof]).length + 5) { index := 0, ignored := [] } .eof [] (by simp [ho])
      ⟨notAtom_eof, by simp, by simp⟩ (by simp) (ho ▸ hne) (by simp [ho] <;> omega)]
    cases hm : o.mean parseTerms with
    | error e => rfl
    | ok m =>
      simp only [ret, lift, Except.map, bind, Except.bind]
      rw [require_adv (parseTerms := parseTerms) (l := []) (drop_adv (by simp [ho])) notAtom_eof]
      cases m with
      | none => rfl
      | some m => simp [adv, ho, pure, Except.pure]
  · right
    push Not at ho
    refine ⟨ho, ?_⟩
    unfold parseTokens
    rcases parseOr_sound (parseTerms := parseTerms) (toks := ts ++ [.eof]) (5 * (ts ++ [Tok.eof]).length + 5)
      { index := 0, ignored := [] } ts ⟨by simp, heof⟩ hne (by simp; omega) with e | ⟨m, st, u, o, e, hu, h⟩
    · rw [e]; rfl
    · rw [e]
      simp only [bind, Except.bind]
      rcases u with _ | ⟨t, u⟩
      · exact absurd (by simpa using hu.symm) (ho o)
      · rw [require_no h.1 (fun e => h.2 (by rw [e]; exact List.mem_cons_self))]

end parser
end QueryParser
end Verif
