import Verif.Spec.Stack
import Mathlib.Tactic.Linarith

/-! Lemmas for C83: the functions on a limited stack do what the others do -/

set_option autoImplicit false

namespace Verif

open QueryParser SetOps Spec

/-! ## Simulation -/

/-- the same outcome, without `RecursionError`; and what the values have in common -/
def Sim {E X : Type} (P : X → Prop) (x : Except E X) (y : Except (Deep E) X) : Prop :=
  y = x.mapError .other ∧ ∀ a, x = .ok a → P a

theorem Sim.bind {E X Y : Type} {P : X → Prop} {Q : Y → Prop} {x : Except E X} {y : Except (Deep E) X} {f : X → Except E Y}
    {g : X → Except (Deep E) Y} (h : Sim P x y) (h' : ∀ a, P a → Sim Q (f a) (g a)) : Sim Q (x >>= f) (y >>= g) := by
  obtain ⟨rfl, h2⟩ := h
  cases x with
  | error e => exact ⟨rfl, fun a ha => by cases ha⟩
  | ok a => exact h' a (h2 a rfl)

theorem Sim.ok {E X : Type} {P : X → Prop} {a : X} (h : P a) : Sim P (.ok a : Except E X) (.ok a) :=
  ⟨rfl, fun b hb => by cases hb; exact h⟩

theorem Sim.pure {E X : Type} {P : X → Prop} {a : X} (h : P a) : Sim P (pure a : Except E X) (pure a) := Sim.ok h

theorem Sim.error {E X : Type} {P : X → Prop} (e : E) : Sim P (.error e : Except E X) (.error (.other e)) :=
  ⟨rfl, fun b hb => by cases hb⟩

theorem Sim.within {E X : Type} {P : X → Prop} {x : Except E X} {need n : Nat} (hn : need ≤ n) (h : ∀ a, x = .ok a → P a) :
    Sim P x (within need n x) := by
  refine ⟨?_, h⟩
  unfold Verif.within
  rw [if_neg (Nat.not_lt.2 hn)]

theorem Sim.mapError {E X : Type} {P : X → Prop} {x : Except E X} (h : ∀ a, x = .ok a → P a) : Sim P x (x.mapError .other) :=
  ⟨rfl, h⟩

theorem Sim.mono {E X : Type} {P Q : X → Prop} {x : Except E X} {y : Except (Deep E) X} (h : Sim P x y) (h' : ∀ a, P a → Q a) :
    Sim Q x y := ⟨h.1, fun a ha => h' a (h.2 a ha)⟩

/-! ## Nesting of trees -/

namespace Node

mutual

/-- frames that executing a node needs, without those of the index and the set operations -/
def frames : Node → Nat
  | .atom _ => 1
  | .phrase _ => 1
  | .glob _ => 1
  | .not n => n.frames
  | .and l => framesAll l + 1
  | .or l => framesAll l + 1

def framesAll : List Node → Nat
  | [] => 0
  | n :: rest => max n.frames (framesAll rest)

end

theorem framesAll_le {l : List Node} {b : Nat} (h : ∀ t ∈ l, t.frames ≤ b) : framesAll l ≤ b := by
  induction l with
  | nil => rw [framesAll]; exact Nat.zero_le _
  | cons t l ih =>
    rw [framesAll]
    exact max_le (h t (by simp)) (ih (fun t ht => h t (by simp [ht])))

mutual

theorem termsD_eq : ∀ (n : Nat) (t : Node), t.frames ≤ n → termsD n t = .ok t.terms
  | 0, .atom _, h => by rw [frames] at h; omega
  | 0, .phrase _, h => by rw [frames] at h; omega
  | 0, .glob _, h => by rw [frames] at h; omega
  | 0, .not t, h => by
    rw [frames] at h
    have := frames_pos t
    omega
  | 0, .and _, h => by rw [frames] at h; omega
  | 0, .or _, h => by rw [frames] at h; omega
  | _ + 1, .atom _, _ => by rw [termsD, terms]
  | _ + 1, .phrase _, _ => by rw [termsD, terms]
  | _ + 1, .glob _, _ => by rw [termsD, terms]
  | _ + 1, .not _, _ => by rw [termsD, terms]
  | n + 1, .and l, h => by
    rw [frames] at h
    rw [termsD, terms]
    exact termsAllD_eq n l (by omega)
  | n + 1, .or l, h => by
    rw [frames] at h
    rw [termsD, terms]
    exact termsAllD_eq n l (by omega)

theorem termsAllD_eq : ∀ (n : Nat) (l : List Node), framesAll l ≤ n → termsAllD n l = .ok (termsAll l)
  | _, [], _ => by rw [termsAllD, termsAll]
  | n, t :: rest, h => by
    rw [framesAll] at h
    rw [termsAllD, termsAll, termsD_eq n t (le_trans (le_max_left _ _) h), termsAllD_eq n rest (le_trans (le_max_right _ _) h)]
    rfl

theorem frames_pos : ∀ t : Node, 1 ≤ t.frames
  | .atom _ => by rw [frames]
  | .phrase _ => by rw [frames]
  | .glob _ => by rw [frames]
  | .not t => by rw [frames]; exact frames_pos t
  | .and _ => by rw [frames]; omega
  | .or _ => by rw [frames]; omega

end

variable {D R : Type} [LinearOrder D] {F : Frames} {A : WArith R} {ix : Searcher D R}

mutual

theorem executeD_sim : ∀ (n : Nat) (t : Node), t.frames + max F.search F.setops ≤ n →
    Sim (fun _ => True) (execute A ix t) (executeD F A ix n t)
  | 0, t, h => by
    have := frames_pos t
    omega
  | n + 1, .atom w, h => by
    rw [frames] at h
    rw [execute, executeD]
    exact Sim.within (by omega) (fun _ _ => trivial)
  | n + 1, .phrase w, h => by
    rw [frames] at h
    rw [execute, executeD]
    exact Sim.within (by omega) (fun _ _ => trivial)
  | n + 1, .glob w, h => by
    rw [frames] at h
    rw [execute, executeD]
    exact Sim.within (by omega) (fun _ _ => trivial)
  | n + 1, .not t, _ => by
    rw [execute, executeD]
    exact Sim.error _
  | n + 1, .and l, h => by
    rw [frames] at h
    rw [execute, executeD]
    refine Sim.bind (executeAndD_sim n l (by omega)) (fun r _ => ?_)
    refine Sim.bind (P := fun _ => True) (Sim.within (by omega) (fun _ _ => trivial)) (fun set _ => ?_)
    split
    · exact Sim.pure trivial
    · exact Sim.bind (P := fun _ => True) (Sim.within (by omega) (fun _ _ => trivial)) (fun _ _ => Sim.pure trivial)
  | n + 1, .or l, h => by
    rw [frames] at h
    rw [execute, executeD]
    refine Sim.bind (executeOrD_sim n l (by omega)) (fun r _ => ?_)
    exact Sim.bind (P := fun _ => True) (Sim.within (by omega) (fun _ _ => trivial)) (fun _ _ => Sim.pure trivial)

theorem executeAndD_sim : ∀ (n : Nat) (l : List Node), framesAll l + max F.search F.setops ≤ n →
    Sim (fun _ => True) (executeAnd A ix l) (executeAndD F A ix n l)
  | _, [], _ => by
    rw [executeAnd, executeAndD]
    exact Sim.ok trivial
  | n, .not m :: rest, h => by
    rw [framesAll, frames] at h
    rw [executeAnd, executeAndD]
    exact Sim.bind (executeD_sim n m (by omega)) (fun _ _ => Sim.bind (executeAndD_sim n rest (by omega)) (fun _ _ => Sim.pure trivial))
  | n, .atom w :: rest, h => by
    rw [framesAll] at h
    rw [executeAnd, executeAndD]
    · exact Sim.bind (executeD_sim n _ (by omega)) (fun _ _ => Sim.bind (executeAndD_sim n rest (by omega)) (fun _ _ => Sim.pure trivial))
    · simp
    · simp
  | n, .phrase w :: rest, h => by
    rw [framesAll] at h
    rw [executeAnd, executeAndD]
    · exact Sim.bind (executeD_sim n _ (by omega)) (fun _ _ => Sim.bind (executeAndD_sim n rest (by omega)) (fun _ _ => Sim.pure trivial))
    · simp
    · simp
  | n, .glob w :: rest, h => by
    rw [framesAll] at h
    rw [executeAnd, executeAndD]
    · exact Sim.bind (executeD_sim n _ (by omega)) (fun _ _ => Sim.bind (executeAndD_sim n rest (by omega)) (fun _ _ => Sim.pure trivial))
    · simp
    · simp
  | n, .and w :: rest, h => by
    rw [framesAll] at h
    rw [executeAnd, executeAndD]
    · exact Sim.bind (executeD_sim n _ (by omega)) (fun _ _ => Sim.bind (executeAndD_sim n rest (by omega)) (fun _ _ => Sim.pure trivial))
    · simp
    · simp
  | n, .or w :: rest, h => by
    rw [framesAll] at h
    rw [executeAnd, executeAndD]
    · exact Sim.bind (executeD_sim n _ (by omega)) (fun _ _ => Sim.bind (executeAndD_sim n rest (by omega)) (fun _ _ => Sim.pure trivial))
    · simp
    · simp

theorem executeOrD_sim : ∀ (n : Nat) (l : List Node), framesAll l + max F.search F.setops ≤ n →
    Sim (fun _ => True) (executeOr A ix l) (executeOrD F A ix n l)
  | _, [], _ => by
    rw [executeOr, executeOrD]
    exact Sim.ok trivial
  | n, m :: rest, h => by
    rw [framesAll] at h
    rw [executeOr, executeOrD]
    exact Sim.bind (executeD_sim n m (by omega)) (fun _ _ => Sim.bind (executeOrD_sim n rest (by omega)) (fun _ _ => Sim.pure trivial))

end

end Node

/-! ## The parser -/

namespace QueryParser

/-- before the token `i`, `k` parentheses are open -/
def Level (toks : List Tok) (i k : Nat) : Prop := (toks.take i).count .lparen = (toks.take i).count .rparen + k

variable {toks : List Tok} {parseTerms : Word → List Word} {F : Frames}

theorem take_next {i : Nat} {t : Tok} (h : toks[i]? = some t) : toks.take (i + 1) = toks.take i ++ [t] := by
  obtain ⟨hi, rfl⟩ := List.getElem?_eq_some_iff.1 h
  rw [List.take_add_one, List.getElem?_eq_getElem hi]
  rfl

theorem Level.lparen {i k : Nat} (h : Level toks i k) (ht : toks[i]? = some .lparen) : Level toks (i + 1) (k + 1) := by
  unfold Level at *
  rw [take_next ht, List.count_append, List.count_append, h]
  simp
  omega

theorem Level.rparen {i k : Nat} (h : Level toks i (k + 1)) (ht : toks[i]? = some .rparen) : Level toks (i + 1) k := by
  unfold Level at *
  rw [take_next ht, List.count_append, List.count_append, h]
  simp
  omega

theorem Level.other {i k : Nat} {t : Tok} (h : Level toks i k) (ht : toks[i]? = some t) (h1 : t ≠ .lparen) (h2 : t ≠ .rparen) :
    Level toks (i + 1) k := by
  unfold Level at *
  rw [take_next ht, List.count_append, List.count_append, h]
  simp [h1, h2]

theorem check_ok {t : Tok} {st : St} {r : Bool × St} (h : check toks t st = .ok r) :
    (r.1 = true ∧ toks[st.index]? = some t ∧ r.2 = { st with index := st.index + 1 }) ∨ (r.1 = false ∧ r.2 = st) := by
  unfold check at h
  split at h
  · cases h
  · rename_i t' ht
    split at h
    · rename_i he
      cases h
      exact .inl ⟨rfl, by rw [ht, he], rfl⟩
    · cases h
      exact .inr ⟨rfl, rfl⟩

theorem require_ok {t : Tok} {st st' : St} (h : require toks t st = .ok st') :
    toks[st.index]? = some t ∧ st' = { st with index := st.index + 1 } := by
  unfold require at h
  cases hc : check toks t st with
  | error e => rw [hc] at h; cases h
  | ok r =>
    rw [hc] at h
    rcases check_ok hc with ⟨h1, h2, h3⟩ | ⟨h1, h2⟩
    · simp only [bind, Except.bind, h1, if_true] at h
      cases h
      exact ⟨h2, h3⟩
    · simp only [bind, Except.bind, h1, Bool.false_eq_true, if_false] at h
      cases h

theorem getAtom_ok {st : St} {r : Word × St} (h : getAtom toks st = .ok r) :
    toks[st.index]? = some (.atom r.1) ∧ r.2 = { st with index := st.index + 1 } := by
  unfold getAtom at h
  split at h
  · cases h
  · rename_i w hw
    cases h
    exact ⟨hw, rfl⟩
  · cases h

/-- the tree of an atom -/
def SmallTree (b : Nat) (o : Option Node) : Prop := ∀ t, o = some t → t.frames ≤ b

theorem atomNode_small (ws : List Word) : SmallTree 1 (atomNode ws) := by
  intro t h
  unfold atomNode at h
  split at h
  · cases h
  · split at h <;> cases h <;> rw [Node.frames]
  · cases h
    rw [Node.frames]

theorem parseAtomD_sim (n k : Nat) (st : St) (hn : 4 + F.terms ≤ n) (hk : Level toks st.index k) :
    Sim (fun r => Level toks r.2.index k ∧ SmallTree 1 r.1) (parseAtom parseTerms toks st) (parseAtomD F parseTerms toks n st) := by
  obtain ⟨n, rfl⟩ : ∃ n', n = n' + 1 := ⟨n - 1, by omega⟩
  unfold parseAtom parseAtomD
  refine Sim.bind (P := fun r => Level toks r.2.index k) (Sim.within (by omega) ?_) ?_
  · intro r h
    obtain ⟨h1, h2⟩ := getAtom_ok h
    rw [h2]
    exact hk.other h1 (by simp) (by simp)
  · intro r hr
    have hw : within F.terms n (.ok (parseTerms r.1) : Except Fail (List Word)) = .ok (parseTerms r.1) := by
      unfold within
      rw [if_neg (by omega)]
      rfl
    rw [hw]
    show Sim _ _ (match atomNode (parseTerms r.1) with
      | none => _
      | some tree => _)
    have hs := atomNode_small (parseTerms r.1)
    generalize atomNode (parseTerms r.1) = o at hs ⊢
    cases o with
    | none => exact Sim.pure ⟨hr, fun t ht => by cases ht⟩
    | some tree =>
      cases r.1 with
      | nil => exact Sim.error _
      | cons c _ =>
        simp only []
        split
        · refine Sim.pure ⟨hr, fun t ht => ?_⟩
          cases ht
          rw [Node.frames]
          exact hs _ rfl
        · exact Sim.pure ⟨hr, fun t ht => by cases ht; exact hs _ rfl⟩

theorem atomLoopD_sim (k : Nat) : ∀ (fuel n : Nat) (nodes : List (Option Node)) (st : St), 4 + F.terms ≤ n → Level toks st.index k →
    (∀ o ∈ nodes, SmallTree 1 o) →
    Sim (fun r => Level toks r.2.index k ∧ ∀ o ∈ r.1, SmallTree 1 o) (atomLoop parseTerms toks fuel nodes st)
      (atomLoopD F parseTerms toks fuel n nodes st)
  | 0, _, _, _, _, _, _ => by
    rw [atomLoop, atomLoopD]
    exact Sim.error _
  | fuel + 1, n, nodes, st, hn, hk, hl => by
    rw [atomLoop, atomLoopD]
    refine Sim.bind (P := fun _ => True) (Sim.within (by omega) (fun _ _ => trivial)) (fun b _ => ?_)
    cases b with
    | false => exact Sim.pure ⟨hk, hl⟩
    | true =>
      refine Sim.bind (parseAtomD_sim n k st hn hk) (fun r hr => ?_)
      refine atomLoopD_sim k fuel n _ _ hn hr.1 ?_
      intro o ho
      rcases List.mem_append.1 ho with ho | ho
      · exact hl o ho
      · rw [List.mem_singleton.1 ho]
        exact hr.2

theorem termTree_small {nodes : List (Option Node)} (h : ∀ o ∈ nodes, SmallTree 1 o) :
    ∀ o, termTree nodes = .ok o → SmallTree 2 o := by
  have hs : ∀ t ∈ nodes.filterMap id, t.frames ≤ 1 := by
    intro t ht
    obtain ⟨o, ho, e⟩ := List.mem_filterMap.1 ht
    exact h o ho t e
  intro o ho t ht
  subst ht
  unfold termTree at ho
  simp only [] at ho
  split at ho
  · cases ho
  · split at ho
    · cases ho
    · rename_i n rest e
      have hm : ∀ t ∈ n :: rest, t.frames ≤ 1 := by
        intro t ht
        rw [← e] at ht
        rcases List.mem_append.1 ht with ht | ht
        · exact hs t (List.mem_filter.1 ht).1
        · exact hs t (List.mem_filter.1 ht).1
      split at ho
      · cases ho
      · split at ho
        · cases ho
          exact le_trans (hm _ (by simp)) (by omega)
        · cases ho
          rw [Node.frames]
          exact Nat.succ_le_succ (Node.framesAll_le hm)

theorem orTree_small {l : List (Option Node)} {b : Nat} (h : ∀ o ∈ l, SmallTree b o) : SmallTree (b + 1) (orTree l) := by
  have hs : ∀ t ∈ l.filterMap id, t.frames ≤ b := by
    intro t ht
    obtain ⟨o, ho, e⟩ := List.mem_filterMap.1 ht
    exact h o ho t e
  intro t ht
  unfold orTree at ht
  split at ht
  · cases ht
  · rename_i n e
    cases ht
    exact le_trans (hs t (by rw [e]; simp)) (by omega)
  · cases ht
    rw [Node.frames]
    exact Nat.succ_le_succ (Node.framesAll_le hs)

theorem andTree_small {l nots : List Node} {b : Nat} (h : ∀ t ∈ l, t.frames ≤ b) (h' : ∀ t ∈ nots, t.frames ≤ b) :
    SmallTree (b + 1) (andTree l nots) := by
  have hs : ∀ t ∈ l ++ nots, t.frames ≤ b := by
    intro t ht
    rcases List.mem_append.1 ht with ht | ht
    · exact h t ht
    · exact h' t ht
  intro t ht
  unfold andTree at ht
  split at ht
  · cases ht
  · split at ht
    · rename_i n e
      cases ht
      exact le_trans (hs t (by rw [e]; simp)) (by omega)
    · cases ht
      rw [Node.frames]
      exact Nat.succ_le_succ (Node.framesAll_le hs)

/-- where a method ends: as many parentheses are open as where it began, and its tree is not too deep -/
def Ends (toks : List Tok) (k b : Nat) (r : Option Node × St) : Prop := Level toks r.2.index k ∧ SmallTree b r.1

theorem parserD_sim (m : Nat) (hm : ∀ i k, Level toks i k → k ≤ m) : ∀ fuel : Nat,
    (∀ n k st, Level toks st.index k → 8 + F.terms + 4 * (m - k) ≤ n →
      Sim (Ends toks k (4 + 2 * (m - k))) (parseOr parseTerms toks fuel st) (parseOrD F parseTerms toks fuel n st)) ∧
    (∀ n k l st, Level toks st.index k → 7 + F.terms + 4 * (m - k) ≤ n → (∀ o ∈ l, SmallTree (3 + 2 * (m - k)) o) →
      Sim (fun r => Level toks r.2.index k ∧ ∀ o ∈ r.1, SmallTree (3 + 2 * (m - k)) o) (orLoop parseTerms toks fuel l st)
        (orLoopD F parseTerms toks fuel n l st)) ∧
    (∀ n k st, Level toks st.index k → 7 + F.terms + 4 * (m - k) ≤ n →
      Sim (Ends toks k (3 + 2 * (m - k))) (parseAnd parseTerms toks fuel st) (parseAndD F parseTerms toks fuel n st)) ∧
    (∀ n k l nots st, Level toks st.index k → 6 + F.terms + 4 * (m - k) ≤ n → (∀ t ∈ l, t.frames ≤ 2 + 2 * (m - k)) →
      (∀ t ∈ nots, t.frames ≤ 2 + 2 * (m - k)) →
      Sim (fun r => Level toks r.2.2.index k ∧ (∀ t ∈ r.1, t.frames ≤ 2 + 2 * (m - k)) ∧ ∀ t ∈ r.2.1, t.frames ≤ 2 + 2 * (m - k))
        (andLoop parseTerms toks fuel l nots st) (andLoopD F parseTerms toks fuel n l nots st)) ∧
    (∀ n k st, Level toks st.index k → 6 + F.terms + 4 * (m - k) ≤ n →
      Sim (Ends toks k (2 + 2 * (m - k))) (parseNot parseTerms toks fuel st) (parseNotD F parseTerms toks fuel n st)) ∧
    (∀ n k st, Level toks st.index k → 5 + F.terms + 4 * (m - k) ≤ n →
      Sim (Ends toks k (2 + 2 * (m - k))) (parseTerm parseTerms toks fuel st) (parseTermD F parseTerms toks fuel n st)) := by
  intro fuel
  induction fuel with
  | zero =>
    refine ⟨?_, ?_, ?_, ?_, ?_, ?_⟩
    · intro n k st _ _; rw [parseOr, parseOrD]; exact Sim.error _
    · intro n k l st _ _ _; rw [orLoop, orLoopD]; exact Sim.error _
    · intro n k st _ _; rw [parseAnd, parseAndD]; exact Sim.error _
    · intro n k l nots st _ _ _ _; rw [andLoop, andLoopD]; exact Sim.error _
    · intro n k st _ _; rw [parseNot, parseNotD]; exact Sim.error _
    · intro n k st _ _; rw [parseTerm, parseTermD]; exact Sim.error _
  | succ fuel ih =>
    obtain ⟨iOr, iOrLoop, iAnd, iAndLoop, iNot, iTerm⟩ := ih
    refine ⟨?_, ?_, ?_, ?_, ?_, ?_⟩
    · intro n k st hk hn
      obtain ⟨n, rfl⟩ : ∃ n', n = n' + 1 := ⟨n - 1, by omega⟩
      rw [parseOr, parseOrD]
      refine Sim.bind (iAnd n k st hk (by omega)) (fun r hr => ?_)
      refine Sim.bind (iOrLoop n k [r.1] r.2 hr.1 (by omega) ?_) (fun r hr => ?_)
      · intro o ho
        rw [List.mem_singleton.1 ho]
        exact hr.2
      · refine Sim.pure ⟨hr.1, ?_⟩
        have := orTree_small hr.2
        rwa [show 4 + 2 * (m - k) = 3 + 2 * (m - k) + 1 by omega]
    · intro n k l st hk hn hl
      rw [orLoop, orLoopD]
      refine Sim.bind (P := fun c => check toks .or st = .ok c) (Sim.within (by omega) (fun _ h => h)) (fun c hc => ?_)
      rcases check_ok hc with ⟨h1, h2, h3⟩ | ⟨h1, h2⟩
      · rw [if_pos h1, if_pos h1, h3]
        refine Sim.bind (iAnd n k _ (hk.other h2 (by simp) (by simp)) (by omega)) (fun r hr => ?_)
        refine iOrLoop n k _ _ hr.1 (by omega) ?_
        intro o ho
        rcases List.mem_append.1 ho with ho | ho
        · exact hl o ho
        · rw [List.mem_singleton.1 ho]
          exact hr.2
      · rw [if_neg (by simp [h1]), if_neg (by simp [h1])]
        exact Sim.pure ⟨hk, hl⟩
    · intro n k st hk hn
      obtain ⟨n, rfl⟩ : ∃ n', n = n' + 1 := ⟨n - 1, by omega⟩
      rw [parseAnd, parseAndD]
      refine Sim.bind (iTerm n k st hk (by omega)) (fun r hr => ?_)
      refine Sim.bind (iAndLoop n k r.1.toList [] r.2 hr.1 (by omega) ?_ (by simp)) (fun r hr => ?_)
      · intro t ht
        exact hr.2 t (Option.mem_toList.1 ht)
      · refine Sim.pure ⟨hr.1, ?_⟩
        have := andTree_small hr.2.1 hr.2.2
        rwa [show 3 + 2 * (m - k) = 2 + 2 * (m - k) + 1 by omega]
    · intro n k l nots st hk hn hl hnots
      rw [andLoop, andLoopD]
      refine Sim.bind (P := fun c => check toks .and st = .ok c) (Sim.within (by omega) (fun _ h => h)) (fun c hc => ?_)
      have happ : ∀ {l : List Node} {t : Node}, (∀ t ∈ l, t.frames ≤ 2 + 2 * (m - k)) → t.frames ≤ 2 + 2 * (m - k) →
          ∀ x ∈ l ++ [t], x.frames ≤ 2 + 2 * (m - k) := by
        intro l t h1 h2 x hx
        rcases List.mem_append.1 hx with hx | hx
        · exact h1 x hx
        · rw [List.mem_singleton.1 hx]
          exact h2
      rcases check_ok hc with ⟨h1, h2, h3⟩ | ⟨h1, -⟩
      · rw [if_pos h1, if_pos h1, h3]
        refine Sim.bind (iNot n k _ (hk.other h2 (by simp) (by simp)) (by omega)) (fun r hr => ?_)
        obtain ⟨o, st'⟩ := r
        obtain ⟨hr1, hr2⟩ := hr
        cases o with
        | none => exact iAndLoop n k l nots st' hr1 (by omega) hl hnots
        | some t =>
          simp only []
          split
          · exact iAndLoop n k _ _ _ hr1 (by omega) hl (happ hnots (hr2 t rfl))
          · exact iAndLoop n k _ _ _ hr1 (by omega) (happ hl (hr2 t rfl)) hnots
      · rw [if_neg (by simp [h1]), if_neg (by simp [h1])]
        refine Sim.bind (P := fun c => check toks .not st = .ok c) (Sim.within (by omega) (fun _ h => h)) (fun c hc => ?_)
        rcases check_ok hc with ⟨h1, h2, h3⟩ | ⟨h1, -⟩
        · rw [if_pos h1, if_pos h1, h3]
          refine Sim.bind (iTerm n k _ (hk.other h2 (by simp) (by simp)) (by omega)) (fun r hr => ?_)
          obtain ⟨o, st'⟩ := r
          obtain ⟨hr1, hr2⟩ := hr
          cases o with
          | none => exact iAndLoop n k l nots st' hr1 (by omega) hl hnots
          | some t =>
            refine iAndLoop n k _ _ _ hr1 (by omega) hl (happ hnots ?_)
            rw [Node.frames]
            exact hr2 t rfl
        · rw [if_neg (by simp [h1]), if_neg (by simp [h1])]
          exact Sim.pure ⟨hk, hl, hnots⟩
    · intro n k st hk hn
      obtain ⟨n, rfl⟩ : ∃ n', n = n' + 1 := ⟨n - 1, by omega⟩
      rw [parseNot, parseNotD]
      refine Sim.bind (P := fun c => check toks .not st = .ok c) (Sim.within (by omega) (fun _ h => h)) (fun c hc => ?_)
      rcases check_ok hc with ⟨h1, h2, h3⟩ | ⟨h1, -⟩
      · rw [if_pos h1, if_pos h1, h3]
        refine Sim.bind (iTerm n k _ (hk.other h2 (by simp) (by simp)) (by omega)) (fun r hr => ?_)
        refine Sim.pure ⟨hr.1, ?_⟩
        intro t ht
        obtain ⟨t', h', rfl⟩ := Option.map_eq_some_iff.1 ht
        rw [Node.frames]
        exact hr.2 t' h'
      · rw [if_neg (by simp [h1]), if_neg (by simp [h1])]
        exact iTerm n k st hk (by omega)
    · intro n k st hk hn
      obtain ⟨n, rfl⟩ : ∃ n', n = n' + 1 := ⟨n - 1, by omega⟩
      rw [parseTerm, parseTermD]
      refine Sim.bind (P := fun c => check toks .lparen st = .ok c) (Sim.within (by omega) (fun _ h => h)) (fun c hc => ?_)
      rcases check_ok hc with ⟨h1, h2, h3⟩ | ⟨h1, -⟩
      · rw [if_pos h1, if_pos h1, h3]
        have hk' := hk.lparen h2
        have hkm := hm _ _ hk'
        refine Sim.bind (iOr n (k + 1) _ hk' (by omega)) (fun r hr => ?_)
        refine Sim.bind (P := fun st' => Level toks st'.index k) (Sim.within (by omega) ?_) (fun st' hst => ?_)
        · intro st' h
          obtain ⟨e1, rfl⟩ := require_ok h
          exact hr.1.rparen e1
        · refine Sim.pure ⟨hst, ?_⟩
          intro t ht
          have := hr.2 t ht
          omega
      · rw [if_neg (by simp [h1]), if_neg (by simp [h1])]
        refine Sim.bind (parseAtomD_sim n k st (by omega) hk) (fun a ha => ?_)
        refine Sim.bind (atomLoopD_sim k fuel n [a.1] a.2 (by omega) ha.1 ?_) (fun r hr => ?_)
        · intro o ho
          rw [List.mem_singleton.1 ho]
          exact ha.2
        · refine Sim.bind (P := fun o => SmallTree 2 o) (Sim.mapError (termTree_small hr.2)) (fun o ho => ?_)
          exact Sim.pure ⟨hr.1, fun t ht => le_trans (ho t ht) (by omega)⟩

theorem parseTokensD_sim (m : Nat) (hm : ∀ i k, Level toks i k → k ≤ m) (n : Nat) (hn : 8 + F.terms + 4 * m ≤ n) :
    Sim (fun r => r.1.frames ≤ 4 + 2 * m) (parseTokens parseTerms toks) (parseTokensD F parseTerms toks n) := by
  unfold parseTokens parseTokensD
  refine Sim.bind ((parserD_sim (F := F) (parseTerms := parseTerms) m hm _).1 n 0 _ (by simp [Level]) (by simpa using hn)) (fun r hr => ?_)
  refine Sim.bind (P := fun _ => True) (Sim.within (by omega) (fun _ _ => trivial)) (fun st _ => ?_)
  obtain ⟨o, st'⟩ := r
  cases o with
  | none => exact Sim.error _
  | some t => exact Sim.pure (by simpa using hr.2 t rfl)

/-! ## Too many parentheses -/

theorem parseOrD_recursion : ∀ (fuel n : Nat) (st : St), 3 * n < fuel → (∀ j < n, toks[st.index + j]? = some .lparen) →
    parseOrD F parseTerms toks fuel n st = .error .recursion := by
  intro fuel n
  induction n using Nat.strongRecOn generalizing fuel with
  | ind n ih =>
    intro st hf hp
    match n, fuel, hf with
    | 0, fuel + 1, _ => rw [parseOrD]
    | 1, fuel + 2, _ => rw [parseOrD, parseAndD]; rfl
    | 2, fuel + 3, _ => rw [parseOrD, parseAndD, parseTermD]; rfl
    | n + 3, fuel + 4, hf =>
      have hc : check toks .lparen st = .ok (true, { st with index := st.index + 1 }) := by
        have h0 : toks[st.index]? = some .lparen := by simpa using hp 0 (by omega)
        unfold check
        rw [h0]
        simp
      rw [parseOrD, parseAndD, parseTermD]
      cases n with
      | zero => rfl
      | succ n =>
        have hw : within 1 (n + 1) (check toks .lparen st) = .ok (true, { st with index := st.index + 1 }) := by
          unfold within
          rw [if_neg (by omega), hc]
          rfl
        rw [hw]
        have := ih (n + 1) (by omega) (fuel + 1) { st with index := st.index + 1 } (by omega) (fun j hj => by
          have := hp (j + 1) (by omega)
          rw [← this]
          congr 1
          simp only []
          omega)
        show (((parseOrD F parseTerms toks (fuel + 1) (n + 1) _ >>= _) >>= _) >>= _) = _
        rw [this]
        rfl

end QueryParser
end Verif
