import Verif.Proofs.OkaScore
import Verif.Props.ScoreLoop

/-!
# Property C85: the C function `score` keeps the rules for C extensions
-/

set_option autoImplicit false

namespace Verif

open Text OkaScore

section

variable {W O R : Type} [DecidableEq O] (api : CApi W O R) (A : Arith R) (cdiv : R → R → R) (P : Bm25 R)

/-- C85: whatever its arguments are and whatever the calls it makes return, `score` uses no object that may not exist any more, gives
back no reference that it does not hold, and in the end has given back all references, except the one to the result it hands over
(`None`); if it returns `NULL`, an exception is set -/
theorem C85_references (args : List O) (w : W) :
    ∃ r fr, call api A cdiv P args w = .ok (r, fr) ∧
      (r = none ∧ fr.held = 0 ∧ fr.exc ≠ none ∨ r = some api.none ∧ fr.held = {api.none}) := by
  obtain ⟨r, fr, e, h1, h2, h3, -⟩ := sure_score api A cdiv P args { world := w, held := 0, exc := none }
  refine ⟨r, fr, e, ?_⟩
  cases r with
  | none => exact Or.inl ⟨rfl, h1, h2 rfl⟩
  | some o =>
    obtain rfl := h3 o rfl
    exact Or.inr ⟨rfl, h1⟩

/-- C85: if the numbers in the arguments can be converted, the caller gets `None` or the exception of a call that failed, never a
`SystemError` of the interpreter. What is missing: other arguments, for which it is false (`C85_fails`) -/
theorem C85_outcome_partial (result d2fitems d2len idf mean : O) (hnum : Numeric api d2fitems d2len) (w : W) :
    ∃ r, call api A cdiv P [result, d2fitems, d2len, idf, mean] w = .ok r ∧
      (outcome r = .value api.none ∨ ∃ e, outcome r = .raised e) := by
  obtain ⟨r, fr, e, -, h2, h3, h4⟩ := sure_score api A cdiv P [result, d2fitems, d2len, idf, mean] { world := w, held := 0, exc := none }
  refine ⟨(r, fr), e, ?_⟩
  unfold outcome
  cases r with
  | none =>
    cases hx : fr.exc with
    | none => exact absurd hx (h2 rfl)
    | some x => exact Or.inr ⟨x, by simp only [hx]⟩
  | some o =>
    obtain rfl := h3 o rfl
    have := h4 _ _ _ _ _ rfl hnum (by simp)
    exact Or.inl (by simp only [this])

end

/-! ## The arguments an index passes -/

section

variable {D R : Type} [LinearOrder D]

/-- the Python objects `_c_search_wids` (okapiindex.py:340-349) passes to `score` and those `score` makes and finds in them -/
inductive IxObj (D R : Type)
  | docid (d : D)
  | number (x : R)
  | pair (d : D) (x : R)
  | items (l : List (D × R))
  | lengths
  | bucket
  | none
  deriving DecidableEq

/-- how these objects behave: `items` is a list of pairs, `lengths` the tree `_docweight`; the state is the contents of the bucket -/
def indexApi (A : Arith R) (docweight : SMap D R) : CApi (SMap D R) (IxObj D R) R where
  length w o := (w, match o with | .items l => .ok l.length | _ => .error .TypeError)
  seqItem w o i := (w, match o with
    | .items l => match l[i]? with
      | some p => .ok (.pair p.1 p.2)
      | none => .error .IndexError
    | _ => .error .TypeError)
  pair o := match o with | .pair d x => some (.docid d, .number x) | _ => .none
  asDouble w o := (w, match o with | .number x => .ok x | _ => .error .TypeError)
  getItem w o k := (w, match o, k with
    | .lengths, .docid d => match docweight.get? d with
      | some x => .ok (.number x)
      | none => .error .KeyError
    | _, _ => .error .TypeError)
  fromDouble w x := (w, .ok (.number x))
  setItem w o k v := match o, k, v with
    | .bucket, .docid d, .number x => (w.set d (A.store x), .none)
    | _, _, _ => (w, .some .TypeError)
  none := .none

theorem indexApi_numeric (A : Arith R) (docweight : SMap D R) (l : List (D × R)) :
    Numeric (indexApi A docweight) (.items l) .lengths where
  length w := ⟨_, rfl⟩
  counts := by
    intro w i w' x p hx hp w''
    cases x <;> simp only [indexApi, reduceCtorEq] at hp
    cases hp
    exact ⟨_, rfl⟩
  lengths := by
    intro w d w' x hx w''
    simp only [indexApi] at hx
    split at hx
    · split at hx
      · cases hx; exact ⟨_, rfl⟩
      · cases hx
    · cases hx

variable [DecidableEq R] (A : Arith R) (cdiv : R → R → R) (P : Bm25 R) (docweight : SMap D R)

theorem index_iteration (l : List (D × R)) (idf mean : R) (m : SMap D R) (i : Nat) (p : D × R) (hp : l[i]? = some p) (args : List (IxObj D R))
    (hargs : args = [.bucket, .items l, .lengths, .number idf, .number mean]) :
    iteration (indexApi A docweight) A cdiv P args .bucket (.items l) .lengths idf mean i { world := m, held := 0, exc := none } =
      match cScoreStep A cdiv P docweight idf mean m p with
      | .ok m' => .ok (true, { world := m', held := 0, exc := none })
      | .error e => .ok (false, { world := m, held := 0, exc := some e }) := by
  subst hargs
  unfold cScoreStep
  cases hd : docweight.get? p.1 with
  | none => simp [iteration, scorePair, andThen, use, newRef, Alive, indexApi, hp, toDouble, hd, decref, give]
  | some len =>
    have herase : ∀ x y : IxObj D R, (x ::ₘ {y} : Multiset (IxObj D R)).erase y = {x} := by
      intro x y
      rw [← Multiset.cons_zero y, Multiset.cons_swap, Multiset.erase_cons_head, Multiset.cons_zero]
    simp [iteration, scorePair, OkaScore.finish, OkaScore.store, andThen, use, newRef, Alive, indexApi, hp, toDouble, hd, decref, give, herase]

theorem index_loop (l : List (D × R)) (idf mean : R) (args : List (IxObj D R))
    (hargs : args = [.bucket, .items l, .lengths, .number idf, .number mean]) (rest : List (D × R)) :
    ∀ (k : Nat) (m : SMap D R), l.drop k = rest →
      match rest.foldlM (cScoreStep A cdiv P docweight idf mean) m with
      | .ok m' => loop (indexApi A docweight) A cdiv P args .bucket (.items l) .lengths idf mean (List.range' k rest.length)
          { world := m, held := 0, exc := none } = .ok (true, { world := m', held := 0, exc := none })
      | .error e => ∃ m', loop (indexApi A docweight) A cdiv P args .bucket (.items l) .lengths idf mean (List.range' k rest.length)
          { world := m, held := 0, exc := none } = .ok (false, { world := m', held := 0, exc := some e }) := by
  induction rest with
  | nil => intro k m _; rfl
  | cons p rest ih =>
    intro k m hk
    have hp : l[k]? = some p := by
      have := congrArg List.head? hk
      rwa [List.head?_drop] at this
    have hk' : l.drop (k + 1) = rest := by
      rw [← List.tail_drop, hk]; rfl
    have hit := index_iteration A cdiv P docweight l idf mean m k p hp args hargs
    rw [List.foldlM_cons]
    cases hs : cScoreStep A cdiv P docweight idf mean m p with
    | error e =>
      rw [hs] at hit
      refine ⟨m, ?_⟩
      rw [List.length_cons, List.range'_succ, loop]
      unfold andThen
      rw [hit]
      rfl
    | ok m1 =>
      rw [hs] at hit
      rw [bind_ok]
      have h := ih (k + 1) m1 hk'
      have e : ∀ fr, loop (indexApi A docweight) A cdiv P args .bucket (.items l) .lengths idf mean (List.range' (k + 1) rest.length)
          { world := m1, held := 0, exc := none } = fr →
          loop (indexApi A docweight) A cdiv P args .bucket (.items l) .lengths idf mean (List.range' k (p :: rest).length)
            { world := m, held := 0, exc := none } = fr := by
        intro fr h
        rw [List.length_cons, List.range'_succ, loop]
        unfold andThen
        rw [hit]
        simpa using h
      cases hf : rest.foldlM (cScoreStep A cdiv P docweight idf mean) m1 with
      | ok m' => rw [hf] at h; exact e _ h
      | error x =>
        rw [hf] at h
        obtain ⟨m', h⟩ := h
        exact ⟨m', e _ h⟩

theorem toCInt_small (n : Nat) (h : n < 2 ^ 31) : (toCInt (n : Int)).toNat = n := by
  have h : n < 2147483648 := h
  unfold toCInt
  omega

/-- C85: called with the items of a word, fewer than 2^31, and the document lengths, `score` stores in the new bucket, for every item
in turn, the score of the document, and returns `None`; or, if a document has no length, it raises `KeyError`. (`cScoreStep` is
the loop body of C64 and C69.) What is missing: more items, which are not all scored (`C85_fails`). -/
theorem C85_scores_partial (l : List (D × R)) (hl : l.length < 2 ^ 31) (idf mean : R) :
    ∃ r, call (indexApi A docweight) A cdiv P [.bucket, .items l, .lengths, .number idf, .number mean] SMap.empty = .ok r ∧
      match l.foldlM (cScoreStep A cdiv P docweight idf mean) SMap.empty with
      | .ok m => outcome r = .value .none ∧ r.2.world = m
      | .error e => outcome r = .raised e := by
  have hloop := index_loop A cdiv P docweight l idf mean _ rfl l 0 SMap.empty rfl
  have hn := toCInt_small _ hl
  have hcall : ∀ b fr, loop (indexApi A docweight) A cdiv P [.bucket, .items l, .lengths, .number idf, .number mean] .bucket (.items l) .lengths
      idf mean (List.range l.length) { world := SMap.empty, held := 0, exc := none } = .ok (b, fr) →
      call (indexApi A docweight) A cdiv P [.bucket, .items l, .lengths, .number idf, .number mean] SMap.empty =
        .ok (if b then (some .none, { fr with held := .none ::ₘ fr.held }) else (none, fr)) := by
    intro b fr h
    have hu : ∀ fr : Frame (SMap D R) (IxObj D R), use (indexApi A docweight) [.bucket, .items l, .lengths, .number idf, .number mean] [.items l] fr =
        .ok ((), fr) := by
      intro fr
      unfold use
      rw [if_pos]
      intro o ho
      exact Or.inl (by simp at ho; simp [ho])
    have hlen : ∀ fr : Frame (SMap D R) (IxObj D R), lengthOf (indexApi A docweight) (.items l) fr = .ok (toCInt l.length, fr) := fun fr => rfl
    have hpa : ∀ fr : Frame (SMap D R) (IxObj D R), parseArgs (indexApi A docweight) [.bucket, .items l, .lengths, .number idf, .number mean] fr =
        .ok (some (.bucket, .items l, .lengths, idf, mean), fr) := fun fr => rfl
    unfold call score
    rw [andThen_eq (hpa _)]
    simp only
    rw [andThen_eq (hu _), andThen_eq (hlen _), hn, andThen_eq h]
    cases b with
    | true => simp [incref, give, indexApi, andThen]
    | false => simp [give]
  rw [List.range_eq_range'] at hcall
  cases hf : l.foldlM (cScoreStep A cdiv P docweight idf mean) SMap.empty with
  | ok m =>
    rw [hf] at hloop
    exact ⟨_, hcall _ _ hloop, rfl, rfl⟩
  | error e =>
    rw [hf] at hloop
    obtain ⟨m', h⟩ := hloop
    exact ⟨_, hcall _ _ h, rfl⟩

end

/-- the example: two documents of lengths 2 and 4, of which one contains the word -/
example : ∃ r, call (indexApi exPosArith (SMap.empty.set 3 2 |>.set 7 4)) exPosArith (fun x y => x / y) { k1 := 1, b := 1 }
    [.bucket, .items [(7, 2)], .lengths, .number 5, .number 3] (SMap.empty : SMap Nat Int) = .ok r ∧ outcome r = .value .none ∧
    r.2.world.items = [(7, 5)] := by
  obtain ⟨r, h, h'⟩ := C85_scores_partial exPosArith (fun x y => x / y) { k1 := 1, b := 1 } (SMap.empty.set 3 2 |>.set 7 4)
    [((7 : Nat), (2 : Int))] (by simp) 5 3
  exact ⟨r, h, h'.1, by rw [h'.2]; decide +kernel⟩

/-- the example: a document without length -/
example : ∃ r, call (indexApi exPosArith (SMap.empty.set 3 2)) exPosArith (fun x y => x / y) { k1 := 1, b := 1 }
    [.bucket, .items [(3, 1), (7, 2)], .lengths, .number 5, .number 3] (SMap.empty : SMap Nat Int) = .ok r ∧ outcome r = .raised .KeyError := by
  obtain ⟨r, h, h'⟩ := C85_scores_partial exPosArith (fun x y => x / y) { k1 := 1, b := 1 } (SMap.empty.set 3 2)
    [((3 : Nat), (1 : Int)), (7, 2)] (by simp) 5 3
  exact ⟨r, h, h'⟩

/-- the calls of the next theorem: objects are numbers, the state counts the scores stored. Object 0 is a sequence of `len` times the
pair 10 of the objects 1 and 2; object 2 is a number exactly if `num` -/
def exCalls (len : Nat) (num : Bool) : CApi Nat Nat Int where
  length w _ := (w, .ok len)
  seqItem w _ _ := (w, .ok 10)
  pair o := if o = 10 then some (1, 2) else none
  asDouble w o := (w, if o = 2 ∧ num = false then .error .TypeError else .ok 1)
  getItem w _ _ := (w, .ok 5)
  fromDouble w _ := (w, .ok 6)
  setItem w _ _ _ := (w + 1, none)
  none := 7

-- `C85_references` and `C85_outcome_partial` with these calls
example : ∃ r fr, call (exCalls 2 false) exPosArith (fun x y => x / y) { k1 := 1, b := 1 } [8, 0, 9, 3, 4] 0 = .ok (r, fr) ∧
    (r = none ∧ fr.held = 0 ∧ fr.exc ≠ none ∨ r = some 7 ∧ fr.held = {7}) :=
  C85_references (exCalls 2 false) exPosArith (fun x y => x / y) { k1 := 1, b := 1 } [8, 0, 9, 3, 4] 0
example : ∃ r, call (exCalls 2 true) exPosArith (fun x y => x / y) { k1 := 1, b := 1 } [8, 0, 9, 3, 4] 0 = .ok r ∧
    (outcome r = .value 7 ∨ ∃ e, outcome r = .raised e) :=
  C85_outcome_partial (exCalls 2 true) exPosArith (fun x y => x / y) { k1 := 1, b := 1 } 8 0 9 3 4
    ⟨fun _ => ⟨2, rfl⟩, by
      intro w i w' x p _ _ w''
      exact ⟨1, by simp [exCalls]⟩, by
      intro w d w' x _ w''
      exact ⟨1, by simp [exCalls]⟩⟩ 0

/-- C85 fails: with a frequency that is no number, `score` stores a score, sets an exception and returns `None`, so the interpreter
raises `SystemError`; and of 2^32 items none is scored, without an exception -/
theorem C85_fails :
    (∃ r, call (exCalls 1 false) exPosArith (fun x y => x / y) { k1 := 1, b := 1 } [8, 0, 9, 3, 4] 0 = .ok r ∧ outcome r = .systemError ∧
      r.2.exc = some .TypeError ∧ r.2.world = 1) ∧
    (∃ r, call (exCalls (2 ^ 32) true) exPosArith (fun x y => x / y) { k1 := 1, b := 1 } [8, 0, 9, 3, 4] 0 = .ok r ∧ outcome r = .value 7 ∧
      r.2.world = 0) := by
  refine ⟨⟨_, rfl, by decide +kernel, by decide +kernel, by decide +kernel⟩, ⟨_, rfl, by decide +kernel, by decide +kernel⟩⟩

end Verif
