import Verif.Spec.RejectedText
import Verif.Proofs.TextRun

/-! # Rejected texts: an index whose total length is off works like the one whose total length is right -/

set_option autoImplicit false

namespace Verif.Text

open Verif.Spec

variable {D R : Type} [LinearOrder D] {K : Kind D R}

/-- the index with another total length -/
def shift (c : Int) (s : Ix D R) : Ix D R := { s with total := s.total + c }

/-- the function does not look at the total length -/
def Shifts (f : Ix D R → Except PyErr (Ix D R)) : Prop := ∀ c s, f (shift c s) = (f s).map (shift c)

theorem Shifts.bind {f g : Ix D R → Except PyErr (Ix D R)} (hf : Shifts f) (hg : Shifts g) : Shifts (fun s => f s >>= g) := by
  intro c s
  show (f (shift c s) >>= g) = (f s >>= g).map (shift c)
  rw [hf]
  cases f s with
  | error e => rfl
  | ok s' => exact hg c s'

theorem Shifts.const {α : Type} {x : Except PyErr α} {g : α → Ix D R → Except PyErr (Ix D R)} (hg : ∀ a, Shifts (g a)) :
    Shifts (fun s => x >>= fun a => g a s) := by
  intro c s
  cases x with
  | error e => rfl
  | ok a => exact hg a c s

theorem Shifts.read {α : Type} {x : Ix D R → Except PyErr α} {g : α → Ix D R → Except PyErr (Ix D R)}
    (hx : ∀ c s, x (shift c s) = x s) (hg : ∀ a, Shifts (g a)) : Shifts (fun s => x s >>= fun a => g a s) := by
  intro c s
  show (x (shift c s) >>= fun a => g a (shift c s)) = _
  rw [hx]
  exact Shifts.const (x := x s) hg c s

theorem Shifts.foldlM {α : Type} {f : Ix D R → α → Except PyErr (Ix D R)} (hf : ∀ a, Shifts (fun s => f s a)) (l : List α) :
    Shifts (fun s => l.foldlM f s) := by
  induction l with
  | nil => intro c s; rfl
  | cons a l ih =>
    intro c s
    show (f (shift c s) a >>= fun s => l.foldlM f s) = (f s a >>= fun s => l.foldlM f s).map (shift c)
    exact Shifts.bind (hf a) ih c s

theorem shifts_del (wid : Int) (docid : D) : Shifts (fun s : Ix D R => delWordinfo wid docid s) := by
  intro c s
  show delWordinfo wid docid (shift c s) = (delWordinfo wid docid s).map (shift c)
  unfold delWordinfo
  show (match s.wordinfo.get? wid with | none => _ | some doc2score => _) = _
  cases s.wordinfo.get? wid with
  | none => rfl
  | some e =>
    dsimp only
    split
    · split <;> rfl
    · rfl

theorem shift_add (wid : Int) (f : R) (docid : D) (c : Int) (s : Ix D R) :
    addWordinfo K wid f docid (shift c s) = shift c (addWordinfo K wid f docid s) := by
  unfold addWordinfo
  show (match s.wordinfo.get? wid with | none => _ | some doc2score => _) = _
  cases s.wordinfo.get? wid <;> rfl

theorem shift_change (delta c : Int) (s : Ix D R) : changeDocLen K delta (shift c s) = shift c (changeDocLen K delta s) := by
  unfold changeDocLen shift
  split
  · dsimp only; rw [add_right_comm]
  · rfl

theorem shifts_sub (docid : D) : Shifts (subDocLen K docid) := by
  intro c s
  unfold subDocLen
  split
  · show (match s.docweight.get? docid with | none => _ | some w => _) = _
    cases s.docweight.get? docid with
    | none => rfl
    | some w => exact congrArg Except.ok (shift_change _ c s)
  · rfl

theorem shifts_reindex (docid : D) (wids : List Int) : Shifts (reindexDoc K docid wids) := by
  unfold reindexDoc
  refine Shifts.bind (shifts_sub docid) ?_
  refine Shifts.read (x := fun s => getWords s docid) (fun _ _ => rfl) fun oldWids => ?_
  refine Shifts.const fun old => Shifts.const fun new => ?_
  refine Shifts.bind (Shifts.foldlM (fun wid => shifts_del wid docid) _) ?_
  refine Shifts.bind (Shifts.foldlM (fun wid => ?_) _) ?_
  · refine Shifts.const fun f => ?_
    intro c s
    exact congrArg Except.ok (shift_add wid f docid c s)
  refine Shifts.bind (Shifts.foldlM (fun wid => ?_) _) ?_
  · refine Shifts.const fun newscore => Shifts.const fun oldscore => ?_
    intro c s
    dsimp only
    split
    · exact congrArg Except.ok (shift_add wid newscore docid c s)
    · rfl
  refine Shifts.const fun code => ?_
  intro c s
  rfl

theorem shifts_index (docid : D) (wids : List Int) : Shifts (indexDoc K docid wids) := by
  intro c s
  unfold indexDoc
  show (if s.docwords.contains docid = true then _ else _) = _
  split
  · refine Shifts.bind (shifts_reindex docid wids) (g := fun s => pure (changeDocLen K wids.length s)) ?_ c s
    intro c s
    exact congrArg Except.ok (shift_change _ c s)
  · cases K.freqs wids with
    | error e => rfl
    | ok r =>
      simp only [bind, Except.bind]
      cases WidCode.encode wids with
      | error e => rfl
      | ok code =>
        refine congrArg Except.ok (Eq.trans ?_ (shift_change _ c _))
        rfl

theorem shifts_unindex (docid : D) : Shifts (unindexDoc K docid) := by
  intro c s
  unfold unindexDoc
  show (if s.docwords.contains docid = true then _ else _) = _
  split
  · refine Shifts.bind (shifts_sub docid) ?_ c s
    refine Shifts.read (x := fun s => getWords s docid) (fun _ _ => rfl) fun wids => ?_
    refine Shifts.bind (Shifts.foldlM (fun wid => shifts_del wid docid) _) ?_
    intro c s
    rfl
  · rfl

/-- the same for an index with its lexicon -/
def TI.shift (c : Int) (s : TI D R) : TI D R := { s with ix := Text.shift c s.ix }

theorem TI.shift_zero (s : TI D R) : s.shift 0 = s := by
  unfold TI.shift Text.shift
  rw [add_zero]

theorem step_shift (pipeline : List Element) (op : Op D) (c : Int) (s : TI D R) :
    step K pipeline (s.shift c) op = (step K pipeline s op).map (TI.shift c) := by
  cases op with
  | index docid text =>
    show (indexDoc K docid (s.lex.sourceToWordIds pipeline text).2 (Text.shift c s.ix) >>= fun ix => _) = _
    rw [shifts_index]
    show _ = (indexDoc K docid (s.lex.sourceToWordIds pipeline text).2 s.ix >>= fun ix => _).map (TI.shift c)
    cases indexDoc K docid (s.lex.sourceToWordIds pipeline text).2 s.ix <;> rfl
  | unindex docid =>
    show (unindexDoc K docid (Text.shift c s.ix) >>= fun ix => _) = _
    rw [shifts_unindex]
    show _ = (unindexDoc K docid s.ix >>= fun ix => _).map (TI.shift c)
    cases unindexDoc K docid s.ix <;> rfl
  | clear => rfl
  | lexicon op => rfl

theorem small_front {pipeline : List Element} {ops more : List (Op D)} (h : SmallLexicon pipeline (ops ++ more)) :
    SmallLexicon pipeline ops := by
  induction more using List.reverseRecOn with
  | nil => rwa [List.append_nil] at h
  | append_singleton more op ih =>
    rw [← List.append_assoc] at h
    exact ih (small_prefix h)

/-- the length taken from the total by a rejected call -/
def lossOf (K : Kind D R) (pipeline : List Element) (done : List (Op D)) (d : D) : Int :=
  if K.hasTotal then lenOf K (docWids pipeline done) d else 0

theorem rejected_ok (hK : Lawful K) {pipeline : List Element} {done : List (Op D)} {s : Ix D R}
    (hi : Inv K s (docWids pipeline done)) (c : Int) (d : D) (e : PyErr) :
    rejectedDoc K d e (shift c s) = (shift (c - lossOf K pipeline done d) s, e) := by
  unfold rejectedDoc
  show (if s.docwords.contains d = true then _ else _) = _
  have hc := hi.contains d
  unfold lossOf lenOf
  cases hW : docWids pipeline done d with
  | none =>
    rw [hW] at hc
    rw [if_neg (by rw [hc]; simp)]
    simp
  | some ws =>
    rw [hW] at hc
    rw [if_pos (by rw [hc]; rfl)]
    have hdw := hi.docweight d
    rw [hW, Option.map_some] at hdw
    have hg : ∀ c, getWords (shift c s) d = .ok ws := fun c => hi.getWords hW
    have hsub : subDocLen K d (shift c s) =
        .ok (shift (c - (if K.hasTotal then K.arith.toInt (K.arith.store (fr K ws).2) else 0)) s) := by
      unfold subDocLen changeDocLen
      split
      · show (match s.docweight.get? d with | none => _ | some w => _) = _
        rw [hdw]
        unfold shift
        dsimp only
        rw [add_assoc, ← sub_eq_add_neg]
      · rw [sub_zero]
    rw [hsub]
    simp only [hg, hK.ok]

/-- the lengths taken from the total by the rejected calls -/
def totalLoss (K : Kind D R) (pipeline : List Element) (done : List (Op D)) : List (Attempt D) → Int
  | [] => 0
  | .made op :: calls => totalLoss K pipeline (done ++ [op]) calls
  | .rejected d _ :: calls => lossOf K pipeline done d + totalLoss K pipeline done calls

theorem attempts_from (hK : Lawful K) (pipeline : List Element) (calls : List (Attempt D)) (done : List (Op D))
    (hs : SmallLexicon pipeline (done ++ accepted calls)) (s0 : TI D R) (h0 : run K pipeline done = .ok s0) (c : Int) :
    ∃ s, run K pipeline (done ++ accepted calls) = .ok s ∧
      calls.foldlM (stepAttempt K pipeline) (s0.shift c) = .ok (s.shift (c - totalLoss K pipeline done calls)) := by
  induction calls generalizing done s0 c with
  | nil =>
    refine ⟨s0, ?_, ?_⟩
    · show run K pipeline (done ++ []) = _
      rw [List.append_nil]; exact h0
    · show _ = Except.ok (s0.shift (c - 0))
      rw [sub_zero]; rfl
  | cons call calls ih =>
    cases call with
    | made op =>
      have hs' : SmallLexicon pipeline ((done ++ [op]) ++ accepted calls) := by
        rw [List.append_assoc]; exact hs
      obtain ⟨s1, h1, -⟩ := run_ok hK pipeline (done ++ [op]) (small_front hs')
      have hstep : step K pipeline s0 op = .ok s1 := by
        rw [run_snoc, h0] at h1; exact h1
      obtain ⟨s, hr, hf⟩ := ih (done ++ [op]) hs' s1 h1 c
      refine ⟨s, ?_, ?_⟩
      · rw [← hr, List.append_assoc]; rfl
      · rw [List.foldlM_cons]
        show (step K pipeline (s0.shift c) op >>= _) = _
        rw [step_shift, hstep]
        exact hf
    | rejected d e =>
      obtain ⟨s1, h1, -, hi⟩ := run_ok hK pipeline done (small_front hs)
      obtain rfl : s1 = s0 := Except.ok.inj (h1.symm.trans h0)
      obtain ⟨s, hr, hf⟩ := ih done hs s1 h0 (c - lossOf K pipeline done d)
      refine ⟨s, hr, ?_⟩
      rw [List.foldlM_cons]
      show (Except.ok { s1 with ix := (rejectedDoc K d e (Text.shift c s1.ix)).1 } >>= _) = _
      rw [rejected_ok hK hi]
      show calls.foldlM (stepAttempt K pipeline) (s1.shift _) = _
      rw [hf, sub_sub]
      rfl

/-- the state after calls some of which were rejected -/
theorem attempts_state (hK : Lawful K) (pipeline : List Element) (calls : List (Attempt D))
    (hs : SmallLexicon pipeline (accepted calls)) :
    ∃ s, run K pipeline (accepted calls) = .ok s ∧
      runAttempts K pipeline calls = .ok (s.shift (0 - totalLoss K pipeline [] calls)) := by
  obtain ⟨s, h1, h2⟩ := attempts_from hK pipeline calls [] hs _ rfl 0
  rw [TI.shift_zero] at h2
  exact ⟨s, h1, h2⟩

end Verif.Text
