import Verif.Proofs.TxnMerge
import Verif.Proofs.Lexicon

/-! Concurrent transactions on a lexicon. -/

set_option autoImplicit false

namespace Verif.Lexicon

theorem Le.words {s t : Lexicon} (hs : Inv s) (ht : Inv t) (h : Le s t) (n : Int) (w : Word) (hn : s.words.get? n = some w) :
    t.words.get? n = some w := (ht w n).1 (h w n ((hs w n).2 hn))

/-- the merge of two extensions of a lexicon extends both -/
theorem merge_spec {o c x r : Lexicon} (ho : Inv o) (hc : Inv c) (hx : Inv x) (h1 : Le o c) (h2 : Le o x)
    (h : merge o c x = some r) : Inv r ∧ Le c r ∧ Le x r := by
  unfold merge at h
  cases hw : mergeTree o.wids c.wids x.wids with
  | none => rw [hw] at h; cases h
  | some wids =>
  cases hn : mergeTree o.words c.words x.words with
  | none => rw [hw, hn] at h; cases h
  | some words =>
  rw [hw, hn] at h
  cases h
  have kw := fun w => mergeTree_keywise hw w
  have kn := fun n => mergeTree_keywise hn n
  have c1 : ∀ w n, c.wids.get? w = some n → wids.get? w = some n := by
    intro w n hcw
    rcases kw w with ⟨e1, e2⟩ | ⟨e1, e2⟩
    · rw [e2]; exact h2 w n (e1.trans hcw)
    · exact e2.trans hcw
  have x1 : ∀ w n, x.wids.get? w = some n → wids.get? w = some n := by
    intro w n hxw
    rcases kw w with ⟨e1, e2⟩ | ⟨e1, e2⟩
    · exact e2.trans hxw
    · rw [e2]; exact h1 w n (e1.trans hxw)
  have c2 : ∀ w n, c.words.get? n = some w → words.get? n = some w := by
    intro w n hcw
    rcases kn n with ⟨e1, e2⟩ | ⟨e1, e2⟩
    · rw [e2]; exact h2.words ho hx n w (e1.trans hcw)
    · exact e2.trans hcw
  have x2 : ∀ w n, x.words.get? n = some w → words.get? n = some w := by
    intro w n hxw
    rcases kn n with ⟨e1, e2⟩ | ⟨e1, e2⟩
    · exact e2.trans hxw
    · rw [e2]; exact h1.words ho hc n w (e1.trans hxw)
  refine ⟨?_, c1, x1⟩
  intro w n
  show wids.get? w = some n ↔ words.get? n = some w
  constructor
  · intro hr
    rcases kw w with ⟨-, e2⟩ | ⟨-, e2⟩
    · exact x2 w n ((hx w n).1 (e2 ▸ hr))
    · exact c2 w n ((hc w n).1 (e2 ▸ hr))
  · intro hr
    rcases kn n with ⟨-, e2⟩ | ⟨-, e2⟩
    · exact x1 w n ((hx w n).2 (e2 ▸ hr))
    · exact c1 w n ((hc w n).2 (e2 ▸ hr))

theorem exec_spec (pipeline : List Element) (ops : List (Int × TextArg)) {s : Lexicon} (h : Inv s) :
    Inv (ops.foldl (fun s p => (sourceToWordIds pipeline { s with count := p.1 } p.2).1) s) ∧
    Le s (ops.foldl (fun s p => (sourceToWordIds pipeline { s with count := p.1 } p.2).1) s) := by
  induction ops generalizing s with
  | nil => exact ⟨h, Le.refl s⟩
  | cons p ops ih =>
    rw [List.foldl_cons]
    have h' : Inv { s with count := p.1 } := h
    have hi : Inv (sourceToWordIds pipeline { s with count := p.1 } p.2).1 :=
      createAll_preserves Inv (fun s w hs => create_inv hs w) _ _ h'
    have hl : Le s (sourceToWordIds pipeline { s with count := p.1 } p.2).1 :=
      createAll_le { s with count := p.1 } _
    exact ⟨(ih hi).1, hl.trans (ih hi).2⟩

/-! ### The merge is what executing the calls one after the other gives -/

/-- the calls of a transaction -/
def replay (pipeline : List Element) (s : Lexicon) (calls : List (Int × TextArg)) : Lexicon :=
  calls.foldl (fun s p => (sourceToWordIds pipeline { s with count := p.1 } p.2).1) s

/-- lexicons that differ at most in the counter -/
def Same (s t : Lexicon) : Prop := s.wids = t.wids ∧ s.words = t.words

theorem Same.refl (s : Lexicon) : Same s s := ⟨rfl, rfl⟩
theorem Same.symm {s t : Lexicon} (h : Same s t) : Same t s := ⟨h.1.symm, h.2.symm⟩
theorem Same.trans {s t u : Lexicon} (h : Same s t) (h' : Same t u) : Same s u := ⟨h.1.trans h'.1, h.2.trans h'.2⟩

theorem Same.inv {s t : Lexicon} (h : Same s t) (hs : Inv s) : Inv t := by
  intro w n; rw [← h.1, ← h.2]; exact hs w n

theorem Same.le {s t : Lexicon} (h : Same s t) : Le s t := by
  intro w n e; rw [← h.1]; exact e

theorem Same.getWid {s t : Lexicon} (h : Same s t) : s.getWid = t.getWid := by
  funext w; unfold Lexicon.getWid; rw [h.1]

theorem Same.create {s t : Lexicon} (h : Same s t) (hc : s.count = t.count) : s = t := by
  cases s; cases t
  obtain ⟨h1, h2⟩ := h
  cases h1; cases h2; cases hc; rfl

theorem Same.replay {s t : Lexicon} (h : Same s t) (pipeline : List Element) (calls : List (Int × TextArg)) :
    Same (replay pipeline s calls) (replay pipeline t calls) := by
  cases calls with
  | nil => exact h
  | cons p calls =>
    have : ({ s with count := p.1 } : Lexicon) = { t with count := p.1 } := by rw [h.1, h.2]
    unfold Lexicon.replay
    rw [List.foldl_cons, List.foldl_cons, this]
    exact Same.refl _

theorem replay_append (pipeline : List Element) (s : Lexicon) (a b : List (Int × TextArg)) :
    replay pipeline s (a ++ b) = replay pipeline (replay pipeline s a) b := List.foldl_append

/-- the calls, as a history of the single-threaded model -/
theorem run_calls (pipeline : List Element) (calls : List (Int × TextArg)) (s : Lexicon) :
    runFrom pipeline s (calls.flatMap (fun p => [.reload p.1, .source p.2])) = replay pipeline s calls := by
  induction calls generalizing s with
  | nil => rfl
  | cons p calls ih =>
    rw [List.flatMap_cons]
    unfold runFrom
    rw [List.foldl_append]
    exact ih _

theorem bump_between (words : SMap Int Word) (fuel : Nat) (c i : Int) (h1 : c ≤ i) (h2 : i < bump words fuel c) :
    words.contains i = true := by
  induction fuel generalizing c with
  | zero => unfold bump at h2; omega
  | succ n ih =>
    unfold bump at h2
    by_cases hc : words.contains c = true
    · rw [if_pos hc] at h2
      by_cases e : i = c
      · rw [e]; exact hc
      · exact ih (c + 1) (by omega) h2
    · rw [if_neg hc] at h2; omega

/-- the new id is the first free one after the counter -/
theorem newWid_unique (s : Lexicon) (n : Int) (h1 : s.count < n) (h2 : s.words.get? n = none)
    (h3 : ∀ i, s.count < i → i < n → s.words.contains i = true) : s.newWid = n := by
  have f := newWid_free s
  have g := newWid_gt s
  by_contra hne
  rcases lt_or_gt_of_ne hne with hlt | hlt
  · have := h3 _ g hlt
    rw [← SMap.contains_eq_false] at f
    rw [f] at this; cases this
  · have := bump_between s.words (s.words.len + 1) (s.count + 1) n (by omega) hlt
    rw [← SMap.contains_eq_false] at h2
    rw [h2] at this; cases this

section
variable {o c x : Lexicon} (hw : ∀ w n, x.wids.get? w = some n → o.wids.get? w = none → c.wids.get? w = none)
  (hn : ∀ n w, x.words.get? n = some w → o.words.get? n = none → c.words.get? n = none)

/-- `t` is `c` with the words `s` has more than `o` -/
structure Joined (o c s t : Lexicon) : Prop where
  inv : Inv s
  le : Le o s
  wids : ∀ w, t.wids.get? w = (c.wids.get? w).or (s.wids.get? w)
  words : ∀ n, t.words.get? n = (c.words.get? n).or (s.words.get? n)
  count : t.count = s.count

include hw hn

theorem Joined.create (ho : Inv o) (hx : Inv x) (hoc : Le o c) {s t : Lexicon} (h : Joined o c s t) (w : Word) (hle : Le (s.getWordIdCreate w).1 x) :
    Joined o c (s.getWordIdCreate w).1 (t.getWordIdCreate w).1 := by
  cases hs : s.wids.get? w with
  | some n =>
    have ht : ∃ m, t.wids.get? w = some m := by
      rw [h.wids, hs]
      cases c.wids.get? w <;> simp
    obtain ⟨m, hm⟩ := ht
    rw [getWordIdCreate_some hs, getWordIdCreate_some hm]
    exact h
  | none =>
    have hle' := hle
    rw [getWordIdCreate_none hs] at hle'
    have hxw : x.wids.get? w = some s.newWid := hle' w _ (SMap.get?_set_self _ _ _)
    have how : o.wids.get? w = none := by
      cases e : o.wids.get? w with
      | none => rfl
      | some n => rw [h.le w n e] at hs; cases hs
    have hcw := hw w _ hxw how
    have htw : t.wids.get? w = none := by rw [h.wids, hs, hcw]; rfl
    have hxn := (hx w _).1 hxw
    have hon : o.words.get? s.newWid = none := by
      cases e : o.words.get? s.newWid with
      | none => rfl
      | some v =>
        have e' := (ho v _).2 e
        have := (h.inv v _).1 (h.le v _ e')
        rw [newWid_free s] at this; cases this
    have hcn := hn _ _ hxn hon
    have hnew : t.newWid = s.newWid := by
      refine newWid_unique t _ ?_ ?_ ?_
      · rw [h.count]; exact newWid_gt s
      · rw [h.words, hcn, newWid_free s]; rfl
      · intro i h1 h2
        rw [h.count] at h1
        have := bump_between s.words (s.words.len + 1) (s.count + 1) i (by omega) h2
        rw [SMap.contains_iff] at this ⊢
        obtain ⟨v, hv⟩ := this
        rw [h.words, hv]
        cases c.words.get? i <;> simp
    have hinv := create_inv h.inv w
    have hle2 := h.le.trans (create_le s w)
    rw [getWordIdCreate_none hs] at hinv hle2
    rw [getWordIdCreate_none hs, getWordIdCreate_none htw, hnew]
    refine ⟨hinv, hle2, ?_, ?_, rfl⟩
    · intro v
      show (t.wids.set w _).get? v = (c.wids.get? v).or ((s.wids.set w _).get? v)
      rw [SMap.get?_set, SMap.get?_set, h.wids]
      by_cases hv : v = w
      · rw [if_pos hv, if_pos hv, hv, hcw]; rfl
      · rw [if_neg hv, if_neg hv]
    · intro v
      show (t.words.set _ w).get? v = (c.words.get? v).or ((s.words.set _ w).get? v)
      rw [SMap.get?_set, SMap.get?_set, h.words]
      by_cases hv : v = s.newWid
      · rw [if_pos hv, if_pos hv, hv, hcn]; rfl
      · rw [if_neg hv, if_neg hv]

theorem Joined.createAll (ho : Inv o) (hx : Inv x) (hoc : Le o c) (ws : List Word) {s t : Lexicon} (h : Joined o c s t) (hle : Le (s.createAll ws).1 x) :
    Joined o c (s.createAll ws).1 (t.createAll ws).1 := by
  induction ws generalizing s t with
  | nil => exact h
  | cons w ws ih =>
    have h1 : Le (s.getWordIdCreate w).1 x := (createAll_le _ ws).trans hle
    exact ih (h.create hw hn ho hx hoc w h1) hle

theorem Joined.replay (ho : Inv o) (hx : Inv x) (hoc : Le o c) (pipeline : List Element) (calls : List (Int × TextArg)) {s t : Lexicon}
    (h : Joined o c s t) (hle : Le (Lexicon.replay pipeline s calls) x) :
    ∃ u, Joined o c (Lexicon.replay pipeline s calls) u ∧ Same u (Lexicon.replay pipeline t calls) := by
  induction calls generalizing s t with
  | nil => exact ⟨t, h, Same.refl t⟩
  | cons p calls ih =>
    have h0 : Joined o c { s with count := p.1 } { t with count := p.1 } := ⟨h.inv, h.le, h.wids, h.words, rfl⟩
    have h1 : Le (sourceToWordIds pipeline { s with count := p.1 } p.2).1 x :=
      (exec_spec pipeline calls (createAll_preserves Inv (fun s w hs => create_inv hs w) _ _ h0.inv)).2.trans hle
    exact ih (h0.createAll hw hn ho hx hoc _ h1) hle
end

/-- the merge of two extensions of a lexicon is the committed one, on which the calls of the other transaction were executed -/
theorem merge_serial {o c x r : Lexicon} (ho : Inv o) (hc : Inv c) (hx : Inv x) (h1 : Le o c) (h2 : Le o x) (h : merge o c x = some r)
    (pipeline : List Element) (calls : List (Int × TextArg)) (hcalls : Same x (replay pipeline o calls)) :
    Same r (replay pipeline c calls) := by
  unfold merge at h
  cases hw : mergeTree o.wids c.wids x.wids with
  | none => rw [hw] at h; cases h
  | some wids =>
  cases hn : mergeTree o.words c.words x.words with
  | none => rw [hw, hn] at h; cases h
  | some words =>
  rw [hw, hn] at h
  cases h
  have kw := fun w => mergeTree_keywise hw w
  have kn := fun n => mergeTree_keywise hn n
  have dw : ∀ w n, x.wids.get? w = some n → o.wids.get? w = none → c.wids.get? w = none := by
    intro w n hxw how
    rcases kw w with ⟨e, -⟩ | ⟨e, -⟩
    · rw [← e, how]
    · rw [how, hxw] at e; cases e
  have dn : ∀ n w, x.words.get? n = some w → o.words.get? n = none → c.words.get? n = none := by
    intro n w hxw how
    rcases kn n with ⟨e, -⟩ | ⟨e, -⟩
    · rw [← e, how]
    · rw [how, hxw] at e; cases e
  have j0 : Joined o c { o with count := 0 } { c with count := 0 } := by
    refine ⟨ho, fun w n e => e, ?_, ?_, rfl⟩
    · intro w
      show c.wids.get? w = (c.wids.get? w).or (o.wids.get? w)
      cases e : c.wids.get? w with
      | some n => rfl
      | none =>
        cases e' : o.wids.get? w with
        | none => rfl
        | some n => rw [h1 w n e'] at e; cases e
    · intro n
      show c.words.get? n = (c.words.get? n).or (o.words.get? n)
      cases e : c.words.get? n with
      | some w => rfl
      | none =>
        cases e' : o.words.get? n with
        | none => rfl
        | some w => rw [h1.words ho hc n w e'] at e; cases e
  have so : Same ({ o with count := 0 } : Lexicon) o := ⟨rfl, rfl⟩
  have sc : Same ({ c with count := 0 } : Lexicon) c := ⟨rfl, rfl⟩
  have sx := hcalls.trans (so.symm.replay pipeline calls)
  obtain ⟨u, hu, hs⟩ := j0.replay dw dn ho hx h1 pipeline calls sx.symm.le
  refine Same.trans ?_ (hs.trans (sc.replay pipeline calls))
  refine ⟨?_, ?_⟩
  · show wids = u.wids
    ext1 w
    rw [hu.wids, ← sx.1]
    rcases kw w with ⟨e1, e2⟩ | ⟨e1, e2⟩
    · rw [e2]
      cases e : c.wids.get? w with
      | none => rfl
      | some n => rw [h2 w n (e1.trans e)]; rfl
    · rw [e2]
      cases e : c.wids.get? w with
      | some n => rfl
      | none =>
        cases e' : o.wids.get? w with
        | none => rw [← e1, e']; rfl
        | some n => rw [h1 w n e'] at e; cases e
  · show words = u.words
    ext1 n
    rw [hu.words, ← sx.2]
    rcases kn n with ⟨e1, e2⟩ | ⟨e1, e2⟩
    · rw [e2]
      cases e : c.words.get? n with
      | none => rfl
      | some w => rw [h2.words ho hx n w (e1.trans e)]; rfl
    · rw [e2]
      cases e : c.words.get? n with
      | some w => rfl
      | none =>
        cases e' : o.words.get? n with
        | none => rw [← e1, e']; rfl
        | some w => rw [h1.words ho hc n w e'] at e; cases e

/-- the schedule theorem applies to lexicons -/
def sound (pipeline : List Element) :
    Txn.Sound (engine pipeline) (fun (_ : Unit → Unit) (_ : Int × TextArg) (_ : Unit) => ()) (fun _ => True) where
  abs _ _ := ()
  Wf _ := Inv
  Evo := Le
  NewFrom _ _ _ := True
  mono _ _ _ _ h := h
  refl := Le.refl
  trans _ _ _ _ _ _ h1 h2 := h1.trans h2
  exec n s ops h _ := ⟨le_refl _, fun _ => ⟨(exec_spec pipeline ops h).1, (exec_spec pipeline ops h).2, trivial, fun _ => rfl⟩⟩
  merge n m o c x r ho hc hoc _ hx hox _ h := by
    obtain ⟨a, b, -⟩ := merge_spec ho hc hx hoc hox h
    exact ⟨a, b, fun _ => Or.inl ⟨rfl, rfl⟩⟩

end Verif.Lexicon
