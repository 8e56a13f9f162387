import Verif.Model.TextIndex
import Verif.Proofs.Base
import Verif.Proofs.WidCode

/-! # The inverted index: invariant and its preservation -/

set_option autoImplicit false

namespace Verif.Text

variable {D R : Type} [LinearOrder D]

/-! ## dicts -/

section dict

variable {V : Type}

theorem dget?_dset (k k' : Int) (v : V) (d : List (Int × V)) : dget? k' (dset k v d) = if k' = k then some v else dget? k' d := by
  induction d with
  | nil => simp [dset, dget?, eq_comm]
  | cons p d ih =>
    obtain ⟨a, b⟩ := p
    unfold dset
    by_cases h : a = k
    · subst h
      rw [if_pos rfl]
      unfold dget?
      by_cases hk : a = k'
      · simp [hk]
      · simp [hk, Ne.symm hk]
    · rw [if_neg h]
      unfold dget?
      by_cases hk : a = k'
      · subst hk; simp [h]
      · simp only [hk, if_false]; exact ih

theorem dget?_isSome (k : Int) (d : List (Int × V)) : (dget? k d).isSome ↔ k ∈ d.map (·.1) := by
  induction d with
  | nil => simp [dget?]
  | cons p d ih =>
    unfold dget?
    by_cases h : p.1 = k
    · simp [h]
    · simp only [h, if_false, List.map_cons, List.mem_cons, Ne.symm h, false_or]; exact ih

theorem dget?_none (k : Int) (d : List (Int × V)) : dget? k d = none ↔ k ∉ d.map (·.1) := by
  rw [← dget?_isSome]; simp

theorem dget?_mem {k : Int} {v : V} {d : List (Int × V)} (h : dget? k d = some v) : (k, v) ∈ d := by
  induction d with
  | nil => simp [dget?] at h
  | cons p d ih =>
    unfold dget? at h
    by_cases hk : p.1 = k
    · rw [if_pos hk] at h
      cases h; subst hk; simp
    · rw [if_neg hk] at h
      exact List.mem_cons_of_mem _ (ih h)

theorem dget?_of_mem {k : Int} {v : V} {d : List (Int × V)} (hn : (d.map (·.1)).Nodup) (h : (k, v) ∈ d) : dget? k d = some v := by
  induction d with
  | nil => simp at h
  | cons p d ih =>
    rw [List.map_cons, List.nodup_cons] at hn
    unfold dget?
    rcases List.mem_cons.1 h with rfl | h
    · simp
    · have : p.1 ≠ k := fun e => hn.1 (List.mem_map.2 ⟨(k, v), h, e.symm⟩)
      rw [if_neg this]; exact ih hn.2 h

theorem dset_keys (k : Int) (v : V) (d : List (Int × V)) :
    (dset k v d).map (·.1) = if k ∈ d.map (·.1) then d.map (·.1) else d.map (·.1) ++ [k] := by
  induction d with
  | nil => simp [dset]
  | cons p d ih =>
    obtain ⟨a, b⟩ := p
    unfold dset
    by_cases h : a = k
    · subst h; simp
    · simp only [h, if_false, List.map_cons, ih, List.mem_cons, Ne.symm h, false_or]
      split <;> simp

theorem countLoop_get (wids : List Int) (k : Int) :
    dget? k (countLoop wids) = if k ∈ wids then some (wids.count k) else none := by
  have : ∀ (l : List Int) (d : List (Int × Nat)), dget? k (l.foldl (fun d wid => dset wid ((dget? wid d).getD 0 + 1) d) d) =
      if k ∈ l then some ((dget? k d).getD 0 + l.count k) else dget? k d := by
    intro l
    induction l with
    | nil => intro d; simp
    | cons a l ih =>
      intro d
      rw [List.foldl_cons, ih]
      rw [dget?_dset]
      by_cases h : k = a
      · subst h
        by_cases hk : k ∈ l
        · simp [hk]; omega
        · simp [hk, List.count_eq_zero.2 hk]
      · by_cases hk : k ∈ l
        · simp [h, hk, List.count_cons, Ne.symm h]
        · simp [h, hk]
  unfold countLoop
  rw [this]
  simp [dget?]

theorem countLoop_nodup (wids : List Int) : ((countLoop wids).map (·.1)).Nodup := by
  have : ∀ (l : List Int) (d : List (Int × Nat)), (d.map (·.1)).Nodup →
      ((l.foldl (fun d wid => dset wid ((dget? wid d).getD 0 + 1) d) d).map (·.1)).Nodup := by
    intro l
    induction l with
    | nil => intro d h; exact h
    | cons a l ih =>
      intro d h
      refine ih _ ?_
      rw [dset_keys]
      split
      · exact h
      · rename_i hk
        rw [List.nodup_append]
        refine ⟨h, by simp, ?_⟩
        intro x hx y hy
        simp at hy; subst hy
        rintro rfl; exact hk hx
  exact this wids [] (by simp)

theorem countLoop_keys (wids : List Int) (k : Int) : k ∈ (countLoop wids).map (·.1) ↔ k ∈ wids := by
  rw [← dget?_isSome, countLoop_get]
  split <;> simp [*]

end dict

/-! ## the maps of words -/

/-- the value kept for a weight -/
def keep (A : Arith R) (tree : Bool) (w : R) : R := if tree then A.store w else w

/-- the word map holds the weights `P` -/
def Info (A : Arith R) (wi : SMap Int (D2S D R)) (P : D → Int → Option R) : Prop :=
  ∀ wid, (∀ e, wi.get? wid = some e → e.map.isEmpty = false ∧ ∀ d, e.map.get? d = (P d wid).map (keep A e.tree)) ∧
    (wi.get? wid = none → ∀ d, P d wid = none)

/-- change one weight -/
def upd (P : D → Int → Option R) (d : D) (wid : Int) (v : Option R) : D → Int → Option R :=
  fun d' w => if d' = d ∧ w = wid then v else P d' w

theorem grow_spec (A : Arith R) (e : D2S D R) (Q : D → Option R) (h : ∀ d, e.map.get? d = (Q d).map (keep A e.tree)) :
    ∀ d, (e.grow A).map.get? d = (Q d).map (keep A (e.grow A).tree) := by
  intro d
  unfold D2S.grow
  split
  · rename_i hc
    have ht : e.tree = false := by
      rw [Bool.and_eq_true] at hc; simpa using hc.1
    show (e.map.mapVals _).get? d = _
    rw [SMap.get?_mapVals, h d, ht]
    cases Q d <;> rfl
  · exact h d

theorem put_spec (A : Arith R) (e : D2S D R) (Q : D → Option R) (d : D) (f : R)
    (h : ∀ d, e.map.get? d = (Q d).map (keep A e.tree)) (d' : D) :
    (e.put A d f).map.get? d' = (if d' = d then some f else Q d').map (keep A (e.put A d f).tree) := by
  show (e.map.set d _).get? d' = _
  rw [SMap.get?_set]
  split
  · rfl
  · exact h d'

theorem put_nonempty (A : Arith R) (e : D2S D R) (d : D) (f : R) : (e.put A d f).map.isEmpty = false := by
  rw [SMap.isEmpty_eq_false_iff]
  exact ⟨d, _, SMap.get?_set_self _ _ _⟩

/-- the new entry of `_add_wordinfo` -/
def newEntry (A : Arith R) (o : Option (D2S D R)) (d : D) (f : R) : D2S D R :=
  match o with
  | none => ({ tree := false, map := SMap.empty } : D2S D R).put A d f
  | some e => (e.grow A).put A d f

theorem info_add (A : Arith R) {wi : SMap Int (D2S D R)} {P : D → Int → Option R} (h : Info A wi P) (wid : Int) (d : D) (f : R) :
    Info A (wi.set wid (newEntry A (wi.get? wid) d f)) (upd P d wid (some f)) := by
  intro w
  rw [SMap.get?_set]
  by_cases hw : w = wid
  · subst hw
    simp only [if_true]
    refine ⟨?_, by simp⟩
    intro e he
    obtain rfl := (Option.some.inj he).symm
    have hupd : ∀ d', upd P d w (some f) d' w = if d' = d then some f else P d' w := by
      intro d'; unfold upd; by_cases hd : d' = d <;> simp [hd]
    cases ho : wi.get? w with
    | none =>
      refine ⟨put_nonempty _ _ _ _, fun d' => ?_⟩
      rw [hupd]
      exact put_spec A _ (fun d => P d w) d f (by intro d'; rw [(h w).2 ho d']; rfl) d'
    | some e =>
      refine ⟨put_nonempty _ _ _ _, fun d' => ?_⟩
      rw [hupd]
      exact put_spec A _ (fun d => P d w) d f (grow_spec A e _ ((h w).1 e ho).2) d'
  · simp only [hw, if_false]
    have : ∀ d', upd P d wid (some f) d' w = P d' w := by intro d'; simp [upd, hw]
    simp only [this]
    exact h w

/-- `s` differs from `s0` in the word map only, which holds `P` -/
structure Good (A : Arith R) (s0 s : Ix D R) (P : D → Int → Option R) : Prop where
  docweight : s.docweight = s0.docweight
  docwords : s.docwords = s0.docwords
  documentCount : s.documentCount = s0.documentCount
  total : s.total = s0.total
  info : Info A s.wordinfo P
  wordCount : s.wordCount = s.wordinfo.len

variable (K : Kind D R)

theorem addWordinfo_good {s0 s : Ix D R} {P : D → Int → Option R} (h : Good K.arith s0 s P) (wid : Int) (f : R) (d : D) :
    Good K.arith s0 (addWordinfo K wid f d s) (upd P d wid (some f)) := by
  have hi := info_add K.arith h.info wid d f
  unfold addWordinfo
  cases ho : s.wordinfo.get? wid with
  | none =>
    rw [ho] at hi
    refine ⟨h.docweight, h.docwords, h.documentCount, h.total, hi, ?_⟩
    show s.wordCount + 1 = ((s.wordinfo.set wid _).len : Int)
    rw [SMap.len_set, (SMap.contains_eq_false _ _).2 ho, h.wordCount]; simp
  | some e =>
    rw [ho] at hi
    refine ⟨h.docweight, h.docwords, h.documentCount, h.total, hi, ?_⟩
    show s.wordCount = ((s.wordinfo.set wid _).len : Int)
    rw [SMap.len_set, SMap.contains_of_get? ho, h.wordCount]; simp

theorem massStep_spec (A : Arith R) (hA : K.arith = A) {wi : SMap Int (D2S D R)} {c n : Int} {P : D → Int → Option R} (h : Info A wi P) (hc : n + c = wi.len)
    (d : D) (p : Int × R) :
    Info A (massStep K d (wi, c) p).1 (upd P d p.1 (some p.2)) ∧ n + (massStep K d (wi, c) p).2 = (massStep K d (wi, c) p).1.len := by
  subst hA
  have hi := info_add K.arith h p.1 d p.2
  unfold massStep
  cases ho : wi.get? p.1 with
  | none =>
    rw [ho] at hi
    refine ⟨hi, ?_⟩
    show n + (c + 1) = ((wi.set p.1 _).len : Int)
    rw [SMap.len_set, (SMap.contains_eq_false _ _).2 ho]; simp; omega
  | some e =>
    rw [ho] at hi
    refine ⟨hi, ?_⟩
    show n + c = ((wi.set p.1 _).len : Int)
    rw [SMap.len_set, SMap.contains_of_get? ho]; simpa using hc

/-- set the weights of one document from a dict -/
def updAll (P : D → Int → Option R) (d : D) (l : List (Int × R)) : D → Int → Option R :=
  fun d' w => if d' = d then (dget? w l).or (P d w) else P d' w

theorem info_congr {A : Arith R} {wi : SMap Int (D2S D R)} {P Q : D → Int → Option R} (h : Info A wi P) (e : ∀ d w, P d w = Q d w) :
    Info A wi Q := by
  have : P = Q := by funext d w; exact e d w
  rw [← this]; exact h

theorem mass_fold {wi : SMap Int (D2S D R)} {c n : Int} {P : D → Int → Option R} (h : Info K.arith wi P) (hc : n + c = wi.len)
    (d : D) (l : List (Int × R)) (hn : (l.map (·.1)).Nodup) :
    Info K.arith (l.foldl (massStep K d) (wi, c)).1 (updAll P d l) ∧
      n + (l.foldl (massStep K d) (wi, c)).2 = (l.foldl (massStep K d) (wi, c)).1.len := by
  induction l generalizing wi c P with
  | nil =>
    refine ⟨info_congr h ?_, hc⟩
    intro d' w
    unfold updAll; by_cases hd : d' = d
    · subst hd; simp [dget?]
    · simp [hd]
  | cons p l ih =>
    rw [List.map_cons, List.nodup_cons] at hn
    obtain ⟨hi, hc'⟩ := massStep_spec K K.arith rfl h hc d p
    obtain ⟨h1, h2⟩ := ih hi hc' hn.2
    refine ⟨info_congr h1 ?_, h2⟩
    intro d' w
    unfold updAll upd
    by_cases hd : d' = d
    · subst hd
      simp only [if_true, true_and]
      conv_rhs => unfold dget?
      by_cases hw : p.1 = w
      · subst hw
        rw [(dget?_none _ _).2 hn.1]
        simp
      · simp [hw, Ne.symm hw]
    · simp [hd]

theorem massAdd_good {s0 s : Ix D R} {P : D → Int → Option R} (h : Good K.arith s0 s P) (d : D) (l : List (Int × R))
    (hn : (l.map (·.1)).Nodup) : Good K.arith s0 (massAdd K l d s) (updAll P d l) := by
  obtain ⟨h1, h2⟩ := mass_fold K h.info (c := 0) (n := s.wordCount) (by rw [h.wordCount]; simp) d l hn
  exact ⟨h.docweight, h.docwords, h.documentCount, h.total, h1, h2⟩

theorem delWordinfo_good {A : Arith R} {s0 s : Ix D R} {P : D → Int → Option R} (h : Good A s0 s P) (wid : Int) (d : D)
    (hp : P d wid ≠ none) : ∃ s', delWordinfo wid d s = .ok s' ∧ Good A s0 s' (upd P d wid none) := by
  unfold delWordinfo
  cases ho : s.wordinfo.get? wid with
  | none => exact absurd ((h.info wid).2 ho d) hp
  | some e =>
    obtain ⟨-, hv⟩ := (h.info wid).1 e ho
    obtain ⟨v, hpv⟩ := Option.ne_none_iff_exists'.1 hp
    have hc : e.map.contains d = true := by
      rw [SMap.contains_iff]; exact ⟨keep A e.tree v, by rw [hv d, hpv]; rfl⟩
    have hother : ∀ w, w ≠ wid → ∀ d', upd P d wid none d' w = P d' w := by
      intro w hw d'; simp [upd, hw]
    have hsame : ∀ d', (e.map.del d).get? d' = (upd P d wid none d' wid).map (keep A e.tree) := by
      intro d'
      rw [SMap.get?_del]
      unfold upd
      by_cases hd : d' = d
      · simp [hd]
      · simp only [hd, false_and, if_false]; exact hv d'
    simp only [hc, if_true]
    cases hem : (e.map.del d).isEmpty with
    | true =>
      simp only [if_true]
      refine ⟨_, rfl, h.docweight, h.docwords, h.documentCount, h.total, ?_, ?_⟩
      · intro w
        show (∀ e, (s.wordinfo.del wid).get? w = some e → _) ∧ ((s.wordinfo.del wid).get? w = none → _)
        rw [SMap.get?_del]
        by_cases hw : w = wid
        · subst hw
          refine ⟨by simp, fun _ d' => ?_⟩
          have := hsame d'
          rw [(SMap.isEmpty_iff _).1 hem d'] at this
          exact Option.map_eq_none_iff.1 this.symm
        · simp only [hw, if_false, hother w hw]; exact h.info w
      · show s.wordCount - 1 = ((s.wordinfo.del wid).len : Int)
        rw [SMap.len_del, SMap.contains_of_get? ho, h.wordCount, if_pos rfl]
        have : 0 < s.wordinfo.len := by
          have hm : wid ∈ s.wordinfo.keys := (SMap.mem_keys_iff _ _).2 ⟨e, ho⟩
          rw [← SMap.len_keys]; exact List.length_pos_of_mem hm
        omega
    | false =>
      simp only [Bool.false_eq_true, if_false]
      refine ⟨_, rfl, h.docweight, h.docwords, h.documentCount, h.total, ?_, ?_⟩
      · intro w
        show (∀ e', (s.wordinfo.set wid _).get? w = some e' → _) ∧ ((s.wordinfo.set wid _).get? w = none → _)
        rw [SMap.get?_set]
        by_cases hw : w = wid
        · subst hw
          simp only [if_true]
          refine ⟨?_, by simp⟩
          intro e' he'
          obtain rfl := Option.some.inj he'
          exact ⟨hem, hsame⟩
        · simp only [hw, if_false, hother w hw]; exact h.info w
      · show s.wordCount = ((s.wordinfo.set wid _).len : Int)
        rw [SMap.len_set, SMap.contains_of_get? ho, h.wordCount]; simp

/-- a loop over distinct words that sets the weights of a document to `g` -/
theorem loop_good {A : Arith R} {s0 : Ix D R} (d : D) (g : Int → Option R) (stp : Ix D R → Int → Except PyErr (Ix D R)) (l : List Int)
    (hn : l.Nodup) {s : Ix D R} {P : D → Int → Option R} (h : Good A s0 s P)
    (hs : ∀ w ∈ l, ∀ s Q, Good A s0 s Q → Q d w = P d w → ∃ s', stp s w = .ok s' ∧ Good A s0 s' (upd Q d w (g w))) :
    ∃ s', l.foldlM stp s = .ok s' ∧ Good A s0 s' (fun d' w => if d' = d ∧ w ∈ l then g w else P d' w) := by
  have key : ∀ (l : List Int), l.Nodup → ∀ (s : Ix D R) (Q : D → Int → Option R), Good A s0 s Q → (∀ w ∈ l, Q d w = P d w) →
      (∀ w ∈ l, ∀ s Q, Good A s0 s Q → Q d w = P d w → ∃ s', stp s w = .ok s' ∧ Good A s0 s' (upd Q d w (g w))) →
      ∃ s', l.foldlM stp s = .ok s' ∧ Good A s0 s' (fun d' w => if d' = d ∧ w ∈ l then g w else Q d' w) := by
    intro l
    induction l with
    | nil => intro _ s Q h _ _; exact ⟨s, rfl, by simpa using h⟩
    | cons a l ih =>
      intro hn s Q h hq hs
      rw [List.nodup_cons] at hn
      obtain ⟨s1, e1, h1⟩ := hs a (by simp) s Q h (hq a (by simp))
      obtain ⟨s2, e2, h2⟩ := ih hn.2 s1 _ h1 (by
        intro w hw
        have : w ≠ a := by rintro rfl; exact hn.1 hw
        simp only [upd, this, and_false, if_false]
        exact hq w (by simp [hw])) (fun w hw => hs w (by simp [hw]))
      refine ⟨s2, ?_, ?_⟩
      · rw [List.foldlM_cons, e1]; exact e2
      · have : (fun d' w => if d' = d ∧ w ∈ l then g w else upd Q d a (g a) d' w) =
            (fun d' w => if d' = d ∧ w ∈ a :: l then g w else Q d' w) := by
          funext d' w
          unfold upd
          by_cases hd : d' = d
          · subst hd
            by_cases hw : w = a
            · subst hw; simp [hn.1]
            · simp [hw]
          · simp [hd]
        rw [← this]; exact h2
  exact key l hn s P h (fun _ _ => rfl) hs

end Verif.Text
