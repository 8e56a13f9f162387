import Verif.Proofs.Query

set_option autoImplicit false

namespace Verif
namespace QueryParser

open Spec (OrE AndE Items TermE atomMean atomsMean join atomsOf Clean)

variable {parseTerms : Word → List Word}

theorem atomMean_clean {w : Word} {m : Bool × Node} (h : atomMean parseTerms w = some m) : Clean m.2 := by
  unfold atomMean at h
  split at h
  · cases h
  · cases h
    dsimp only
    split
    · exact .glob _
    · exact .atom _
  · rename_i xs h1 h2
    cases h
    refine .phrase _ ?_
    rcases hx : parseTerms w with _ | ⟨a, _ | ⟨b, l⟩⟩
    · exact absurd hx h1
    · exact absurd hx (h2 a)
    · simp

theorem join_and_clean (pos neg : List Node) (hp : pos ≠ []) (hcp : ∀ n ∈ pos, Clean n) (hcn : ∀ n ∈ neg, Clean n) (n : Node)
    (h : join .and (pos ++ neg.map .not) = some n) : Clean n := by
  rcases pos with _ | ⟨a, pos⟩
  · exact absurd rfl hp
  · rw [List.cons_append, join_and] at h
    split at h
    · cases h; exact hcp _ List.mem_cons_self
    · rename_i hne
      cases h
      refine .and (a :: pos) neg (by simp) ?_ hcp hcn
      rcases pos with _ | ⟨b, pos⟩
      · rcases neg with _ | ⟨c, neg⟩
        · simp at hne
        · simp
      · simp

theorem join_or_clean (l : List Node) (hl : ∀ n ∈ l, Clean n) (n : Node) (h : join .or l = some n) : Clean n := by
  rcases l with _ | ⟨a, _ | ⟨b, l⟩⟩
  · cases h
  · cases h; exact hl _ List.mem_cons_self
  · cases h; exact .or _ (by simp) hl

theorem atomsMean_clean {ws : List Word} {n : Node} (h : atomsMean parseTerms ws = .ok (some n)) : Clean n := by
  unfold atomsMean at h
  dsimp only at h
  have hc : ∀ m ∈ ws.filterMap (atomMean parseTerms), Clean m.2 := by
    intro m hm
    obtain ⟨w, -, h⟩ := List.mem_filterMap.1 hm
    exact atomMean_clean h
  generalize ws.filterMap (atomMean parseTerms) = ms at *
  split at h
  · cases h
  · rename_i hcond
    have h : join .and ((ms.filter (fun m => !m.1)).map (·.2) ++ (ms.filter (fun m => m.1)).map (fun m => Node.not m.2)) = some n :=
      Except.ok.inj h
    have e : (ms.filter (fun m => m.1)).map (fun m => Node.not m.2) = ((ms.filter (fun m => m.1)).map (·.2)).map .not := by
      rw [List.map_map]; rfl
    rw [e] at h
    have hcm : ∀ p : Bool × Node → Bool, ∀ n ∈ (ms.filter p).map (·.2), Clean n := by
      intro p n hn
      obtain ⟨m, hm, rfl⟩ := List.mem_map.1 hn
      exact hc m (List.mem_filter.1 hm).1
    refine join_and_clean _ _ ?_ (hcm _) (hcm _) n h
    intro hpos
    refine hcond ⟨by rw [hpos]; rfl, ?_⟩
    intro hneg
    rw [e, List.isEmpty_iff] at hneg
    rw [hpos, hneg] at h
    cases h

mutual

theorem OrE_clean (o : OrE) (l : List Node) (h : o.parts parseTerms = .ok l) : ∀ n ∈ l, Clean n := by
  cases o with
  | one a =>
    rw [OrE.parts] at h
    cases ha : a.mean parseTerms with
    | error e => rw [ha] at h; cases h
    | ok m =>
      rw [ha] at h
      cases h
      intro n hn
      rw [Option.mem_toList] at hn
      rw [Option.mem_def.1 hn] at ha
      exact AndE_clean a n ha
  | more a rest =>
    rw [OrE.parts] at h
    cases ha : a.mean parseTerms with
    | error e => rw [ha] at h; cases h
    | ok m =>
      rw [ha] at h
      cases hr : rest.parts parseTerms with
      | error e => rw [hr] at h; cases h
      | ok ms =>
        rw [hr] at h
        cases h
        intro n hn
        rcases List.mem_append.1 hn with hn | hn
        · rw [Option.mem_toList] at hn
          rw [Option.mem_def.1 hn] at ha
          exact AndE_clean a n ha
        · exact OrE_clean rest ms hr n hn

theorem AndE_clean (a : AndE) (n : Node) (h : a.mean parseTerms = .ok (some n)) : Clean n := by
  cases a with
  | mk t rest =>
    rw [AndE.mean] at h
    cases ht : t.mean parseTerms with
    | error e => rw [ht] at h; cases h
    | ok m =>
      rw [ht] at h
      cases hr : rest.parts parseTerms with
      | error e => rw [hr] at h; cases h
      | ok ms =>
        rw [hr] at h
        simp only [bind, Except.bind, pure, Except.pure, Except.ok.injEq] at h
        split at h
        · cases h
        · rename_i hne
          refine join_and_clean _ _ ?_ ?_ (Items_clean rest ms hr).2 n h
          · intro e; rw [e] at hne; exact hne rfl
          · intro x hx
            rcases List.mem_append.1 hx with hx | hx
            · rw [Option.mem_toList] at hx
              rw [Option.mem_def.1 hx] at ht
              exact TermE_clean t x ht
            · exact (Items_clean rest ms hr).1 x hx

theorem Items_clean (i : Items) (ms : List Node × List Node) (h : i.parts parseTerms = .ok ms) :
    (∀ n ∈ ms.1, Clean n) ∧ ∀ n ∈ ms.2, Clean n := by
  cases i with
  | nil => cases h; exact ⟨by simp, by simp⟩
  | andTerm t rest =>
    rw [Items.parts] at h
    cases ht : t.mean parseTerms with
    | error e => rw [ht] at h; cases h
    | ok m =>
      rw [ht] at h
      cases hr : rest.parts parseTerms with
      | error e => rw [hr] at h; cases h
      | ok ms' =>
        rw [hr] at h
        cases h
        refine ⟨fun n hn => ?_, (Items_clean rest ms' hr).2⟩
        rcases List.mem_append.1 hn with hn | hn
        · rw [Option.mem_toList] at hn
          rw [Option.mem_def.1 hn] at ht
          exact TermE_clean t n ht
        · exact (Items_clean rest ms' hr).1 n hn
  | andNot t rest =>
    rw [Items.parts] at h
    cases ht : t.mean parseTerms with
    | error e => rw [ht] at h; cases h
    | ok m =>
      rw [ht] at h
      cases hr : rest.parts parseTerms with
      | error e => rw [hr] at h; cases h
      | ok ms' =>
        rw [hr] at h
        cases h
        refine ⟨(Items_clean rest ms' hr).1, fun n hn => ?_⟩
        rcases List.mem_append.1 hn with hn | hn
        · rw [Option.mem_toList] at hn
          rw [Option.mem_def.1 hn] at ht
          exact TermE_clean t n ht
        · exact (Items_clean rest ms' hr).2 n hn
  | not t rest =>
    rw [Items.parts] at h
    cases ht : t.mean parseTerms with
    | error e => rw [ht] at h; cases h
    | ok m =>
      rw [ht] at h
      cases hr : rest.parts parseTerms with
      | error e => rw [hr] at h; cases h
      | ok ms' =>
        rw [hr] at h
        cases h
        refine ⟨(Items_clean rest ms' hr).1, fun n hn => ?_⟩
        rcases List.mem_append.1 hn with hn | hn
        · rw [Option.mem_toList] at hn
          rw [Option.mem_def.1 hn] at ht
          exact TermE_clean t n ht
        · exact (Items_clean rest ms' hr).2 n hn

theorem TermE_clean (x : TermE) (n : Node) (h : x.mean parseTerms = .ok (some n)) : Clean n := by
  cases x with
  | paren o =>
    rw [TermE.mean] at h
    cases ho : o.parts parseTerms with
    | error e => rw [ho] at h; cases h
    | ok ms =>
      rw [ho] at h
      exact join_or_clean ms (OrE_clean o ms ho) n (Except.ok.inj h)
  | atoms w ws =>
    rw [TermE.mean] at h
    exact atomsMean_clean h

end

theorem OrE_mean_clean (o : OrE) (n : Node) (h : o.mean parseTerms = .ok (some n)) : Clean n := by
  unfold OrE.mean at h
  cases ho : o.parts parseTerms with
  | error e => rw [ho] at h; cases h
  | ok ms =>
    rw [ho] at h
    exact join_or_clean ms (OrE_clean o ms ho) n (Except.ok.inj h)

/-! ### all atoms ignored -/

mutual

theorem OrE_ignored (o : OrE) (hi : ∀ w, Tok.atom w ∈ o.flat → parseTerms w = []) : o.parts parseTerms = .ok [] := by
  cases o with
  | one a =>
    rw [OrE.flat] at hi
    rw [OrE.parts, AndE_ignored a hi]; rfl
  | more a r =>
    rw [OrE.flat] at hi
    rw [OrE.parts, AndE_ignored a (fun w hw => hi w (List.mem_append_left _ hw)),
      OrE_ignored r (fun w hw => hi w (List.mem_append_right _ (List.mem_cons_of_mem _ hw)))]; rfl

theorem AndE_ignored (a : AndE) (hi : ∀ w, Tok.atom w ∈ a.flat → parseTerms w = []) : a.mean parseTerms = .ok none := by
  cases a with
  | mk t i =>
    rw [AndE.flat] at hi
    rw [AndE.mean, TermE_ignored t (fun w hw => hi w (List.mem_append_left _ hw)),
      Items_ignored i (fun w hw => hi w (List.mem_append_right _ hw))]; rfl

theorem Items_ignored (i : Items) (hi : ∀ w, Tok.atom w ∈ i.flat → parseTerms w = []) : i.parts parseTerms = .ok ([], []) := by
  cases i with
  | nil => rw [Items.parts]
  | andTerm t r =>
    rw [Items.flat] at hi
    rw [Items.parts, TermE_ignored t (fun w hw => hi w (by simp [hw])), Items_ignored r (fun w hw => hi w (by simp [hw]))]; rfl
  | andNot t r =>
    rw [Items.flat] at hi
    rw [Items.parts, TermE_ignored t (fun w hw => hi w (by simp [hw])), Items_ignored r (fun w hw => hi w (by simp [hw]))]; rfl
  | not t r =>
    rw [Items.flat] at hi
    rw [Items.parts, TermE_ignored t (fun w hw => hi w (by simp [hw])), Items_ignored r (fun w hw => hi w (by simp [hw]))]; rfl

theorem TermE_ignored (x : TermE) (hi : ∀ w, Tok.atom w ∈ x.flat → parseTerms w = []) : x.mean parseTerms = .ok none := by
  cases x with
  | paren o =>
    rw [TermE.flat] at hi
    rw [TermE.mean, OrE_ignored o (fun w hw => hi w (by simp [hw]))]; rfl
  | atoms w ws =>
    rw [TermE.flat] at hi
    rw [TermE.mean]
    have : (w :: ws).filterMap (atomMean parseTerms) = [] := by
      rw [List.filterMap_eq_nil_iff]
      intro v hv
      have : parseTerms v = [] := hi v (by
        rcases List.mem_cons.1 hv with rfl | hv
        · simp
        · simp [hv])
      unfold atomMean
      rw [this]
    unfold atomsMean
    rw [this]
    rfl

end

end QueryParser
end Verif
