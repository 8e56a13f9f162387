import Verif.Proofs.TxnClearReplace
import Verif.Props.TxnReplace
import Verif.Props.TxnClear

/-!
# Property C80, keyword indexes of any size

Transactions index and unindex documents of a keyword index, optimize it and clear it.
-/

set_option autoImplicit false

namespace Verif

open Spec.Txn Txn

section replaced
variable {D W : Type} [LinearOrder D] [LinearOrder W]

/-- C80, for keyword indexes of any size, with `optimize` among the calls: the committed assignments follow `ClearHistory` and every
committed state answers like an index used by one thread, as long as no transaction replaces the set object of a keyword while another
one changes the documents of this keyword, in the same containers (`ReplacedApartC`).  What is missing: otherwise it is false, see
`C70_keyword_fails` -/
theorem C80_keyword_replaced_partial (normalize : List W → List W) (ts : List (Txn (Keyword.Op D W)))
    (hu : ∀ t ∈ ts, ∀ op ∈ t.ops, IsUpdateOrOptimize op ∨ op = .clear) (hp : ∀ t ∈ ts, Spec.Keyword.Plain normalize t.ops)
    (ha : ReplacedApartC normalize ts) :
    ∃ ms, ClearHistory (kwUpdateC normalize) (· = .clear) (fun _ _ => False) ts ms ∧
      List.Forall₂ (fun (s : Housed (HKeyword D W)) m => ∃ ops, Spec.Keyword.Plain id ops ∧
          (∀ d w, w ∈ Spec.Keyword.current id ops d ↔ m.1 d w) ∧
          (∀ q op, s.inner.view.search normalize q op = (Keyword.run id ops).search normalize q op) ∧
          s.inner.view.documentCount = (Keyword.run id ops).documentCount ∧
          s.inner.view.wordCount = (Keyword.run id ops).wordCount ∧
          ∀ d, s.inner.view.hasDoc d = (Keyword.run id ops).hasDoc d)
        (Db.run (Housed.engine (HKeyword.engine normalize) HKeyword.clearing) ⟨0, HKeyword.new⟩ ts).states ms := by
  have hok : ∀ t ∈ ts, ∀ c ∈ t.ops, ∀ op, HKeyword.clearing.keeps c = some op → HKeyword.PlainOp normalize HKeyword.Any op := by
    intro t ht c hc op hop
    have hco : c = op ∧ c ≠ .clear := by cases c <;> cases hop <;> exact ⟨rfl, by simp⟩
    obtain ⟨rfl, hne⟩ := hco
    refine ⟨(hu t ht c hc).resolve_right hne, ?_⟩
    rintro d items rfl
    exact ⟨hp t ht d items hc, fun _ _ => trivial⟩
  obtain ⟨ms, h1, h2, h3, -⟩ := (HKeyword.strictClearSound normalize HKeyword.Any).history HKeyword.wfTxn_new (by
    intro d
    funext w
    show (∃ ks, (SMap.empty : SMap D (SSet W)).get? d = some ks ∧ _) = _
    simp) ts hok
  rw [HKeyword.strictC_run normalize ts ha] at h2 h3
  have hcl : (fun c : Keyword.Op D W => HKeyword.clearing.keeps c = none) = (· = .clear) := by
    funext c
    cases c <;> simp [HKeyword.clearing]
  rw [hcl] at h1
  refine ⟨ms, h1, ?_⟩
  rw [List.forall₂_iff_get] at h2 ⊢
  refine ⟨h2.1, fun i hi hj => ?_⟩
  rw [← h2.2 i hi hj]
  exact HKeyword.Wf.rebuilt (h3 _ (List.get_mem _ _)).1 normalize

/-- C80, under the same hypothesis: a transaction that no other committed transaction overlapped commits -/
theorem C80_keyword_alone_replaced_partial (normalize : List W → List W) (ts : List (Txn (Keyword.Op D W))) (t : Txn (Keyword.Op D W))
    (hu : ∀ t' ∈ ts ++ [t], ∀ op ∈ t'.ops, IsUpdateOrOptimize op ∨ op = .clear) (hp : ∀ t' ∈ ts ++ [t], Spec.Keyword.Plain normalize t'.ops)
    (ha : ReplacedApartC normalize ts) (hb : t.back = 0) (hr : t.refused = false) :
    (Db.run (Housed.engine (HKeyword.engine normalize) HKeyword.clearing) ⟨0, HKeyword.new⟩ (ts ++ [t])).older =
        (Db.run (Housed.engine (HKeyword.engine normalize) HKeyword.clearing) ⟨0, HKeyword.new⟩ ts).states := by
  have hok : ∀ t' ∈ ts ++ [t], ∀ c ∈ t'.ops, ∀ op, HKeyword.clearing.keeps c = some op → HKeyword.PlainOp normalize HKeyword.Any op := by
    intro t' ht c hc op hop
    have hco : c = op ∧ c ≠ .clear := by cases c <;> cases hop <;> exact ⟨rfl, by simp⟩
    obtain ⟨rfl, hne⟩ := hco
    refine ⟨(hu t' ht c hc).resolve_right hne, ?_⟩
    rintro d items rfl
    exact ⟨hp t' ht d items hc, fun _ _ => trivial⟩
  have h := ((HKeyword.strictClearSound normalize HKeyword.Any).alone (s₀ := HKeyword.new) HKeyword.wfTxn_new (by
      intro d
      funext w
      show (∃ ks, (SMap.empty : SMap D (SSet W)).get? d = some ks ∧ _) = _
      simp)
    (HKeyword.strict_alone normalize) (fun a b => ⟨b, rfl, rfl⟩) ts t hok hb hr
    (Housed.exec_ok (E := HKeyword.strict normalize) (fun _ _ _ => rfl) _ _ _)).1
  rwa [HKeyword.strictC_run normalize _ (HKeyword.replacedApartC_snoc ha hb), HKeyword.strictC_run normalize ts ha] at h

/-- `ReplacedApartC`, computed -/
def replacedApartCBool (normalize : List W → List W) (ts : List (Txn (Keyword.Op D W))) : Bool :=
  (List.range ts.length).all fun i =>
    match ts[i]? with
    | none => true
    | some t =>
      let db := Db.run (Housed.engine (HKeyword.engine normalize) HKeyword.clearing) ⟨0, (HKeyword.new : HKeyword D W)⟩ (ts.take i)
      match db.states[t.back]? with
      | none => true
      | some base =>
        let mine := (Housed.exec (HKeyword.engine normalize) HKeyword.clearing db.next base t.ops).1.1
        !decide (db.latest.home = base.home) || !decide (mine.home = base.home) ||
        base.inner.fwd.keys.all fun w =>
          (!replacedBool base.inner db.latest.inner w || keptBool base.inner mine.inner w) &&
            (!replacedBool base.inner mine.inner w || keptBool base.inner db.latest.inner w)

theorem replacedApartC_of_bool {normalize : List W → List W} {ts : List (Txn (Keyword.Op D W))}
    (h : replacedApartCBool normalize ts = true) : ReplacedApartC normalize ts := by
  intro before t after he hc base hb mine hh1 hh2 w
  unfold replacedApartCBool at h
  rw [List.all_eq_true] at h
  have h := h before.length (by rw [List.mem_range, he]; simp)
  have e1 : ts[before.length]? = some t := by rw [he]; simp
  have e2 : ts.take before.length = before := by rw [he]; simp
  rw [e1, e2] at h
  dsimp only at h
  have hb : (Db.run (Housed.engine (HKeyword.engine normalize) HKeyword.clearing) ⟨0, (HKeyword.new : HKeyword D W)⟩ before).states[t.back]? =
    some base := hb
  rw [hb] at h
  dsimp only at h
  rw [decide_eq_true hh1, decide_eq_true (show _ = _ from hh2)] at h
  simp only [Bool.not_true, Bool.false_or] at h
  rw [List.all_eq_true] at h
  constructor
  · intro hr
    obtain ⟨hk, hr⟩ := replacedBool_of hr
    have := (Bool.and_eq_true _ _ ▸ h w hk).1
    rw [hr] at this
    exact kept_of_bool (by simpa using this)
  · intro hr
    obtain ⟨hk, hr⟩ := replacedBool_of hr
    have := (Bool.and_eq_true _ _ ▸ h w hk).2
    rw [hr] at this
    exact kept_of_bool (by simpa using this)

end replaced

/-- seventy documents get a keyword, the set of which is replaced by a tree; one overlapping transaction gives a document another
keyword, one optimizes the index after the one that clears it, which it did not see -/
def exClearReplaceTxns : List (Txn (Keyword.Op Nat Nat)) :=
  [⟨0, [.index 100 (.seq true [7])], false⟩,
   ⟨0, (List.range 70).map (fun d => .index d (.seq true [7])), false⟩,
   ⟨1, [.index 101 (.seq true [8])], false⟩,
   ⟨0, [.clear, .index 2 (.seq true [7])], false⟩,
   ⟨1, [.index 3 (.seq true [7]), .optimize], false⟩,
   ⟨1, [.index 4 (.seq true [7])], false⟩]

example : ReplacedApartC id exClearReplaceTxns := replacedApartC_of_bool (by decide +kernel)
example : (Db.run (Housed.engine (HKeyword.engine id) HKeyword.clearing) ⟨0, HKeyword.new⟩ exClearReplaceTxns).states.map
    (fun s => s.inner.rev.items.length) = [2, 1, 1, 72, 71, 1, 0] := by decide +kernel

end Verif
