import Verif.Props.Serial
import Verif.Proofs.TxnReplace

/-! # C70: concurrent transactions on keyword indexes with large sets -/

set_option autoImplicit false

namespace Verif

open Spec.Txn

section replaced
variable {D W : Type} [LinearOrder D] [LinearOrder W]

/-- C70, for keyword indexes of any size, with `optimize` among the calls: the same, as long as no transaction replaces the set object of
a keyword (which happens when a set grows to 64 members, or in `optimize`) while another one changes the documents of this keyword.
What `C70_keyword_fails` shows is therefore the only way in which concurrent changes of a keyword index get lost -/
theorem C70_keyword_replaced_partial (normalize : List W → List W) (ts : List (Txn (Keyword.Op D W)))
    (hu : ∀ t ∈ ts, ∀ op ∈ t.ops, IsUpdateOrOptimize op) (hp : ∀ t ∈ ts, Spec.Keyword.Plain normalize t.ops)
    (ha : ReplacedApart normalize ts) :
    ∃ ms, History (kwUpdate normalize) (fun _ _ => False) ts ms ∧
      List.Forall₂ (fun (s : HKeyword D W) m => ∃ ops, Spec.Keyword.Plain id ops ∧
          (∀ d w, w ∈ Spec.Keyword.current id ops d ↔ m d w) ∧
          (∀ q op, s.view.search normalize q op = (Keyword.run id ops).search normalize q op) ∧
          s.view.documentCount = (Keyword.run id ops).documentCount ∧ s.view.wordCount = (Keyword.run id ops).wordCount ∧
          ∀ d, s.view.hasDoc d = (Keyword.run id ops).hasDoc d)
        (Db.run (HKeyword.engine normalize) HKeyword.new ts).states ms := by
  have hok : ∀ t ∈ ts, ∀ op ∈ t.ops, HKeyword.PlainOp normalize HKeyword.Any op := by
    intro t ht op hop
    refine ⟨hu t ht op hop, ?_⟩
    rintro d items rfl
    exact ⟨hp t ht d items hop, fun _ _ => trivial⟩
  obtain ⟨h1, h2, -⟩ := (HKeyword.strictSound normalize HKeyword.Any).history (s₀ := HKeyword.new) HKeyword.wfTxn_new ts hok
  have habs : (HKeyword.strictSound normalize HKeyword.Any).abs (HKeyword.new : HKeyword D W) = fun _ _ => False := by
    funext d w
    show (∃ ks, (SMap.empty : SMap D (SSet W)).get? d = some ks ∧ _) = _
    simp
  rw [habs] at h1
  rw [HKeyword.strict_run normalize ts ha] at h1 h2
  refine ⟨_, h1, ?_⟩
  rw [List.forall₂_map_right_iff, List.forall₂_same]
  intro s hs
  exact HKeyword.Wf.rebuilt (h2 s hs) normalize

/-- C70, under the same hypothesis: a transaction that no other committed transaction overlapped commits, even if it replaces sets -/
theorem C70_keyword_alone_replaced_partial (normalize : List W → List W) (ts : List (Txn (Keyword.Op D W))) (t : Txn (Keyword.Op D W))
    (hu : ∀ t' ∈ ts ++ [t], ∀ op ∈ t'.ops, IsUpdateOrOptimize op) (hp : ∀ t' ∈ ts ++ [t], Spec.Keyword.Plain normalize t'.ops)
    (ha : ReplacedApart normalize ts) (hb : t.back = 0) (hr : t.refused = false) :
    (Db.run (HKeyword.engine normalize) HKeyword.new (ts ++ [t])).older = (Db.run (HKeyword.engine normalize) HKeyword.new ts).states := by
  have hok : ∀ t' ∈ ts ++ [t], ∀ op ∈ t'.ops, HKeyword.PlainOp normalize HKeyword.Any op := by
    intro t' ht op hop
    refine ⟨hu t' ht op hop, ?_⟩
    rintro d items rfl
    exact ⟨hp t' ht d items hop, fun _ _ => trivial⟩
  have h := ((HKeyword.strictSound normalize HKeyword.Any).alone (s₀ := HKeyword.new) HKeyword.wfTxn_new (HKeyword.strict_alone normalize) ts t hok hb hr rfl).1
  rwa [HKeyword.strict_run normalize _ (HKeyword.replacedApart_snoc ha hb), HKeyword.strict_run normalize ts ha] at h

/-- C87, keyword indexes of any size, with `optimize` among the calls: as long as no transaction replaces the set object of a keyword
while another one changes the documents of this keyword, and no transaction names a document changed by others while it ran, the
transactions have the effect of being run one after the other -/
theorem C87_keyword_replaced_partial (normalize : List W → List W) (ts : List (Txn (Keyword.Op D W)))
    (hu : ∀ t ∈ ts, ∀ op ∈ t.ops, IsUpdateOrOptimize op) (hp : ∀ t ∈ ts, Spec.Keyword.Plain normalize t.ops)
    (har : ReplacedApart normalize ts)
    (hn : NamedUntouched (HKeyword.engine normalize) HKeyword.new keywordNames (fun s t d => keywordAlike s.view t.view d) ts) :
    List.Forall₂ (fun (s : HKeyword D W) done =>
        (∀ q op, s.view.search normalize q op = (Keyword.run normalize (calls done)).search normalize q op) ∧
        s.view.documentCount = (Keyword.run normalize (calls done)).documentCount ∧
        s.view.wordCount = (Keyword.run normalize (calls done)).wordCount ∧
        ∀ d, s.view.hasDoc d = (Keyword.run normalize (calls done)).hasDoc d)
      (Db.run (HKeyword.engine normalize) HKeyword.new ts).states.reverse
      (committed (HKeyword.engine normalize) (HKeyword.new : HKeyword D W) ts).inits := by
  have hok : ∀ t ∈ ts, ∀ op ∈ t.ops, HKeyword.PlainOp normalize HKeyword.Any op := by
    intro t ht op hop
    refine ⟨hu t ht op hop, ?_⟩
    rintro d items rfl
    exact ⟨hp t ht d items hop, fun _ _ => trivial⟩
  have hn := HKeyword.strict_untouched normalize ts har hn
  have hn := (HKeyword.strictSound normalize HKeyword.Any).untouched HKeyword.wfTxn_new ts hok
    (same := fun s t d => keywordAlike s.view t.view d) (by
      intro n s t d hs ht _ h
      have hs : HKeyword.Wf HKeyword.Any n s := hs
      have ht : HKeyword.Wf HKeyword.Any n t := ht
      obtain ⟨ops, p1, h1, h2, -⟩ := hs.rebuilt id
      obtain ⟨ops', p1', h1', h2', -⟩ := ht.rebuilt id
      show s.kws d = t.kws d
      funext w
      obtain ⟨r, e, hr⟩ := C11_or id ops p1 (.str w)
      obtain ⟨r', e', hr'⟩ := C11_or id ops' p1' (.str w)
      rw [← h2] at e
      rw [← h2'] at e'
      have := h _ r r' e e'
      rw [hr, hr'] at this
      simp only [Spec.Keyword.words, id, List.mem_singleton, exists_eq_left] at this
      rw [show Spec.Keyword.current id ops = Spec.Keyword.current (fun l => l) ops from rfl] at *
      exact propext ((h1 d w).symm.trans (this.trans (h1' d w)))) hn
  have h := (HKeyword.strictSound normalize HKeyword.Any).serial (kwUpdate_local normalize) HKeyword.wfTxn_new ts hok hn
  obtain ⟨-, h2, -⟩ := (HKeyword.strictSound normalize HKeyword.Any).history HKeyword.wfTxn_new ts hok
  rw [HKeyword.strict_run normalize ts har] at h h2
  rw [HKeyword.strict_committed normalize ts har] at h
  refine (Txn.forall₂_mem h).imp ?_
  rintro s done ⟨hs, hd, ha⟩
  have hw : HKeyword.Wf HKeyword.Any _ s := h2 s (List.mem_reverse.1 hs)
  have hplain : Spec.Keyword.Plain normalize (calls done) := by
    intro d items hop
    obtain ⟨t, ht, hop⟩ := Txn.mem_calls hd hop
    exact hp t ht d items hop
  have hup : ∀ op ∈ calls done, op ≠ .clear := by
    rintro op hop rfl
    obtain ⟨t, ht, hop⟩ := Txn.mem_calls hd hop
    exact hu t ht _ hop
  have habs : (HKeyword.strictSound normalize HKeyword.Any).abs (HKeyword.new : HKeyword D W) = fun _ _ => False := by
    funext d w
    show (∃ ks, (SMap.empty : SMap D (SSet W)).get? d = some ks ∧ _) = _
    simp
  rw [habs] at ha
  have hsame := Keyword.same_of_inv (HKeyword.inv_view hw) (Keyword.run_inv normalize (calls done) hplain) (fun d w => by
    rw [kwUpdate_current normalize _ hup, ← ha]
    show _ ↔ ∃ ks, s.rev.get? d = some ks ∧ w ∈ ks.keys
    cases s.rev.get? d with
    | none => simp
    | some ks => simp)
  refine ⟨fun q op => Keyword.same_search hsame normalize q op, hsame.numDocs, Keyword.same_wordCount hsame, ?_⟩
  intro d
  unfold Keyword.hasDoc
  rw [hsame.rev]

/-- `Replaced`, computed -/
def replacedBool (s t : HKeyword D W) (w : W) : Bool :=
  match s.fwd.get? w with
  | none => false
  | some a => !decide (t.fwd.get? w = some a) && !(t.setAt a).ids.isEmpty

/-- `Kept`, computed -/
def keptBool (s t : HKeyword D W) (w : W) : Bool :=
  decide (t.fwd.get? w = s.fwd.get? w) &&
    match s.fwd.get? w with
    | none => true
    | some a => decide ((t.setAt a).ids = (s.setAt a).ids)

/-- `ReplacedApart`, computed -/
def replacedApartBool (normalize : List W → List W) (ts : List (Txn (Keyword.Op D W))) : Bool :=
  (List.range ts.length).all fun i =>
    match ts[i]? with
    | none => true
    | some t =>
      let db := Db.run (HKeyword.engine normalize) (HKeyword.new : HKeyword D W) (ts.take i)
      match db.states[t.back]? with
      | none => true
      | some base =>
        let mine := HKeyword.exec normalize db.next base t.ops
        base.fwd.keys.all fun w =>
          (!replacedBool base db.latest w || keptBool base mine w) && (!replacedBool base mine w || keptBool base db.latest w)

theorem replacedBool_of {s t : HKeyword D W} {w : W} (h : Replaced s t w) : w ∈ s.fwd.keys ∧ replacedBool s t w = true := by
  obtain ⟨a, h1, h2, h3⟩ := h
  refine ⟨(SMap.mem_keys_iff _ _).2 ⟨a, h1⟩, ?_⟩
  unfold replacedBool
  rw [h1]
  simp [h2, h3]

theorem kept_of_bool {s t : HKeyword D W} {w : W} (h : keptBool s t w = true) : Kept s t w := by
  unfold keptBool at h
  rw [Bool.and_eq_true] at h
  refine ⟨of_decide_eq_true h.1, fun a ha => ?_⟩
  rw [ha] at h
  exact of_decide_eq_true h.2

theorem replacedApart_of_bool {normalize : List W → List W} {ts : List (Txn (Keyword.Op D W))}
    (h : replacedApartBool normalize ts = true) : ReplacedApart normalize ts := by
  intro before t after he hc base hb mine w
  unfold replacedApartBool at h
  rw [List.all_eq_true] at h
  have h := h before.length (by rw [List.mem_range, he]; simp)
  have e1 : ts[before.length]? = some t := by rw [he]; simp
  have e2 : ts.take before.length = before := by rw [he]; simp
  rw [e1, e2] at h
  dsimp only at h
  have hb : (Db.run (HKeyword.engine normalize) (HKeyword.new : HKeyword D W) before).states[t.back]? = some base := hb
  rw [hb] at h
  dsimp only at h
  rw [List.all_eq_true] at h
  constructor
  · intro hr
    obtain ⟨hk, hr⟩ := replacedBool_of hr
    have := (Bool.and_eq_true _ _ ▸ h w hk).1
    rw [hr] at this
    exact kept_of_bool (by simpa using this)
  · intro hr
    obtain ⟨hk, hr⟩ := replacedBool_of hr
    have := (Bool.and_eq_true _ _ ▸ h w hk).2
    rw [hr] at this
    exact kept_of_bool (by simpa using this)

/-- `NamedUntouched` for a keyword index, computed -/
def namedBool (normalize : List W → List W) (ts : List (Txn (Keyword.Op D W))) : Bool :=
  (List.range ts.length).all fun i =>
    match ts[i]? with
    | none => true
    | some t =>
      let db := Db.run (HKeyword.engine normalize) (HKeyword.new : HKeyword D W) (ts.take i)
      match db.states[t.back]? with
      | none => true
      | some base => t.ops.all fun op =>
          match op with
          | .index d _ => decide (base.rev.get? d = db.latest.rev.get? d)
          | .unindex d => decide (base.rev.get? d = db.latest.rev.get? d)
          | .clear => false
          | _ => true

theorem named_of_bool {normalize : List W → List W} {ts : List (Txn (Keyword.Op D W))}
    (hu : ∀ t ∈ ts, ∀ op ∈ t.ops, IsUpdateOrOptimize op) (hp : ∀ t ∈ ts, Spec.Keyword.Plain normalize t.ops)
    (har : ReplacedApart normalize ts) (h : namedBool normalize ts = true) :
    NamedUntouched (HKeyword.engine normalize) (HKeyword.new : HKeyword D W) keywordNames (fun s t d => keywordAlike s.view t.view d) ts := by
  intro before t after he hcm base hb op hop d hd
  have hok : ∀ t ∈ before, ∀ op ∈ t.ops, HKeyword.PlainOp normalize HKeyword.Any op := by
    intro t ht op hop
    have ht' : t ∈ ts := by rw [he]; simp [ht]
    refine ⟨hu t ht' op hop, ?_⟩
    rintro d items rfl
    exact ⟨hp t ht' d items hop, fun _ _ => trivial⟩
  obtain ⟨-, h2, -⟩ := (HKeyword.strictSound normalize HKeyword.Any).history (s₀ := HKeyword.new) HKeyword.wfTxn_new before hok
  rw [HKeyword.strict_run normalize before (HKeyword.replacedApart_prefix (us := t :: after) (he ▸ har))] at h2
  have h3 : ∀ s ∈ (Db.run (HKeyword.engine normalize) (HKeyword.new : HKeyword D W) before).states,
      HKeyword.Wf HKeyword.Any _ s := h2
  refine keywordAlike_of_keywords (h3 _ (List.mem_of_getElem? hb)) (h3 _ (by simp [Db.states])) d ?_
  unfold namedBool at h
  rw [List.all_eq_true] at h
  have h := h before.length (by rw [List.mem_range, he]; simp)
  have e1 : ts[before.length]? = some t := by rw [he]; simp
  have e2 : ts.take before.length = before := by rw [he]; simp
  rw [e1, e2] at h
  dsimp only at h
  rw [hb] at h
  dsimp only at h
  rw [List.all_eq_true] at h
  have h := h op hop
  cases op with
  | index d' seq => obtain rfl : d = d' := hd; exact of_decide_eq_true h
  | unindex d' => obtain rfl : d = d' := hd; exact of_decide_eq_true h
  | clear => cases h
  | optimize => cases hd
  | setThreshold n => cases hd

end replaced

/-- 63 documents get the keyword 7; then document 100 gets it, which replaces the `Set` by a `TreeSet`, while another transaction gives
the keyword 8 to two documents; then two overlapping transactions change the documents of the keyword 7, and a third, in which
`optimize` is called, those of 8 -/
def exKeywordLarge : List (Txn (Keyword.Op Nat Nat)) :=
  [⟨0, (List.range 63).map (fun d => .index d (.seq true [7])), false⟩,
   ⟨0, [.index 100 (.seq true [7, 9])], false⟩,
   ⟨1, [.index 200 (.seq true [8]), .index 201 (.seq true [8])], false⟩,
   ⟨0, [.unindex 0, .index 1 (.seq true [7, 8])], false⟩,
   ⟨1, [.index 300 (.seq true [7])], false⟩,
   ⟨0, [.optimize, .index 201 (.seq true [9])], false⟩]

theorem exKeywordLarge_apart : ReplacedApart id exKeywordLarge := replacedApart_of_bool (by decide +kernel)

theorem exKeywordLarge_plain :
    (∀ t ∈ exKeywordLarge, ∀ op ∈ t.ops, IsUpdateOrOptimize op) ∧ (∀ t ∈ exKeywordLarge, Spec.Keyword.Plain id t.ops) := by
  constructor
  · intro t ht op hop
    simp only [exKeywordLarge, List.mem_cons, List.not_mem_nil, or_false] at ht
    rcases ht with rfl | rfl | rfl | rfl | rfl | rfl
    · obtain ⟨d, -, rfl⟩ := List.mem_map.1 hop; trivial
    all_goals
      simp only [List.mem_cons, List.not_mem_nil, or_false] at hop
      first
        | (subst hop; trivial)
        | (rcases hop with rfl | rfl <;> trivial)
  · intro t ht d items hop
    simp only [exKeywordLarge, List.mem_cons, List.not_mem_nil, or_false] at ht
    rcases ht with rfl | rfl | rfl | rfl | rfl | rfl
    · obtain ⟨x, -, he⟩ := List.mem_map.1 hop
      cases he; simp
    all_goals
      intro h0
      have h0 : items = [] := h0
      subst h0
      simp at hop

/-- the hypothesis of `C87_keyword_replaced_partial` -/
example : NamedUntouched (HKeyword.engine id) HKeyword.new keywordNames (fun s t d => keywordAlike s.view t.view d) exKeywordLarge :=
  named_of_bool exKeywordLarge_plain.1 exKeywordLarge_plain.2 exKeywordLarge_apart (by decide +kernel)

/-- all six transactions commit, the set of the keyword 7 has become a `TreeSet` -/
example : (Db.run (HKeyword.engine id) HKeyword.new exKeywordLarge).older.length = 6 ∧
    ((Db.run (HKeyword.engine id) HKeyword.new exKeywordLarge).latest.view.fwd.get? 7).map (fun s => (s.isTree, s.ids.len)) =
      some (true, 64) ∧
    (((Db.run (HKeyword.engine id) HKeyword.new exKeywordLarge).latest.view.search id (.seq [8]) .and).toOption.map (·.toList)) =
      some [1, 200] := by decide +kernel

theorem older_of_length {S O : Type} (E : Engine S O) (s : S) (ts : List (Txn O)) (t : Txn O)
    (h : (Db.run E s (ts ++ [t])).older.length ≠ (Db.run E s ts).older.length) :
    (Db.run E s (ts ++ [t])).older = (Db.run E s ts).states := by
  have e : Db.run E s (ts ++ [t]) = Db.commit E (Db.run E s ts) t := by simp [Db.run]
  rw [e] at h ⊢
  generalize Db.run E s ts = db at h
  unfold Db.commit at h ⊢
  split at h
  · exact absurd rfl h
  · dsimp only at h ⊢
    split at h
    · exact absurd rfl h
    · rename_i h' _ _ h''
      simp only [h']

theorem states_one {S : Type} {db db' : Db S} (h : db'.older = db.states) : db'.states[1]? = some db.latest := by
  unfold Db.states
  rw [h]; rfl

/-- the transactions of `C70_keyword_fails` do not meet the hypothesis -/
example : ¬ ReplacedApart id exKeywordTxns := by
  intro h
  have h1 := older_of_length (HKeyword.engine id) (HKeyword.new : HKeyword Nat Nat) (exKeywordTxns.take 1)
    ⟨0, [.index 100 (.seq true [7])], false⟩ (by decide +kernel)
  have h2 := older_of_length (HKeyword.engine id) (HKeyword.new : HKeyword Nat Nat) (exKeywordTxns.take 2) ⟨1, [.unindex 0], false⟩
    (by decide +kernel)
  have h3 := h (exKeywordTxns.take 2) ⟨1, [.unindex 0], false⟩ [] rfl h2
    (Db.run (HKeyword.engine id) HKeyword.new (exKeywordTxns.take 1)).latest (states_one h1) 7
  have h4 := (h3.1 ⟨0, by decide +kernel, by decide +kernel, by decide +kernel⟩).2 0 (by decide +kernel)
  revert h4
  decide +kernel

end Verif
