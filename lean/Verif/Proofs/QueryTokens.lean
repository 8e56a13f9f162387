import Verif.Proofs.Query
import Mathlib.Data.List.TakeWhile

set_option autoImplicit false

namespace Verif
namespace QueryParser

open Spec (Tokens WordChar)

variable {isSpace : Char → Bool}

/-- the characters with a meaning are not white space -/
structure SpaceOk (isSpace : Char → Bool) : Prop where
  lparen : isSpace '(' = false
  rparen : isSpace ')' = false
  quote : isSpace '"' = false
  hyphen : isSpace '-' = false

theorem isPlain_iff (c : Char) : isPlain isSpace c = true ↔ WordChar isSpace c := by
  unfold isPlain WordChar
  simp [and_assoc]

theorem quotedRest_some (body s : Word) (h : '"' ∉ body) : quotedRest (body ++ '"' :: s) = some (body, s) := by
  unfold quotedRest
  have : ∀ c ∈ body, decide (c ≠ '"') = true := by
    intro c hc
    simp only [decide_eq_true_eq]
    rintro rfl
    exact h hc
  rw [List.dropWhile_append_of_pos this, List.takeWhile_append_of_pos this]
  simp

theorem quotedRest_none (s : Word) (h : '"' ∉ s) : quotedRest s = none := by
  unfold quotedRest
  have : s.dropWhile (fun c => decide (c ≠ '"')) = [] := by
    rw [List.dropWhile_eq_nil_iff]
    intro c hc
    simp only [decide_eq_true_eq]
    rintro rfl
    exact h hc
  rw [this]

theorem split_quote (s : Word) : '"' ∉ s ∨ ∃ body r, '"' ∉ body ∧ s = body ++ '"' :: r := by
  induction s with
  | nil => left; simp
  | cons c s ih =>
    by_cases hc : c = '"'
    · subst hc; exact Or.inr ⟨[], s, by simp, rfl⟩
    · rcases ih with h | ⟨b, r, hb, rfl⟩
      · left; simp [h, Ne.symm hc]
      · exact Or.inr ⟨c :: b, r, by simp [hb, Ne.symm hc], rfl⟩

theorem plainToken_eq (c : Char) (w s : Word) (hw : ∀ x ∈ w, WordChar isSpace x) (hs : ∀ x, s.head? = some x → ¬ WordChar isSpace x) :
    plainToken isSpace c (w ++ s) = (c :: w, s) := by
  unfold plainToken
  have h1 : ∀ x ∈ w, isPlain isSpace x = true := fun x hx => (isPlain_iff x).2 (hw x hx)
  rw [List.takeWhile_append_of_pos h1, List.dropWhile_append_of_pos h1]
  rcases s with _ | ⟨x, s⟩
  · simp
  · have : isPlain isSpace x = false := by
      by_contra hc
      exact hs x rfl ((isPlain_iff x).1 (by simpa using hc))
    rw [List.takeWhile_cons, List.dropWhile_cons, this]
    simp

theorem tokenize_unique (hsp : SpaceOk isSpace) {q : Word} {ts : List Word} (h : Tokens isSpace q ts) :
    ∀ fuel, q.length ≤ fuel → tokenizeF isSpace fuel q = ts := by
  induction h with
  | nil => intro fuel _; cases fuel <;> rfl
  | space c s ts hc _ ih =>
    intro fuel hf
    obtain ⟨n, rfl, hn⟩ : ∃ n, fuel = n + 1 ∧ s.length ≤ n := ⟨fuel - 1, by simp at hf; omega, by simp at hf; omega⟩
    have h1 : c ≠ '(' := by rintro rfl; rw [hsp.lparen] at hc; cases hc
    have h2 : c ≠ ')' := by rintro rfl; rw [hsp.rparen] at hc; cases hc
    have h3 : c ≠ '"' := by rintro rfl; rw [hsp.quote] at hc; cases hc
    have h4 : c ≠ '-' := by rintro rfl; rw [hsp.hyphen] at hc; cases hc
    have : tokenAt isSpace c s = none := by unfold tokenAt; simp [h1, h2, h3, h4, hc]
    rw [tokenizeF, this]
    exact ih n hn
  | stray s ts hs _ ih =>
    intro fuel hf
    obtain ⟨n, rfl, hn⟩ : ∃ n, fuel = n + 1 ∧ s.length ≤ n := ⟨fuel - 1, by simp at hf; omega, by simp at hf; omega⟩
    have : tokenAt isSpace '"' s = none := by unfold tokenAt; simp [quotedRest_none s hs]
    rw [tokenizeF, this]
    exact ih n hn
  | paren c s ts hc _ ih =>
    intro fuel hf
    obtain ⟨n, rfl, hn⟩ : ∃ n, fuel = n + 1 ∧ s.length ≤ n := ⟨fuel - 1, by simp at hf; omega, by simp at hf; omega⟩
    have : tokenAt isSpace c s = some ([c], s) := by unfold tokenAt; simp [hc]
    rw [tokenizeF, this]
    simp only
    rw [ih n hn]
  | quoted hyphen body s ts hh hb _ ih =>
    intro fuel hf
    rcases hh with rfl | rfl
    · simp only [List.nil_append, List.cons_append, List.length_cons, List.length_append] at hf
      obtain ⟨n, rfl, hn⟩ : ∃ n, fuel = n + 1 ∧ s.length ≤ n := ⟨fuel - 1, by omega, by omega⟩
      have : tokenAt isSpace '"' (body ++ '"' :: s) = some ('"' :: body ++ ['"'], s) := by
        unfold tokenAt; simp [quotedRest_some body s hb]
      rw [List.nil_append, List.cons_append, tokenizeF, this]
      simp only
      rw [ih n hn]
    · simp only [List.cons_append, List.nil_append, List.length_cons, List.length_append] at hf
      obtain ⟨n, rfl, hn⟩ : ∃ n, fuel = n + 1 ∧ s.length ≤ n := ⟨fuel - 1, by omega, by omega⟩
      have : tokenAt isSpace '-' ('"' :: (body ++ '"' :: s)) = some ('-' :: '"' :: body ++ ['"'], s) := by
        unfold tokenAt; simp [quotedRest_some body s hb]
      simp only [List.cons_append, List.nil_append] at this ⊢
      rw [tokenizeF, this]
      simp only
      rw [ih n hn]
  | word w s ts hne hw hs hq _ ih =>
    intro fuel hf
    obtain ⟨c, w, rfl⟩ := List.exists_cons_of_ne_nil hne
    simp only [List.cons_append, List.length_cons, List.length_append] at hf
    obtain ⟨n, rfl, hn⟩ : ∃ n, fuel = n + 1 ∧ s.length ≤ n := ⟨fuel - 1, by omega, by omega⟩
    obtain ⟨h1, h2, h3, h4⟩ := hw c List.mem_cons_self
    have hw' : ∀ x ∈ w, WordChar isSpace x := fun x hx => hw x (List.mem_cons_of_mem _ hx)
    have : tokenAt isSpace c (w ++ s) = some (c :: w, s) := by
      rw [← plainToken_eq c w s hw' hs]
      unfold tokenAt
      simp only [h1, h2, h3, h4, decide_false, Bool.or_self, Bool.false_eq_true, if_false]
      split
      · rename_i hc
        split
        · rename_i t' ht
          split
          · rename_i p hp
            exfalso
            -- a quoted string would follow a single hyphen
            have hwnil : w = [] := by
              rcases w with _ | ⟨x, w⟩
              · rfl
              · rw [List.cons_append] at ht
                exact absurd (List.cons.inj ht).1 (hw' x List.mem_cons_self).2.2.1
            subst hwnil
            rw [List.nil_append] at ht
            refine hq ⟨by rw [hc], ?_⟩
            rcases split_quote t' with hn | ⟨b, r, -, rfl⟩
            · rw [quotedRest_none t' hn] at hp; cases hp
            · exact ⟨b, r, ht⟩
          · rfl
        · rfl
      · rfl
    rw [List.cons_append, tokenizeF, this]
    simp only
    rw [ih n hn]

theorem split_plain (s : Word) : ∃ w r, s = w ++ r ∧ (∀ c ∈ w, WordChar isSpace c) ∧ ∀ c, r.head? = some c → ¬ WordChar isSpace c := by
  induction s with
  | nil => exact ⟨[], [], rfl, by simp, by simp⟩
  | cons c s ih =>
    by_cases hc : WordChar isSpace c
    · obtain ⟨w, r, rfl, hw, hr⟩ := ih
      exact ⟨c :: w, r, rfl, by simpa using ⟨hc, hw⟩, hr⟩
    · exact ⟨[], c :: s, rfl, by simp, by simpa using hc⟩

theorem tokens_exist (q : Word) : ∃ ts, Tokens isSpace q ts := by
  induction hn : q.length using Nat.strongRecOn generalizing q with
  | _ n ih =>
    subst hn
    rcases q with _ | ⟨c, s⟩
    · exact ⟨[], .nil⟩
    · have hrec : ∀ r : Word, r.length < (c :: s).length → ∃ ts, Tokens isSpace r ts := fun r hr => ih _ hr r rfl
      by_cases hsp : isSpace c = true
      · obtain ⟨ts, h⟩ := hrec s (by simp)
        exact ⟨ts, .space c s ts hsp h⟩
      by_cases hpar : c = '(' ∨ c = ')'
      · obtain ⟨ts, h⟩ := hrec s (by simp)
        exact ⟨_, .paren c s ts hpar h⟩
      by_cases hq : c = '"'
      · subst hq
        rcases split_quote s with hs | ⟨b, r, hb, rfl⟩
        · obtain ⟨ts, h⟩ := hrec s (by simp)
          exact ⟨ts, .stray s ts hs h⟩
        · obtain ⟨ts, h⟩ := hrec r (by simp; omega)
          exact ⟨_, .quoted [] b r ts (Or.inl rfl) hb h⟩
      push Not at hpar
      have hc : WordChar isSpace c := ⟨hpar.1, hpar.2, hq, by simpa using hsp⟩
      obtain ⟨w, r, rfl, hw, hr⟩ := split_plain (isSpace := isSpace) s
      by_cases hh : (c :: w) = ['-'] ∧ ∃ body r', r = '"' :: body ++ '"' :: r'
      · obtain ⟨e, body, r', rfl⟩ := hh
        cases e
        obtain ⟨b, r'', hb, e⟩ : ∃ b r'', '"' ∉ b ∧ body ++ '"' :: r' = b ++ '"' :: r'' := by
          rcases split_quote (body ++ '"' :: r') with h | h
          · simp at h
          · exact h
        obtain ⟨ts, h⟩ := hrec r'' (by
          have := congrArg List.length e
          simp at this ⊢; omega)
        refine ⟨('-' :: '"' :: (b ++ ['"'])) :: ts, ?_⟩
        have := Tokens.quoted ['-'] b r'' ts (Or.inr rfl) hb h
        simp only [List.cons_append, List.nil_append] at this ⊢
        rw [e]
        exact this
      · obtain ⟨ts, h⟩ := hrec r (by simp; omega)
        exact ⟨_, .word (c :: w) r ts (by simp) (by simpa using ⟨hc, hw⟩) hr hh h⟩

theorem tokenize_iff (hsp : SpaceOk isSpace) (q : Word) (ts : List Word) : Tokens isSpace q ts ↔ tokenize isSpace q = ts := by
  constructor
  · intro h; exact tokenize_unique hsp h _ (Nat.le_refl _)
  · rintro rfl
    obtain ⟨ts, h⟩ := tokens_exist (isSpace := isSpace) q
    have : tokenize isSpace q = ts := tokenize_unique hsp h _ (Nat.le_refl _)
    rw [this]; exact h

theorem tokens_ne_nil {q : Word} {ts : List Word} (h : Tokens isSpace q ts) : ∀ t ∈ ts, t ≠ [] := by
  induction h with
  | nil => intro t ht; cases ht
  | space c s ts _ _ ih => exact ih
  | stray s ts _ _ ih => exact ih
  | paren c s ts _ _ ih =>
    intro t ht
    rcases List.mem_cons.1 ht with rfl | ht
    · simp
    · exact ih t ht
  | quoted hyphen body s ts _ _ _ ih =>
    intro t ht
    rcases List.mem_cons.1 ht with rfl | ht
    · simp
    · exact ih t ht
  | word w s ts hne _ _ _ _ ih =>
    intro t ht
    rcases List.mem_cons.1 ht with rfl | ht
    · exact hne
    · exact ih t ht

theorem tokenizeF_ne_nil (fuel : Nat) (q : Word) : ∀ t ∈ tokenizeF isSpace fuel q, t ≠ [] := by
  induction fuel generalizing q with
  | zero => intro t ht; cases q <;> cases ht
  | succ n ih =>
    rcases q with _ | ⟨c, s⟩
    · intro t ht; cases ht
    · intro t ht
      rw [tokenizeF] at ht
      split at ht
      · rename_i p hp
        rcases List.mem_cons.1 ht with rfl | ht
        · unfold tokenAt at hp
          split at hp
          · cases hp; simp
          · split at hp
            · obtain ⟨x, -, rfl⟩ := Option.map_eq_some_iff.1 hp; simp
            · split at hp
              · split at hp
                · split at hp <;> · cases hp; simp [plainToken]
                · cases hp; simp [plainToken]
              · split at hp
                · cases hp
                · cases hp; simp [plainToken]
        · exact ih _ t ht
      · exact ih _ t ht

theorem classify_eof (upper : Word → Word) (t : Word) : classify upper t ≠ .eof := by
  unfold classify
  dsimp only
  split_ifs <;> simp

theorem classify_atom {upper : Word → Word} {t w : Word} (h : classify upper t = .atom w) : w = t := by
  unfold classify at h
  dsimp only at h
  split_ifs at h
  cases h; rfl

theorem eof_not_mem (upper : Word → Word) (ts : List Word) : Tok.eof ∉ ts.map (classify upper) := by
  intro h
  obtain ⟨t, -, e⟩ := List.mem_map.1 h
  exact classify_eof upper t e

theorem nonEmptyAtoms (upper : Word → Word) (q : Word) : NonEmptyAtoms ((tokenize isSpace q).map (classify upper)) := by
  intro w hw
  obtain ⟨t, ht, e⟩ := List.mem_map.1 hw
  rw [classify_atom e]
  exact tokenizeF_ne_nil _ _ t ht

theorem classify_iff (upper : Word → Word) (w : Word) (t : Tok) : classify upper w = t ↔ Spec.TokOf upper w t := by
  unfold classify
  dsimp only
  constructor
  · rintro rfl
    split_ifs <;> simp_all [Spec.TokOf]
  · intro h
    cases t with
    | eof => exact absurd h id
    | atom x =>
      obtain ⟨rfl, h1, h2, h3, h4, h5⟩ := h
      simp [h1, h2, h3, h4, h5]
    | _ =>
      have h := h
      unfold Spec.TokOf at h
      simp [h]

theorem classify_forall (upper : Word → Word) (ts : List Word) (l : List Tok) :
    List.Forall₂ (Spec.TokOf upper) ts l ↔ ts.map (classify upper) = l := by
  constructor
  · intro h
    induction h with
    | nil => rfl
    | cons h _ ih => rw [List.map_cons, ih, (classify_iff upper _ _).2 h]
  · rintro rfl
    induction ts with
    | nil => exact .nil
    | cons t ts ih => exact .cons ((classify_iff upper t _).1 rfl) ih

theorem upper_cases {upper : Word → Word} {up : Char → List Char} (h : Spec.UpperOk upper up) (w : Word)
    (hk : ∀ x ∈ upper w, x ∈ ['A', 'N', 'D', 'O', 'R', 'T', '(', ')']) :
    ∀ c ∈ w, c ∈ ['a', 'A', 'n', 'N', 'd', 'D', 'o', 'O', 'r', 'R', 't', 'T', '(', ')'] := by
  intro c hc
  by_contra hn
  obtain ⟨x, hx, hn⟩ := h.others c hn
  refine hn (hk x ?_)
  rw [h.chars, List.mem_flatMap]
  exact ⟨c, hc, hx⟩

/-- the upper case of the letters of keywords -/
def upl (c : Char) : Char :=
  if c = 'a' then 'A' else if c = 'n' then 'N' else if c = 'd' then 'D' else if c = 'o' then 'O' else if c = 'r' then 'R'
  else if c = 't' then 'T' else c

theorem upper_map {upper : Word → Word} {up : Char → List Char} (h : Spec.UpperOk upper up) (w : Word)
    (hk : ∀ c ∈ w, c ∈ ['a', 'A', 'n', 'N', 'd', 'D', 'o', 'O', 'r', 'R', 't', 'T', '(', ')']) : upper w = w.map upl := by
  rw [h.chars]
  obtain ⟨h1, h2, h3, h4, h5, h6, h7, h8, h9, h10, h11, h12, h13, h14⟩ := h.letters
  induction w with
  | nil => rfl
  | cons c w ih =>
    rw [List.flatMap_cons, ih (fun x hx => hk x (List.mem_cons_of_mem _ hx)), List.map_cons]
    have := hk c List.mem_cons_self
    simp only [List.mem_cons, List.not_mem_nil, or_false] at this
    rcases this with rfl | rfl | rfl | rfl | rfl | rfl | rfl | rfl | rfl | rfl | rfl | rfl | rfl | rfl <;>
      simp [h1, h2, h3, h4, h5, h6, h7, h8, h9, h10, h11, h12, h13, h14, upl]

/-- words whose upper case is `k` -/
theorem upper_eq {upper : Word → Word} {up : Char → List Char} (h : Spec.UpperOk upper up) (w k : Word)
    (hk : ∀ x ∈ k, x ∈ ['A', 'N', 'D', 'O', 'R', 'T', '(', ')']) :
    upper w = k ↔ w.map upl = k ∧ ∀ c ∈ w, c ∈ ['a', 'A', 'n', 'N', 'd', 'D', 'o', 'O', 'r', 'R', 't', 'T', '(', ')'] := by
  constructor
  · rintro rfl
    have := upper_cases h w hk
    exact ⟨(upper_map h w this).symm, this⟩
  · rintro ⟨e, hc⟩
    rw [upper_map h w hc, e]

theorem upl_eq (c x : Char) (hx : x ∈ ['A', 'N', 'D', 'O', 'R', 'T']) :
    upl c = x ↔ c = x ∨ (x = 'A' ∧ c = 'a') ∨ (x = 'N' ∧ c = 'n') ∨ (x = 'D' ∧ c = 'd') ∨ (x = 'O' ∧ c = 'o') ∨
      (x = 'R' ∧ c = 'r') ∨ (x = 'T' ∧ c = 't') := by
  simp only [List.mem_cons, List.not_mem_nil, or_false] at hx
  unfold upl
  rcases hx with rfl | rfl | rfl | rfl | rfl | rfl <;> split_ifs <;> simp_all

end QueryParser
end Verif
