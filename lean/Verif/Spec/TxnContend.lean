import Verif.Spec.Serial

/-! Specification of transactions that compete for the documents of a keyword. -/

set_option autoImplicit false

namespace Verif.Spec.Txn

variable {D W : Type} [LinearOrder D] [LinearOrder W]

/-- the keyword `w` is passed for fewer than `n` different documents -/
def FewDocs (n : Nat) (normalize : List W → List W) (ts : List (Verif.Txn (Keyword.Op D W))) (w : W) : Prop :=
  ∀ docs : List D, docs.Nodup → (∀ d ∈ docs, Given normalize ts w d) → docs.length < n

/-- the transaction `t` indexes or unindexes a document for which the keyword `w` is passed by some transaction of `ts` -/
def Concerns (normalize : List W → List W) (ts : List (Verif.Txn (Keyword.Op D W))) (t : Verif.Txn (Keyword.Op D W)) (w : W) : Prop :=
  ∃ d, Given normalize ts w d ∧ ∃ op ∈ t.ops, keywordNames op d

/-- of the transactions `before ++ t₁ :: between ++ [t]`, `t₁` and `t` commit, and `t` began before `t₁` committed: since the state `t`
worked on, `t.back` transactions committed, and `t₁` is one of them -/
def Unseen {S O : Type} (E : Engine S O) (s : S) (before : List (Verif.Txn O)) (t₁ : Verif.Txn O) (between : List (Verif.Txn O))
    (t : Verif.Txn O) : Prop :=
  (Db.run E s (before ++ [t₁])).older = (Db.run E s before).states ∧
  (Db.run E s (before ++ t₁ :: between ++ [t])).older = (Db.run E s (before ++ t₁ :: between)).states ∧
  (Db.run E s (before ++ t₁ :: between)).states.length ≤ t.back + (Db.run E s before).states.length

/-- each keyword is passed for fewer than 64 documents, or no two overlapping transactions that commit concern it -/
def LargeUncontended (normalize : List W → List W) (ts : List (Verif.Txn (Keyword.Op D W))) : Prop :=
  ∀ w, FewDocs 64 normalize ts w ∨
    ∀ before t₁ between t after, ts = before ++ t₁ :: between ++ t :: after →
      Unseen (HKeyword.engine normalize) (HKeyword.new : HKeyword D W) before t₁ between t →
      ¬ (Concerns normalize ts t₁ w ∧ Concerns normalize ts t w)

end Verif.Spec.Txn
