import Verif.Spec.TxnText

/-! Specification of transactions that have the effect of being run one after the other. -/

set_option autoImplicit false

namespace Verif.Spec.Txn

/-- the transactions of `ts` that committed, in the order of their commits -/
def committed {S O : Type} (E : Engine S O) (s : S) (ts : List (Verif.Txn O)) : List (Verif.Txn O) :=
  (ts.foldl (fun (p : Db S × List (Verif.Txn O)) t =>
    let db := p.1.commit E t
    (db, if db.older.length = p.1.older.length then p.2 else p.2 ++ [t])) (Db.new s, [])).2

/-- the calls of some transactions, one transaction after the other -/
def calls {O : Type} (ts : List (Verif.Txn O)) : List O := ts.flatMap (·.ops)

/-- when a transaction of `ts` commits, the documents it names (`names`) look the same (`same`) in its snapshot and in the latest
committed state: no transaction that committed meanwhile changed them -/
def NamedUntouched {S O D : Type} (E : Engine S O) (s : S) (names : O → D → Prop) (same : S → S → D → Prop)
    (ts : List (Verif.Txn O)) : Prop :=
  ∀ before t after, ts = before ++ t :: after →
    (Db.run E s (before ++ [t])).older = (Db.run E s before).states →
    ∀ base, (Db.run E s before).states[t.back]? = some base →
      ∀ op ∈ t.ops, ∀ d, names op d → same base (Db.run E s before).latest d

/-- the document a call on a field index names -/
def fieldNames {D V : Type} : Field.Op D V → D → Prop
  | .index d _ => fun x => x = d
  | .unindex d => fun x => x = d
  | .clear => fun _ => True

/-- the document a call on a keyword index names -/
def keywordNames {D W : Type} : Keyword.Op D W → D → Prop
  | .index d _ => fun x => x = d
  | .unindex d => fun x => x = d
  | .clear => fun _ => True
  | .optimize => fun _ => False
  | .setThreshold _ => fun _ => False

/-- the document a call on a text index names -/
def textNames {D : Type} : Text.TOp D → D → Prop
  | .index d _ _ => fun x => x = d
  | .unindex d => fun x => x = d

/-- every range query finds the document in both indexes or in neither -/
def fieldAlike {D V : Type} [LinearOrder D] [LinearOrder V] (s t : Field D V) (d : D) : Prop :=
  ∀ lo hi r r', s.apply (.tuple [lo, hi]) = .ok r → t.apply (.tuple [lo, hi]) = .ok r' → (d ∈ r.toList ↔ d ∈ r'.toList)

/-- every search for one keyword, taken as it is stored, finds the document in both indexes or in neither -/
def keywordAlike {D W : Type} [LinearOrder D] [LinearOrder W] (s t : Keyword D W) (d : D) : Prop :=
  ∀ w r r', s.search id (.str w) .or = .ok r → t.search id (.str w) .or = .ok r' → (d ∈ r.toList ↔ d ∈ r'.toList)

/-- the call, in a history of one thread -/
def textCall {D : Type} : Text.TOp D → Text.Op D
  | .index d t _ => .index d t
  | .unindex d => .unindex d

end Verif.Spec.Txn
