import Mathlib.Order.Defs.LinearOrder
import Mathlib.Order.Basic
import Mathlib.Data.List.Lex
import Mathlib.Data.Char
import Mathlib.Tactic.ByContra
import Mathlib.Tactic.Basic

/-!
# Shared vocabulary of the model

Python exceptions as values, and the two BTrees containers everything is stored in.

BTrees (`IFBTree`, `IOBTree`, `OOBTree`, `IFSet`, `IFTreeSet` ...) is a library outside `/repo`.  Its
containers are modelled by their observable behaviour: finite maps that iterate in increasing key
order.  The internal bucket/tree structure is not modelled.
-/

namespace Verif

/-- Python exception classes that the modelled code raises (or lets escape).
`NotQueryError` is the `QueryError` of `NotNode.executeQuery` (text/parsetree.py:65-66) and
`GlobQueryError` the `QueryError` of `Lexicon.globToWordIds` (text/lexicon.py:117-121); Python uses
one class with two messages. -/
inductive PyErr
  | TypeError | ValueError | KeyError | IndexError | AssertionError | ZeroDivisionError
  | ParseError | NotQueryError | GlobQueryError | NotImplementedError
  deriving DecidableEq, Repr

/-- A finite map iterating in increasing key order: models `OOBTree`, `IOBTree`, `OIBTree`, `IFBTree`,
`IFBucket` and (ignoring insertion order) Python `dict`. -/
structure SMap (K V : Type) [LinearOrder K] where
  /-- the items, as `list(m.items())` -/
  items : List (K × V)
  /-- keys strictly increase -/
  sorted : items.Pairwise (fun a b => a.1 < b.1)

namespace SMap

variable {K V W : Type} [LinearOrder K]

/-- `BTree()` -/
def empty : SMap K V := ⟨[], List.Pairwise.nil⟩

instance : Inhabited (SMap K V) := ⟨empty⟩

/-- `m.get(k)`, `none` when absent -/
def get? (m : SMap K V) (k : K) : Option V := (m.items.find? (fun p => decide (p.1 = k))).map (·.2)

/-- `k in m` -/
def contains (m : SMap K V) (k : K) : Bool := (m.get? k).isSome

/-- `list(m.keys())` -/
def keys (m : SMap K V) : List K := m.items.map (·.1)

/-- `list(m.values())` -/
def values (m : SMap K V) : List V := m.items.map (·.2)

/-- `len(m)` -/
def len (m : SMap K V) : Nat := m.items.length

/-- `not m` -/
def isEmpty (m : SMap K V) : Bool := m.items.isEmpty

/-- insertion into a key-sorted list, replacing an existing entry -/
def setL (k : K) (v : V) : List (K × V) → List (K × V)
  | [] => [(k, v)]
  | p :: t => if k < p.1 then (k, v) :: p :: t
              else if k = p.1 then (k, v) :: t
              else p :: setL k v t

theorem mem_setL {k : K} {v : V} {l : List (K × V)} {p : K × V} (h : p ∈ setL k v l) :
    p = (k, v) ∨ p ∈ l := by
  induction l with
  | nil => simpa [setL] using h
  | cons q t ih =>
    unfold setL at h
    split at h
    · simpa using h
    · split at h
      · simp only [List.mem_cons] at h ⊢
        rcases h with h | h
        · exact Or.inl h
        · exact Or.inr (Or.inr h)
      · simp only [List.mem_cons] at h ⊢
        rcases h with h | h
        · exact Or.inr (Or.inl h)
        · rcases ih h with h | h
          · exact Or.inl h
          · exact Or.inr (Or.inr h)

theorem sorted_setL {k : K} {v : V} {l : List (K × V)}
    (h : l.Pairwise (fun a b => a.1 < b.1)) : (setL k v l).Pairwise (fun a b => a.1 < b.1) := by
  induction l with
  | nil => simp [setL]
  | cons q t ih =>
    rw [List.pairwise_cons] at h
    unfold setL
    split
    · rename_i hlt
      refine List.pairwise_cons.2 ⟨?_, List.pairwise_cons.2 h⟩
      intro a ha
      rcases List.mem_cons.1 ha with rfl | ha
      · exact hlt
      · exact lt_trans hlt (h.1 a ha)
    · split
      · rename_i heq
        refine List.pairwise_cons.2 ⟨?_, h.2⟩
        intro a ha
        show k < a.1
        rw [heq]; exact h.1 a ha
      · rename_i hnlt hne
        refine List.pairwise_cons.2 ⟨?_, ih h.2⟩
        intro a ha
        rcases mem_setL ha with rfl | ha
        · exact lt_of_le_of_ne (not_lt.1 hnlt) (fun e => hne e.symm)
        · exact h.1 a ha

/-- `m[k] = v` -/
def set (m : SMap K V) (k : K) (v : V) : SMap K V := ⟨setL k v m.items, sorted_setL m.sorted⟩

/-- `del m[k]` when `k` is present; the model's `del` leaves `m` alone otherwise, so callers that
must raise `KeyError` test `contains` first -/
def del (m : SMap K V) (k : K) : SMap K V :=
  ⟨m.items.filter (fun p => decide (p.1 ≠ k)), m.sorted.filter _⟩

/-- keep the items satisfying `f` -/
def filter (m : SMap K V) (f : K × V → Bool) : SMap K V :=
  ⟨m.items.filter f, m.sorted.filter _⟩

/-- change the values, keep the keys -/
def mapVals (m : SMap K V) (f : K → V → W) : SMap K W :=
  ⟨m.items.map (fun p => (p.1, f p.1 p.2)), by
    rw [List.pairwise_map]; exact m.sorted⟩

/-- one step of `build` -/
def buildStep (f : K → Option V) (m : SMap K V) (k : K) : SMap K V :=
  match f k with
  | some v => m.set k v
  | none => m

/-- the map with domain among `ks` that sends `k` to `f k` when that is `some` -/
def build (ks : List K) (f : K → Option V) : SMap K V := ks.foldl (buildStep f) empty

/-- `BTree(pairs)` / `dict(pairs)`: later pairs win -/
def ofList (l : List (K × V)) : SMap K V := l.foldl (fun m p => m.set p.1 p.2) empty

/-- `m.items(lo, hi)`: the items with `lo <= key <= hi`, `None` meaning unbounded -/
def range (m : SMap K V) (lo hi : Option K) : SMap K V :=
  m.filter (fun p => (match lo with | some l => decide (l ≤ p.1) | none => true) &&
                     (match hi with | some h => decide (p.1 ≤ h) | none => true))

end SMap

/-- A finite set iterating in increasing order: models `IFSet`, `IFTreeSet`, `OOSet`. -/
abbrev SSet (K : Type) [LinearOrder K] := SMap K Unit

namespace SSet

variable {K : Type} [LinearOrder K]

/-- `s.insert(k)` -/
def insert (s : SSet K) (k : K) : SSet K := s.set k ()

/-- `Set(iterable)` -/
def ofList (l : List K) : SSet K := l.foldl insert SMap.empty

/-- `list(s)` -/
def toList (s : SSet K) : List K := s.keys

/-- `intersection(a, b)` of two sets -/
def inter (a b : SSet K) : SSet K := SMap.filter a (fun p => b.contains p.1)

/-- `difference(a, b)` of two sets -/
def diff (a b : SSet K) : SSet K := SMap.filter a (fun p => !b.contains p.1)

/-- `multiunion(sets)` -/
def multiunion (l : List (SSet K)) : SSet K :=
  l.foldl (fun acc s => s.keys.foldl insert acc) SMap.empty

end SSet

end Verif
