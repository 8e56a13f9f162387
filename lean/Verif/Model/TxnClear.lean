import Verif.Model.Txn
import Verif.Model.TxnText

/-! # Concurrent transactions that call `clear()`

`clear()` (field/index.py:49-55, keyword/index.py:49-59, text/baseindex.py:53-83 through text/textindex.py:59-60) assigns new
containers to the attributes of the index object.  The index object is `Persistent` and has no conflict resolution.  So:

* two overlapping transactions that both call `clear()` cannot both commit;
* a transaction that began before another one committed a `clear()` works on the old containers.  When it commits, it stores them,
  and nothing conflicts, but the index object names the new containers.

The objects of the old containers are left out of the state; what conflicts on them do is covered by `Txn.refused`. -/

set_option autoImplicit false

namespace Verif

variable {S O C : Type}

/-- an index, and which containers its attributes name -/
structure Housed (S : Type) where
  home : Nat
  inner : S

/-- what `clear()` and conflicts with it do to an index -/
structure Clearing (S O C : Type) where
  /-- the call as a call that leaves the containers in place; `none` is `clear()` -/
  keeps : C → Option O
  /-- `clear()` -/
  reset : S → S
  /-- a transaction that did not call `clear()` commits: snapshot, latest state (with other containers), its own state -/
  stale : S → S → S → Option S
  /-- a transaction that called `clear()` commits, and no other called it: snapshot, latest state, its own state -/
  over : S → S → S → Option S

namespace Housed

variable (E : Engine S O) (X : Clearing S O C)

/-- one call: the state, the next unused address, and whether an exception was raised (then no calls follow).  The new containers get the next address. -/
def step (r : (Housed S × Nat) × Bool) (c : C) : (Housed S × Nat) × Bool :=
  if r.2 then r
  else match X.keeps c with
  | none => (({ home := r.1.2 + 1, inner := X.reset r.1.1.inner }, r.1.2 + 1), false)
  | some op =>
    let t := E.run r.1.2 r.1.1.inner [op]
    (({ r.1.1 with inner := t.1 }, t.2), E.fails r.1.2 r.1.1.inner [op])

/-- the calls of a transaction -/
def exec (next : Nat) (s : Housed S) (cs : List C) : (Housed S × Nat) × Bool := cs.foldl (step E X) ((s, next), false)

/-- conflict resolution: snapshot, latest state, new state -/
def merge (o c n : Housed S) : Option (Housed S) :=
  if n.home = o.home then
    if c.home = o.home then (E.merge o.inner c.inner n.inner).map (fun s => { home := c.home, inner := s })
    else (X.stale o.inner c.inner n.inner).map (fun s => { home := c.home, inner := s })
  else if c.home = o.home then (X.over o.inner c.inner n.inner).map (fun s => { home := n.home, inner := s })
  else none                                          -- both changed the index object: ConflictError

/-- transactions that may call `clear()` -/
def engine : Engine (Housed S) C where
  run next s cs := (exec E X next s cs).1
  merge := merge E X
  fails next s cs := (exec E X next s cs).2

end Housed

/-- field/index.py:49-55 -/
def HField.clearing {D V : Type} [LinearOrder D] [LinearOrder V] : Clearing (HField D V) (Field.Op D V) (Field.Op D V) where
  keeps
    | .clear => none
    | op => some op
  reset _ := HField.new
  stale _ c _ := some c
  over _ _ n := some n

/-- keyword/index.py:49-59 (`tree_threshold` is an attribute of the class) -/
def HKeyword.clearing {D W : Type} [LinearOrder D] [LinearOrder W] : Clearing (HKeyword D W) (Keyword.Op D W) (Keyword.Op D W) where
  keeps
    | .clear => none
    | op => some op
  reset s := { HKeyword.new with treeThreshold := s.treeThreshold }
  stale _ c _ := some c
  over _ _ n := some n

/-- text/textindex.py:59-60, text/baseindex.py:53-83: the lexicon stays, and its own conflicts are resolved; `OkapiIndex` keeps its
`_totaldoclen` (text/okapiindex.py:230-237), which is why the theorems are about indexes without it -/
def Text.HTI.clearing {D R : Type} [LinearOrder D] : Clearing (Text.HTI D R) (Text.TOp D) (Option (Text.TOp D)) where
  keeps c := c
  reset s := { lex := s.lex, ix := { (Text.HIx.new : Text.HIx D R) with total := s.ix.total } }
  stale o c n := (Lexicon.merge o.lex c.lex n.lex).map
    (fun lex => { lex := lex, ix := { c.ix with total := mergeLength o.ix.total c.ix.total n.ix.total } })
  over o c n := (Lexicon.merge o.lex c.lex n.lex).map
    (fun lex => { lex := lex, ix := { n.ix with total := mergeLength o.ix.total c.ix.total n.ix.total } })

end Verif
