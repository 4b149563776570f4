import Mathlib.Logic.Function.Basic
import Verif.Spec.ConcurrentSparse
import Verif.Spec.ConcurrentSum
import Verif.Spec.ConcurrentBinary

/-
Processes at work on one table of a storage, while other things happen to the storage. The trees name the table they
use by a type parameter (`TableType`, `/repo/src/binary/merkle_tree.rs:35-46`, `/repo/src/sparse/merkle_tree.rs:33-46`,
`/repo/src/sum/merkle_tree.rs:38-52`); one storage may implement the traits for many tables. Used in the statements of
the properties.
-/
namespace FuelMerkle
variable {S K V E : Type}

/-- What happens next: it is the turn of process `i`, or the storage is changed by something else. -/
inductive Event (S : Type) where
  | turn (i : Nat)
  | meanwhile (change : S → S)

/-- The turns among what happens. -/
def turnsOf (es : List (Event S)) : List Nat := es.filterMap fun
  | .turn i => some i
  | .meanwhile _ => none

/-- One thing after the other. -/
def Office.events (B : Backend S K V E) (process : Nat → Tape K V E → Tape K V E) : List (Event S) → Office S K V E → Office S K V E
  | [], o => o
  | .turn i :: es, o => Office.events B process es (o.turn B process i)
  | .meanwhile change :: es, o => Office.events B process es { o with storage := change o.storage }

/-- The change leaves the storage in order, and all that it holds in this table as it is. -/
def Aside (ok : S → Prop) (view : S → K → Option V) (change : S → S) : Prop :=
  ∀ s, ok s → ok (change s) ∧ view (change s) = view s

/-- The change brings up no record. -/
def Modest (seen : S → K → V → Prop) (change : S → S) : Prop :=
  ∀ s k v, seen (change s) k v → seen s k v

/-- The storage together with what will happen to it before each of the next calls: a storage of its own. -/
def Backend.alone (B : Backend S K V E) : Backend (S × List (S → S)) K V E where
  get k x := ((B.get k (x.2.headD id x.1)).1, (B.get k (x.2.headD id x.1)).2, x.2.tail)
  insert k v x := ((B.insert k v (x.2.headD id x.1)).1, (B.insert k v (x.2.headD id x.1)).2, x.2.tail)
  remove k x := ((B.remove k (x.2.headD id x.1)).1, (B.remove k (x.2.headD id x.1)).2, x.2.tail)

/-! ### Several tables -/

variable {Ks Vs : Nat → Type}

/-- A storage with tables `0, 1, …`, each with its own types of keys and records: every table behaves like a map, and a
call on one table leaves what the others hold as it is. -/
structure SeparateTables [∀ t, DecidableEq (Ks t)] (B : ∀ t, Backend S (Ks t) (Vs t) E) (ok : S → Prop) (view : ∀ t, S → Ks t → Option (Vs t)) : Prop where
  mapLike : ∀ t, MapLike (B t) ok (view t)
  apart : ∀ {t u}, u ≠ t → ∀ c s, ok s → view u ((B t).perform c s).2 = view u s

/-- The storage, and the calls of process `i` of table `t` that were answered. -/
structure Offices (S : Type) (Ks Vs : Nat → Type) (E : Type) where
  storage : S
  answered : ∀ t, Nat → List (Answered (Ks t) (Vs t) E)

/-- At the start no process has made a call. -/
def Offices.start (s : S) : Offices S Ks Vs E := ⟨s, fun _ _ => []⟩

/-- The part of one table. -/
def Offices.at (x : Offices S Ks Vs E) (t : Nat) : Office S (Ks t) (Vs t) E := ⟨x.storage, x.answered t⟩

/-- It is the turn of process `i` of table `t`. -/
def Offices.turn (B : ∀ t, Backend S (Ks t) (Vs t) E) (process : ∀ t, Nat → Tape (Ks t) (Vs t) E → Tape (Ks t) (Vs t) E) (t i : Nat)
    (x : Offices S Ks Vs E) : Offices S Ks Vs E :=
  let o := (x.at t).turn (B t) (process t) i
  ⟨o.storage, Function.update x.answered t o.answered⟩

/-- A schedule: whose turn it is, one after the other, by table and number. -/
def Offices.turns (B : ∀ t, Backend S (Ks t) (Vs t) E) (process : ∀ t, Nat → Tape (Ks t) (Vs t) E → Tape (Ks t) (Vs t) E) :
    List (Nat × Nat) → Offices S Ks Vs E → Offices S Ks Vs E
  | [], x => x
  | (t, i) :: is, x => Offices.turns B process is (x.turn B process t i)

/-- The turns of the processes of one table. -/
def turnsAt (t : Nat) (schedule : List (Nat × Nat)) : List Nat := (schedule.filter (·.1 = t)).map (·.2)

/-! ### The three kinds of trees -/

/-- The kinds of trees. -/
inductive Kind where
  | binary
  | sum
  | sparse

namespace Kind

/-- The keys of the records. -/
def Key : Kind → Type
  | binary => Nat
  | sum => Bytes32
  | sparse => Bytes32

/-- The records. -/
def Record : Kind → Type
  | binary => Binary.Prim
  | sum => Sum.Node
  | sparse => Sparse.Prim

instance : ∀ k : Kind, DecidableEq k.Key
  | binary => inferInstanceAs (DecidableEq Nat)
  | sum => inferInstanceAs (DecidableEq Bytes32)
  | sparse => inferInstanceAs (DecidableEq Bytes32)

instance : ∀ k : Kind, DecidableEq k.Record
  | binary => inferInstanceAs (DecidableEq Binary.Prim)
  | sum => inferInstanceAs (DecidableEq Sum.Node)
  | sparse => inferInstanceAs (DecidableEq Sparse.Prim)

/-- What a user can do with any number of trees: make them, load them (not sum trees), and make calls on them. -/
def Call : Kind → Type
  | binary => Binary.Action
  | sum => Nat × Sum.Op
  | sparse => Sparse.Any.Request

/-- What is returned. -/
def Reply (E : Type) : Kind → Type
  | binary => Binary.Reply E
  | sum => Sum.Out E
  | sparse => Sparse.Answer E

/-- The calls, one after the other, on any storage: all replies, and what becomes of the storage. -/
def serve {T : Type} : ∀ (k : Kind), Backend T k.Key k.Record E → Profile → HashFn → List k.Call → T → List (k.Reply E) × T
  | binary, C, p, H, calls, s => let y := Binary.Any.Bench.acts C p H calls (.start s); (y.1, y.2.storage)
  | sum, C, p, H, calls, s => let y := Sum.Any.Desk.run C p H calls (.start s); (y.1, y.2.storage)
  | sparse, C, p, H, calls, s => let y := Sparse.Any.Bench.handleAll C p H calls (.start s); (y.1, y.2.storage)

/-- The same on a map some of whose calls fail. -/
def serveMap : ∀ (k : Kind), Profile → HashFn → List k.Call → Store k.Key k.Record E → List (k.Reply E) × Store k.Key k.Record E
  | binary, p, H, calls, m => let y := Binary.Bench.acts p H calls (.start m); (y.1, y.2.storage)
  | sum, p, H, calls, m => let y := Sum.Desk.run p H calls (.start m); (y.1, y.2.storage)
  | sparse, p, H, calls, m => let y := Sparse.Bench.serveAll p H calls (.start m); (y.1, y.2.storage)

/-- A process that makes these calls. -/
def process (k : Kind) (cut : E) (p : Profile) (H : HashFn) (calls : List k.Call) (t : Tape k.Key k.Record E) : Tape k.Key k.Record E :=
  (k.serve (tape cut) p H calls t).2

/-- What the calls returned to a process that has come to its end. -/
def replies (k : Kind) (cut : E) (p : Profile) (H : HashFn) (calls : List k.Call) (answered : List (Answered k.Key k.Record E)) : List (k.Reply E) :=
  (k.serve (tape cut) p H calls ⟨answered, none⟩).1

/-- The most storage calls that one call makes, on average over the calls of a process. -/
def most : Kind → Nat
  | binary => 128
  | sum => 63
  | sparse => 1026

end Kind
end FuelMerkle
