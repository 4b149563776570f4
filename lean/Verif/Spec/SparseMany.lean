import Verif.Spec.SparseMachine

/-
Any number of sparse trees on one storage, made new, loaded at the roots of any maps, and used in any order,
while any storage call may fail: what every request returns and does to the storage, in terms of maps only.
Used in the statements of the properties.
-/
namespace FuelMerkle
namespace Sparse
open Spec
variable {E : Type}

/-- What a client can ask for: a new tree in place of the tree `i`, one loaded at the root of a map, a call
on it, or its root. -/
inductive Request where
  | new (i : Nat)
  | load (i : Nat) (kv : Entries Bytes)
  | call (i : Nat) (op : Op)
  | root (i : Nat)

/-- What comes back. -/
inductive Answer (E : Type) where
  | done (r : Except (Fail (Error E)) Unit)
  | root (r : Bytes32)

/-- The storage, and what the client holds in memory for each tree: its root node. -/
structure Bench (E : Type) where
  storage : SpStore E
  node : Nat → Node

/-- The tree number `i`, with the storage as it is now. -/
def Bench.tree (c : Bench E) (i : Nat) : Tree E := ⟨c.node i, c.storage⟩

/-- Another root node for the tree number `i`, and what became of the storage. -/
def Bench.set (c : Bench E) (i : Nat) (n : Node) (s : SpStore E) : Bench E := ⟨s, fun j => if j = i then n else c.node j⟩

/-- One request to the program. A failed `load` leaves the tree number `i` as it was. -/
def Bench.handle (p : Profile) (H : HashFn) (r : Request) (c : Bench E) : Answer E × Bench E :=
  match r with
  | .new i => (.done (.ok ()), c.set i (Tree.new c.storage).rootNode c.storage)
  | .load i kv =>
    match Tree.load c.storage (rootOf H kv) with
    | (.ok t, s) => (.done (.ok ()), c.set i t.rootNode s)
    | (.error e, s) => (.done (.error e), { c with storage := s })
  | .call i op => (.done (op.run p H (c.tree i)).1, c.set i (op.run p H (c.tree i)).2.rootNode (op.run p H (c.tree i)).2.storage)
  | .root i => (.root ((c.tree i).root H), c)

/-- A sequence of requests: all answers, and what is left. -/
def Bench.handleAll (p : Profile) (H : HashFn) : List Request → Bench E → List (Answer E) × Bench E
  | [], c => ([], c)
  | r :: rs, c => ((c.handle p H r).1 :: (Bench.handleAll p H rs (c.handle p H r).2).1, (Bench.handleAll p H rs (c.handle p H r).2).2)

/-- The storage with trees that are all new. -/
def Bench.start (s : SpStore E) : Bench E := ⟨s, fun _ => (Tree.new s).rootNode⟩

/-! ### The specification: storage and maps -/

/-- The storage, and the map of each tree. -/
structure Shelf (E : Type) where
  storage : SpStore E
  kv : Nat → Entries Bytes

def Shelf.set (c : Shelf E) (i : Nat) (kv : Entries Bytes) (s : SpStore E) : Shelf E := ⟨s, fun j => if j = i then kv else c.kv j⟩

/-- One request. `load` reads one record, under the root; if there is one, the tree has the map from then on. -/
def Shelf.handle (H : HashFn) (r : Request) (c : Shelf E) : Answer E × Shelf E :=
  match r with
  | .new i => (.done (.ok ()), c.set i [] c.storage)
  | .load i kv =>
    match Store.get (rootOf H kv) c.storage with
    | (.error e, s) => (.done (.error (.err (.storageError e))), { c with storage := s })
    | (.ok none, s) => (.done (.error (.err (.loadError (rootOf H kv)))), { c with storage := s })
    | (.ok (some _), s) => (.done (.ok ()), c.set i kv s)
  | .call i op => (.done (op.onMachine H ⟨c.kv i, c.storage⟩).1,
      c.set i (op.onMachine H ⟨c.kv i, c.storage⟩).2.kv (op.onMachine H ⟨c.kv i, c.storage⟩).2.storage)
  | .root i => (.root (rootOf H (c.kv i)), c)

/-- A sequence of requests. -/
def Shelf.handleAll (H : HashFn) : List Request → Shelf E → List (Answer E) × Shelf E
  | [], c => ([], c)
  | r :: rs, c => ((c.handle H r).1 :: (Shelf.handleAll H rs (c.handle H r).2).1, (Shelf.handleAll H rs (c.handle H r).2).2)

/-- All maps are empty. -/
def Shelf.start (s : SpStore E) : Shelf E := ⟨s, fun _ => []⟩

/-- The map a request leads to, if there is one and if it succeeds. -/
def Shelf.aim (r : Request) (c : Shelf E) : List (Entries Bytes) :=
  match r with
  | .new _ => []
  | .load _ kv => [kv]
  | .call i op => [op.target ⟨c.kv i, c.storage⟩]
  | .root _ => []

/-- The maps the requests lead to or try to lead to. -/
def Shelf.aims (H : HashFn) : List Request → Shelf E → List (Entries Bytes)
  | [], _ => []
  | r :: rs, c => c.aim r ++ Shelf.aims H rs (c.handle H r).2

/-- The calls among the requests. -/
def callsOf (rs : List Request) : List Op := rs.filterMap fun
  | .call _ op => some op
  | _ => none

/-- Maps are loaded that are not empty, have every key once, and do not have the phantom entry. -/
def LoadsOk (H : HashFn) (rs : List Request) : Prop :=
  ∀ i kv, Request.load i kv ∈ rs → kv ≠ [] ∧ (keysOf kv).Nodup ∧ (zero32, zero32) ∉ digests H kv

/-- The storage works from now on. -/
def Works (s : SpStore E) : Prop := ∀ n, s.clock ≤ n → s.sched n = none

/-! ### Which records a call needs -/

/-- Of these hashes, those other than zero that have no record, in order. -/
def lacking (xs : List Bytes32) (m : Bytes32 → Option Prim) : List Bytes32 := xs.filter fun x => x ≠ zero32 && (m x).isNone

/-- The hashes looked for on the way of a key: at every branch from the root down, that of the part with the
key, then that of the other part. -/
def wayBoth (H : HashFn) (k : Bytes32) (kv : Entries Bytes) : List Bytes32 := (wayPairs H k kv).flatMap fun x => [x.1, x.2]

/-- The hashes a call looks for in vain. An update has written its leaf before it looks. A removal does not
look if the tree is empty or there is no record under the key. -/
def Op.lacks (H : HashFn) (op : Op) (kv : Entries Bytes) (m : Bytes32 → Option Prim) : List Bytes32 :=
  match op.data with
  | some d => (lacking (wayBoth H op.key kv) m).filter fun x => x ≠ H (smtLeafMsg op.key (H d)) && x ≠ op.key
  | none => if kv = [] ∨ m op.key = none then [] else lacking (wayBoth H op.key kv) m

end Sparse
end FuelMerkle
