import Verif.Model.Sparse
import Verif.Spec.SparseTree

/-
Histories of calls of the sparse Merkle tree API and the machines they are compared with.
Used in the statements of the properties.
-/
namespace FuelMerkle
namespace Sparse
open Spec
variable {E : Type}

/-- A call of the API that changes the tree. -/
inductive Op where
  | update (key : Bytes32) (data : Bytes)
  | delete (key : Bytes32)
deriving DecidableEq

/-- The key of a call. -/
def Op.key : Op → Bytes32
  | update k _ => k
  | delete k => k

/-- The data a call stores; `none` for a removal (an update with empty data is one). -/
def Op.data : Op → Option Bytes
  | update _ d => if d = [] then none else some d
  | delete _ => none

/-- One call on the tree. -/
def Op.run (p : Profile) (H : HashFn) : Op → TreeM E Unit
  | update k d => Sparse.update p H k d
  | delete k => Sparse.delete p H k

/-- A sequence of calls, stopping at the first failure. -/
def runAll (p : Profile) (H : HashFn) : List Op → TreeM E Unit
  | [] => pure ()
  | op :: ops => do
    op.run p H
    runAll p H ops

/-! ### What the calls should do: a map -/

/-- The effect of a call on a map. -/
def Op.onMap (op : Op) (kv : Entries Bytes) : Entries Bytes :=
  match op.data with
  | some d => kv.put op.key d
  | none => kv.erase op.key

/-- The map a history denotes. -/
def mapOf (ops : List Op) : Entries Bytes := ops.foldl (fun kv op => op.onMap kv) []

/-- Keys of a map. -/
def keysOf {V : Type} (kv : Entries V) : List Bytes32 := kv.map Prod.fst

/-- The keys a history has stored data under, at some time. -/
def stored : List Op → List Bytes32
  | [] => []
  | op :: ops => match op.data with
    | some _ => op.key :: stored ops
    | none => stored ops

/-- No removal in the history is stale: each removes a key that is present, or one that was
never stored. -/
def Clean (ops : List Op) : Prop :=
  ∀ pre op post, ops = pre ++ op :: post → op.data = none → op.key ∈ keysOf (mapOf pre) ∨ op.key ∉ stored pre

/-! ### What the calls do -/

/-- The state of the tree seen from outside: its map, and the keys with a record in storage. -/
structure State where
  kv : Entries Bytes
  recs : List Bytes32

/-- The effect of a call. A removal does nothing if the tree is empty or the key has no record.
Otherwise it removes the key met on the path of its key, which is the key itself if it is
present; if no key is met, it removes the record of the zero key. -/
def Op.onState (op : Op) (s : State) : State :=
  match op.data with
  | some d => ⟨s.kv.put op.key d, op.key :: s.recs⟩
  | none =>
    if s.kv = [] ∨ op.key ∉ s.recs then s
    else match met op.key s.kv with
      | some k' => ⟨s.kv.erase k', s.recs⟩
      | none => ⟨s.kv, s.recs.filter (· ≠ zero32)⟩

/-- The state after a history. -/
def stateFrom (s : State) (ops : List Op) : State := ops.foldl (fun s op => op.onState s) s

/-- The state a history leads to from the empty tree. -/
def stateOf (ops : List Op) : State := stateFrom ⟨[], []⟩ ops

/-! ### What must not happen with the hash function -/

/-- The hash function behaves on these messages: no two of them collide, none hashes to zero,
none hashes to one of the keys. -/
structure Ideal (H : HashFn) (msgs : List Bytes) (keys : List Bytes32) : Prop where
  distinct : ∀ a ∈ msgs, ∀ b ∈ msgs, H a = H b → a = b
  nonzero : ∀ a ∈ msgs, H a ≠ zero32
  apart : ∀ a ∈ msgs, ∀ k ∈ keys, H a ≠ k

/-- No call stores data hashing to zero under the zero key. -/
def NoPhantom (H : HashFn) (ops : List Op) : Prop :=
  ∀ op ∈ ops, ∀ d, op.data = some d → op.key = zero32 → H d ≠ zero32

/-- The messages hashed for the tree of a map. -/
def msgsOf (H : HashFn) (kv : Entries Bytes) : List Bytes := smtMsgs H (digests H kv)

/-- The messages hashed for the trees a history goes through. -/
def msgsFrom (H : HashFn) : State → List Op → List Bytes
  | s, [] => msgsOf H s.kv
  | s, op :: ops => msgsOf H s.kv ++ msgsFrom H (op.onState s) ops

/-- The hash function behaves on everything a history hashes or uses as a key. -/
def IdealFor (H : HashFn) (ops : List Op) : Prop :=
  Ideal H (msgsFrom H ⟨[], []⟩ ops) (ops.map Op.key) ∧ NoPhantom H ops

/-- The root of the sparse Merkle tree of a map. -/
def rootOf (H : HashFn) (kv : Entries Bytes) : Bytes32 := smtRoot H (digests H kv)

/-! ### Storage that fails -/

/-- A call as seen from outside: whether storage had a record under its key before, and what
it returned. -/
structure Event (E : Type) where
  op : Op
  recorded : Bool
  out : Except (Fail (Error E)) Unit

/-- The tree with a storage whose future calls have the given fates. -/
def Tree.failing (f : Nat → Option (Fault E)) (t : Tree E) : Tree E :=
  { t with storage := { t.storage with sched := fun n => f (n - t.storage.clock) } }

/-- The tree with a storage that works again. -/
def Tree.recovered (t : Tree E) : Tree E := t.failing fun _ => none

/-- A sequence of calls on the tree, going on after failures. -/
def run (p : Profile) (H : HashFn) : List Op → Tree E → List (Event E) × Tree E
  | [], t => ([], t)
  | op :: ops, t =>
    let (r, t') := op.run p H t
    let (es, t'') := run p H ops t'
    (⟨op, (t.storage.map op.key).isSome, r⟩ :: es, t'')

/-- The map after a call that does not fail. -/
def Event.attempt (e : Event E) (kv : Entries Bytes) : Entries Bytes :=
  match e.op.data with
  | some d => kv.put e.op.key d
  | none =>
    if e.recorded then
      match met e.op.key kv with
      | some k' => kv.erase k'
      | none => kv
    else kv

/-- The map after a call: unchanged by a call that fails. -/
def Event.effect (e : Event E) (kv : Entries Bytes) : Entries Bytes :=
  match e.out with
  | .ok _ => e.attempt kv
  | .error _ => kv

/-- The map after a sequence of calls. -/
def contents (es : List (Event E)) : Entries Bytes := es.foldl (fun kv e => e.effect kv) []

/-- The messages hashed for the trees a sequence of calls leads to or tries to lead to. -/
def eventMsgs (H : HashFn) : Entries Bytes → List (Event E) → List Bytes
  | kv, [] => msgsOf H kv
  | kv, e :: es => msgsOf H kv ++ msgsOf H (e.attempt kv) ++ eventMsgs H (e.effect kv) es

end Sparse
end FuelMerkle
