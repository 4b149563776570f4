import Verif.Model.Storage
import Verif.Model.Prefix
import Verif.Model.Position
import Verif.Model.Binary

/-
The binary Merkle sum tree: `/repo/src/sum/*.rs`.
-/
namespace FuelMerkle
namespace Sum

/-- `empty_sum` (`src/sum/hash.rs:8-10`). -/
def emptySum : Bytes32 := emptySumSha256

/-- `node_sum` (`src/sum/hash.rs:14-22`). -/
def nodeSum (H : HashFn) (lhsFee : Nat) (lhs : Bytes) (rhsFee : Nat) (rhs : Bytes) : Bytes32 :=
  H (Prefix.node.bytes ++ u64ToBeBytes lhsFee ++ lhs ++ u64ToBeBytes rhsFee ++ rhs)

/-- `leaf_sum` (`src/sum/hash.rs:26-32`). -/
def leafSum (H : HashFn) (fee : Nat) (data : Bytes) : Bytes32 :=
  H (Prefix.leaf.bytes ++ u64ToBeBytes fee ++ data)

/-- `struct Node` (`src/sum/node.rs:6-12`). -/
structure Node where
  height : Nat
  hash : Bytes32
  fee : Nat
  leftChildKey : Option Bytes32
  rightChildKey : Option Bytes32
deriving DecidableEq

/-- `create_leaf` (`src/sum/node.rs:15-23`). -/
def Node.createLeaf (H : HashFn) (fee : Nat) (data : Bytes) : Node :=
  { height := 0, hash := leafSum H fee data, fee, leftChildKey := none, rightChildKey := none }

/-- `create_node` (`src/sum/node.rs:25-39`). -/
def Node.createNode (p : Profile) (H : HashFn) (height lhsFee : Nat) (lhsKey : Bytes32)
    (rhsFee : Nat) (rhsKey : Bytes32) : Res Node := do
  let hash := nodeSum H lhsFee lhsKey.val rhsFee rhsKey.val
  let fee ← u64Add p lhsFee rhsFee
  return { height, hash, fee, leftChildKey := some lhsKey, rightChildKey := some rhsKey }

/-- The storage of a sum tree: keys are digests (`src/sum/merkle_tree.rs:49`). -/
abbrev SStore (E : Type) := Store Bytes32 Node E

/-- `struct MerkleTree` (`src/sum/merkle_tree.rs:41-45`), with the linked list as a list. -/
structure Tree (E : Type) where
  storage : SStore E
  head : List Node

variable {E : Type}

/-- Computations on a tree; the error type is the storage error. -/
abbrev TreeM (E α : Type) := Exec (Tree E) (Fail E) α

/-- A storage call made through `self.storage`. -/
def onStorage {α : Type} (f : SStore E → Except E α × SStore E) : TreeM E α := fun t =>
  match f t.storage with
  | (.ok a, s) => (.ok a, { t with storage := s })
  | (.error e, s) => (.error (.err e), { t with storage := s })

/-- `MerkleTree::new` (`src/sum/merkle_tree.rs:53-59`). -/
def Tree.new (storage : SStore E) : Tree E := { storage, head := [] }

/-- `join_subtrees` (`src/sum/merkle_tree.rs:125-143`); returns the joined node, the caller
keeps the tail of `lhs`. -/
def joinSubtrees (p : Profile) (H : HashFn) (lhs rhs : Node) : TreeM E Node := do
  let height ← Exec.liftRes (u32Add p lhs.height 1)
  let joined ← Exec.liftRes (Node.createNode p H height lhs.fee lhs.hash rhs.fee rhs.hash)
  let _ ← onStorage (Store.insert joined.hash joined)
  return joined

/-- The loop of `root_node` (`src/sum/merkle_tree.rs:91-96`). -/
def rootLoop (p : Profile) (H : HashFn) : Node → List Node → TreeM E Node
  | current, [] => pure current
  | current, next :: rest => do
    let joined ← joinSubtrees p H next current
    rootLoop p H joined rest

/-- `root_node` (`src/sum/merkle_tree.rs:87-102`); works on a clone of the list. -/
def rootNode (p : Profile) (H : HashFn) : TreeM E (Option Node) := do
  let t ← Exec.get
  match t.head with
  | [] => return none
  | h :: rest => do
    let n ← rootLoop p H h rest
    return some n

/-- `MerkleTree::root` (`src/sum/merkle_tree.rs:61-69`). -/
def root (p : Profile) (H : HashFn) : TreeM E (Nat × Bytes32) := do
  match ← rootNode p H with
  | none => return (0, emptySum)
  | some node => return (node.fee, node.hash)

/-- The loop of `join_all_subtrees` (`src/sum/merkle_tree.rs:104-123`); the head is `None`
while two subtrees are being joined (line 115). -/
def joinAllLoop (p : Profile) (H : HashFn) : Node → List Node → TreeM E Unit
  | _, [] => pure ()
  | current, next :: rest =>
    if current.height = next.height then do
      Exec.modify fun t => { t with head := [] }
      let joined ← joinSubtrees p H next current
      Exec.modify fun t => { t with head := joined :: rest }
      joinAllLoop p H joined rest
    else pure ()

/-- `join_all_subtrees` (`src/sum/merkle_tree.rs:104-123`); the `unwrap` of line 106. -/
def joinAllSubtrees (p : Profile) (H : HashFn) : TreeM E Unit := do
  let t ← Exec.get
  match t.head with
  | [] => Exec.throw (.panic .unwrapNone)
  | current :: rest => joinAllLoop p H current rest

/-- `MerkleTree::push` (`src/sum/merkle_tree.rs:71-81`). -/
def push (p : Profile) (H : HashFn) (fee : Nat) (data : Bytes) : TreeM E Unit := do
  let node := Node.createLeaf H fee data
  let _ ← onStorage (Store.insert node.hash node)
  Exec.modify fun t => { t with head := node :: t.head }
  joinAllSubtrees p H

end Sum
end FuelMerkle
