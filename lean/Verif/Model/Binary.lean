import Verif.Model.Storage
import Verif.Model.Prefix
import Verif.Model.PathIter

/-
The binary Merkle tree: `/repo/src/binary/*.rs`, `/repo/src/common/subtree.rs`,
`/repo/src/common.rs`.
-/
namespace FuelMerkle

/-- `empty_sum_sha256` (`src/common.rs:36-44`). -/
def emptySumSha256 : Bytes32 :=
  ⟨[0xe3, 0xb0, 0xc4, 0x42, 0x98, 0xfc, 0x1c, 0x14, 0x9a, 0xfb, 0xf4, 0xc8, 0x99, 0x6f, 0xb9,
    0x24, 0x27, 0xae, 0x41, 0xe4, 0x64, 0x9b, 0x93, 0x4c, 0xa4, 0x95, 0x99, 0x1b, 0x78, 0x52,
    0xb8, 0x55], rfl⟩

namespace Binary

/-- `empty_sum` (`src/binary/hash.rs:10-12`). -/
def emptySum : Bytes32 := emptySumSha256

/-- `node_sum` (`src/binary/hash.rs:16-24`). -/
def nodeSum (H : HashFn) (lhs rhs : Bytes) : Bytes32 := H (Prefix.node.bytes ++ lhs ++ rhs)

/-- `leaf_sum` (`src/binary/hash.rs:28-35`). -/
def leafSum (H : HashFn) (data : Bytes) : Bytes32 := H (Prefix.leaf.bytes ++ data)

/-- `struct Node` (`src/binary/node.rs:9-12`). -/
structure Node where
  position : Position
  hash : Bytes32
deriving DecidableEq

/-- `Primitive` (`src/binary/primitive.rs:6`). -/
abbrev Prim := Nat × Bytes32

namespace Node

/-- `create_leaf` (`src/binary/node.rs:19-23`). -/
def createLeaf (p : Profile) (H : HashFn) (index : Nat) (data : Bytes) : Res Node := do
  let position ← Position.fromLeafIndex p index
  let hash := leafSum H data
  return { position, hash }

/-- `create_node` (`src/binary/node.rs:25-29`). -/
def createNode (p : Profile) (H : HashFn) (leftChild rightChild : Node) : Res Node := do
  let position ← leftChild.position.parent p
  let hash := nodeSum H leftChild.hash.val rightChild.hash.val
  return { position, hash }

/-- `key` (`src/binary/node.rs:35-37`). -/
def key (n : Node) : Nat := n.position.inOrderIndex

/-- `From<&Node> for Primitive` (`src/binary/primitive.rs:23-27`). -/
def toPrim (n : Node) : Prim := (n.position.inOrderIndex, n.hash)

/-- `From<Primitive> for Node` (`src/binary/primitive.rs:29-35`, view at 13-21). -/
def ofPrim (q : Prim) : Node := { position := Position.fromInOrderIndex q.1, hash := q.2 }

end Node

/-- `MerkleTreeError` (`src/binary/merkle_tree.rs:14-26`). -/
inductive Error (E : Type) where
  | invalidProofIndex (index : Nat)
  | loadError (key : Nat)
  | storageError (e : E)
deriving DecidableEq, Repr

/-- The storage of a binary tree: keys are in-order indices
(`src/binary/merkle_tree.rs:44`). -/
abbrev BStore (E : Type) := Store Nat Prim E

/-- `struct MerkleTree` (`src/binary/merkle_tree.rs:35-40`). The linked list
`Option<Box<Subtree<Node>>>` (`src/common/subtree.rs:4-7`) is the list of its nodes, first
node first. -/
structure Tree (E : Type) where
  storage : BStore E
  head : List Node
  leavesCount : Nat

variable {E : Type}

/-- Computations on a tree. -/
abbrev TreeM (E α : Type) := Exec (Tree E) (Fail (Error E)) α

/-- A storage call made through `self.storage`, its error converted by `?`
(`From<StorageError>`, `src/binary/merkle_tree.rs:28-32`). -/
def onStorage {α : Type} (f : BStore E → Except E α × BStore E) : TreeM E α := fun t =>
  match f t.storage with
  | (.ok a, s) => (.ok a, { t with storage := s })
  | (.error e, s) => (.error (.err (.storageError e)), { t with storage := s })

/-- `MerkleTree::new` (`src/binary/merkle_tree.rs:47-54`). -/
def Tree.new (storage : BStore E) : Tree E := { storage, head := [], leavesCount := 0 }

/-- `root_position` (`src/binary/merkle_tree.rs:254-264`). -/
def rootPosition (p : Profile) (leavesCount : Nat) : Res Position := do
  let n ← u64Add p leavesCount 1
  let pow ← u64NextPowerOfTwo p n
  let rootIndex ← u64Sub p pow 1
  return Position.fromInOrderIndex rootIndex

/-- `peak_positions` (`src/binary/merkle_tree.rs:237-252`). -/
def peakPositions (p : Profile) (leavesCount : Nat) : Res (List Position) := do
  let n ← u64Add p leavesCount 1
  let i ← u64Sub p n 1
  let leafPosition ← Position.fromLeafIndex p i
  let rootPosition ← rootPosition p leavesCount
  let items ← rootPosition.pathList p leafPosition n
  return (items.drop 1).map Prod.snd

/-- The loop of `build` (`src/binary/merkle_tree.rs:220-230`). -/
def buildLoop : List Position → List Node → TreeM E (List Node)
  | [], currentHead => pure currentHead
  | peak :: peaks, currentHead => do
    let key := peak.inOrderIndex
    match ← onStorage (Store.get key) with
    | none => Exec.throw (.err (.loadError key))
    | some q => buildLoop peaks (Node.ofPrim q :: currentHead)

/-- `build` (`src/binary/merkle_tree.rs:217-235`). -/
def build (p : Profile) : TreeM E Unit := do
  let t ← Exec.get
  let peaks ← Exec.liftRes (peakPositions p t.leavesCount)
  let head ← buildLoop peaks []
  Exec.modify fun t => { t with head := head }

/-- `MerkleTree::load` (`src/binary/merkle_tree.rs:56-70`). On failure the tree is
dropped; the storage it used is returned so that its state stays visible. -/
def Tree.load (p : Profile) (storage : BStore E) (leavesCount : Nat) :
    Except (Fail (Error E)) (Tree E) × BStore E :=
  let tree : Tree E := { storage, head := [], leavesCount }
  match build p tree with
  | (.ok _, t) => (.ok t, t.storage)
  | (.error e, t) => (.error e, t.storage)

/-- `join_subtrees` followed by taking the joined node
(`src/binary/merkle_tree.rs:340-343`); the tail of `lhs` becomes the tail of the result,
which the callers below express on the list. -/
def joinNodes (p : Profile) (H : HashFn) (lhs rhs : Node) : Res Node := Node.createNode p H lhs rhs

/-- Scratch storage: a `StorageMap<NodesTable>` (`src/binary/merkle_tree.rs:73, 110`). -/
abbrev Scratch := Nat → Option Prim

/-- `build_root_node` (`src/binary/merkle_tree.rs:345-358`): `current` is the head node,
the list is the rest of the subtree list. -/
def buildRootNode (p : Profile) (H : HashFn) :
    Node → List Node → Scratch → Res (Node × Scratch)
  | current, [], scratch => return (current, scratch)
  | current, next :: rest, scratch => do
    let joined ← joinNodes p H next current
    buildRootNode p H joined rest (Store.upd scratch joined.key (some joined.toPrim))

/-- `root_node` (`src/binary/merkle_tree.rs:283-287`). -/
def rootNode (p : Profile) (H : HashFn) (head : List Node) (scratch : Scratch) :
    Res (Option Node × Scratch) :=
  match head with
  | [] => return (none, scratch)
  | h :: rest => do
    let (n, s) ← buildRootNode p H h rest scratch
    return (some n, s)

/-- `MerkleTree::root` (`src/binary/merkle_tree.rs:72-79`). -/
def Tree.root (p : Profile) (H : HashFn) (t : Tree E) : Res Bytes32 := do
  let (r, _) ← rootNode p H t.head (fun _ => none)
  return match r with
    | none => emptySum
    | some node => node.hash

/-- The side-node loop of `prove` (`src/binary/merkle_tree.rs:119-127`). The main storage
is read even when the scratch storage has the node, because `or` takes its argument
eagerly. -/
def proveSides (scratch : Scratch) : List Position → TreeM E (List Bytes32)
  | [] => pure []
  | side :: sides => do
    let key := side.inOrderIndex
    let main ← onStorage (Store.get key)
    match (scratch key).or main with
    | none => Exec.throw (.err (.loadError key))
    | some q => do
      let rest ← proveSides scratch sides
      return (Node.ofPrim q).hash :: rest

/-- `MerkleTree::prove` (`src/binary/merkle_tree.rs:81-131`). -/
def prove (p : Profile) (H : HashFn) (proofIndex : Nat) : TreeM E (Bytes32 × List Bytes32) := do
  let t ← Exec.get
  let next ← Exec.liftRes (u64Add p proofIndex 1)
  if next > t.leavesCount then
    Exec.throw (.err (.invalidProofIndex proofIndex))
  else do
    let rootPosition ← Exec.liftRes (rootPosition p t.leavesCount)
    let leafPosition ← Exec.liftRes (Position.fromLeafIndex p proofIndex)
    match ← onStorage (Store.get leafPosition.inOrderIndex) with
    | none => Exec.throw (.err (.loadError proofIndex))
    | some primitive => do
      let leafNode := Node.ofPrim primitive
      let items ← Exec.liftRes (rootPosition.pathList p leafPosition t.leavesCount)
      let sidePositions := (items.map Prod.snd).reverse.dropLast
      let (rootNode, scratch) ← Exec.liftRes (rootNode p H t.head (fun _ => none))
      let rootNode ← Exec.liftRes (runwrap rootNode)
      let sides ← proveSides scratch sidePositions
      return (rootNode.hash, leafNode.hash :: sides)

/-- The loop of `join_all_subtrees` (`src/binary/merkle_tree.rs:312-337`): `current` is the
first node of the list and the argument list is the rest. While a joined node is being
written, `self.head` is `None` (it was taken at line 324). -/
def joinAllLoop (p : Profile) (H : HashFn) : Node → List Node → TreeM E Unit
  | _, [] => pure ()
  | current, next :: rest =>
    if current.position.height = next.position.height then do
      Exec.modify fun t => { t with head := [] }
      let joined ← Exec.liftRes (joinNodes p H next current)
      let _ ← onStorage (Store.insert joined.key joined.toPrim)
      Exec.modify fun t => { t with head := joined :: rest }
      joinAllLoop p H joined rest
    else pure ()

/-- `join_all_subtrees` (`src/binary/merkle_tree.rs:312-337`); the `unwrap` of line 314. -/
def joinAllSubtrees (p : Profile) (H : HashFn) : TreeM E Unit := do
  let t ← Exec.get
  match t.head with
  | [] => Exec.throw (.panic .unwrapNone)
  | current :: rest => joinAllLoop p H current rest

/-- `MerkleTree::push` (`src/binary/merkle_tree.rs:295-306`). -/
def push (p : Profile) (H : HashFn) (data : Bytes) : TreeM E Unit := do
  let t ← Exec.get
  let node ← Exec.liftRes (Node.createLeaf p H t.leavesCount data)
  let _ ← onStorage (Store.insert node.key node.toPrim)
  Exec.modify fun t => { t with head := node :: t.head }
  joinAllSubtrees p H
  let t ← Exec.get
  let n ← Exec.liftRes (u64Add p t.leavesCount 1)
  Exec.modify fun t => { t with leavesCount := n }

end Binary
end FuelMerkle
