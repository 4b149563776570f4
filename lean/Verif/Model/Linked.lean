import Verif.Model.Binary
import Verif.Model.Sum

/-
The binary and sum trees once more, with the linked list of subtrees as the code has it
(`/repo/src/common/subtree.rs`) and with scratch storage used through the infallible storage traits
(`/repo/src/storage.rs`). `Model/Binary.lean` and `Model/Sum.lean` have a list of nodes instead, and
a function as scratch storage.
-/
namespace FuelMerkle

/-- `struct Subtree` (`src/common/subtree.rs:4-7`). -/
inductive Subtree (T : Type) where
  | mk (node : T) (next : Option (Subtree T))

namespace Subtree
variable {T : Type}

/-- `Subtree::new` (`src/common/subtree.rs:10-12`). -/
def new (node : T) (next : Option (Subtree T)) : Subtree T := .mk node next

/-- `next` (`src/common/subtree.rs:14-16`). -/
def next : Subtree T → Option (Subtree T)
  | .mk _ next => next

/-- Writing through `next_mut` (`src/common/subtree.rs:18-20`). -/
def setNext (s : Subtree T) (next : Option (Subtree T)) : Subtree T :=
  match s with
  | .mk node _ => .mk node next

/-- `take_next` (`src/common/subtree.rs:22-24`): the list after this node, and the node without it. -/
def takeNext (s : Subtree T) : Option (Subtree T) × Subtree T := (s.next, s.setNext none)

/-- `node` (`src/common/subtree.rs:26-28`). -/
def node : Subtree T → T
  | .mk node _ => node

/-- Writing through `node_mut` (`src/common/subtree.rs:30-32`). -/
def setNode (s : Subtree T) (node : T) : Subtree T :=
  match s with
  | .mk _ next => .mk node next

/-- `next_node` (`src/common/subtree.rs:34-36`). -/
def nextNode (s : Subtree T) : Option T := s.next.map (·.node)

/-- The number of nodes, used to bound loops. -/
def size : Subtree T → Nat
  | .mk _ none => 1
  | .mk _ (some s) => s.size + 1

end Subtree

/-! ### Storage that cannot fail -/

/-- `Result<_, Infallible>::expect`. -/
def expectInfallible {α : Type} : Except Empty α → Res α
  | .ok a => .ok a
  | .error _ => .error .unwrapNone

namespace Infallible
variable {K V : Type} [DecidableEq K]

/-- `StorageInspectInfallible::get` (`src/storage.rs:22-24`). -/
def get (k : K) (s : Store K V Empty) : Res (Option V × Store K V Empty) := do
  let (r, s) := Store.get k s
  return (← expectInfallible r, s)

/-- `StorageInspectInfallible::contains_key` (`src/storage.rs:26-29`). -/
def containsKey (k : K) (s : Store K V Empty) : Res (Bool × Store K V Empty) := do
  let (r, s) := Store.containsKey k s
  return (← expectInfallible r, s)

/-- `StorageMutateInfallible::insert` (`src/storage.rs:37-40`). -/
def insert (k : K) (v : V) (s : Store K V Empty) : Res (Option V × Store K V Empty) := do
  let (r, s) := Store.insert k v s
  return (← expectInfallible r, s)

/-- `StorageMutateInfallible::remove` (`src/storage.rs:42-45`). -/
def remove (k : K) (s : Store K V Empty) : Res (Option V × Store K V Empty) := do
  let (r, s) := Store.remove k s
  return (← expectInfallible r, s)

end Infallible

/-! ### The binary tree -/

namespace BinaryLinked
open Binary
variable {E : Type}

/-- `struct MerkleTree` (`src/binary/merkle_tree.rs:35-40`). -/
structure LTree (E : Type) where
  storage : BStore E
  head : Option (Subtree Node)
  leavesCount : Nat

/-- Computations on a tree. -/
abbrev LTreeM (E α : Type) := Exec (LTree E) (Fail (Error E)) α

/-- A storage call made through `self.storage`, its error converted by `?`. -/
def onStorage {α : Type} (f : BStore E → Except E α × BStore E) : LTreeM E α := fun t =>
  match f t.storage with
  | (.ok a, s) => (.ok a, { t with storage := s })
  | (.error e, s) => (.error (.err (.storageError e)), { t with storage := s })

/-- `MerkleTree::new` (`src/binary/merkle_tree.rs:47-54`). -/
def LTree.new (storage : BStore E) : LTree E := { storage, head := none, leavesCount := 0 }

/-- `join_subtrees` (`src/binary/merkle_tree.rs:340-343`). -/
def joinSubtrees (p : Profile) (H : HashFn) (lhs rhs : Subtree Node) : Res (Subtree Node) := do
  let joinedNode ← Node.createNode p H lhs.node rhs.node
  let (next, _) := lhs.takeNext
  return Subtree.new joinedNode next

/-- Scratch storage, a `StorageMap<NodesTable>`: no call fails. -/
abbrev LScratch := Store Nat Prim Empty

/-- The `while` loop of `build_root_node` (`src/binary/merkle_tree.rs:350-357`). -/
def buildRootLoop (p : Profile) (H : HashFn) : (fuel : Nat) → Subtree Node → LScratch → Res (Node × LScratch)
  | 0, _, _ => .error .diverges
  | fuel + 1, current, scratch =>
    if current.next.isSome then do
      let (next, head) := current.takeNext
      let headNext ← runwrap next
      let current ← joinSubtrees p H headNext head
      let (_, scratch) ← Infallible.insert current.node.key current.node.toPrim scratch
      buildRootLoop p H fuel current scratch
    else return (current.node, scratch)

/-- `root_node` (`src/binary/merkle_tree.rs:283-287`, `345-358`). -/
def rootNode (p : Profile) (H : HashFn) (head : Option (Subtree Node)) (scratch : LScratch) : Res (Option Node × LScratch) :=
  match head with
  | none => return (none, scratch)
  | some head => do
    let (n, s) ← buildRootLoop p H head.size head scratch
    return (some n, s)

/-- `MerkleTree::root` (`src/binary/merkle_tree.rs:72-79`). -/
def LTree.root (p : Profile) (H : HashFn) (t : LTree E) : Res Bytes32 := do
  let (r, _) ← rootNode p H t.head Store.empty
  return match r with
    | none => emptySum
    | some node => node.hash

/-- The side-node loop of `prove` (`src/binary/merkle_tree.rs:119-127`). -/
def proveSides : List Position → LScratch → LTreeM E (List Bytes32)
  | [], _ => pure []
  | side :: sides, scratch => do
    let key := side.inOrderIndex
    let (found, scratch) ← Exec.liftRes (Infallible.get key scratch)
    let main ← onStorage (Store.get key)
    match found.or main with
    | none => Exec.throw (.err (.loadError key))
    | some q => do
      let rest ← proveSides sides scratch
      return (Node.ofPrim q).hash :: rest

/-- `MerkleTree::prove` (`src/binary/merkle_tree.rs:81-131`). -/
def prove (p : Profile) (H : HashFn) (proofIndex : Nat) : LTreeM E (Bytes32 × List Bytes32) := do
  let t ← Exec.get
  let next ← Exec.liftRes (u64Add p proofIndex 1)
  if next > t.leavesCount then
    Exec.throw (.err (.invalidProofIndex proofIndex))
  else do
    let rootPosition ← Exec.liftRes (rootPosition p t.leavesCount)
    let leafPosition ← Exec.liftRes (Position.fromLeafIndex p proofIndex)
    match ← onStorage (Store.get leafPosition.inOrderIndex) with
    | none => Exec.throw (.err (.loadError proofIndex))
    | some primitive => do
      let leafNode := Node.ofPrim primitive
      let items ← Exec.liftRes (rootPosition.pathList p leafPosition t.leavesCount)
      let sidePositions := (items.map Prod.snd).reverse.dropLast
      let (rootNode, scratch) ← Exec.liftRes (rootNode p H t.head Store.empty)
      let rootNode ← Exec.liftRes (runwrap rootNode)
      let sides ← proveSides sidePositions scratch
      return (rootNode.hash, leafNode.hash :: sides)

/-- The loop of `build` (`src/binary/merkle_tree.rs:220-230`). -/
def buildLoop : List Position → Option (Subtree Node) → LTreeM E (Option (Subtree Node))
  | [], currentHead => pure currentHead
  | peak :: peaks, currentHead => do
    let key := peak.inOrderIndex
    match ← onStorage (Store.get key) with
    | none => Exec.throw (.err (.loadError key))
    | some q => do
      let next := Subtree.new (Node.ofPrim q) currentHead
      buildLoop peaks (some next)

/-- `build` (`src/binary/merkle_tree.rs:217-235`). -/
def build (p : Profile) : LTreeM E Unit := do
  let t ← Exec.get
  let peaks ← Exec.liftRes (peakPositions p t.leavesCount)
  let head ← buildLoop peaks none
  Exec.modify fun t => { t with head := head }

/-- `MerkleTree::load` (`src/binary/merkle_tree.rs:56-70`). -/
def LTree.load (p : Profile) (storage : BStore E) (leavesCount : Nat) : Except (Fail (Error E)) (LTree E) × BStore E :=
  let tree : LTree E := { storage, head := none, leavesCount }
  match build p tree with
  | (.ok _, t) => (.ok t, t.storage)
  | (.error e, t) => (.error e, t.storage)

/-- The condition of the loop in `join_all_subtrees` (`src/binary/merkle_tree.rs:315-320`). -/
def sameHeight (current : Subtree Node) : Res Bool :=
  if current.next.isSome then do
    let next ← runwrap current.nextNode
    return current.node.position.height == next.position.height
  else return false

/-- The loop of `join_all_subtrees` (`src/binary/merkle_tree.rs:312-337`). -/
def joinAllLoop (p : Profile) (H : HashFn) : (fuel : Nat) → LTreeM E Unit
  | 0 => Exec.throw (.panic .diverges)
  | fuel + 1 => do
    let t ← Exec.get
    let current ← Exec.liftRes (runwrap t.head)
    let goOn ← Exec.liftRes (sameHeight current)
    if goOn then do
      let t ← Exec.get
      Exec.modify fun t => { t with head := none }
      let head ← Exec.liftRes (runwrap t.head)
      let (next, head) := head.takeNext
      let headNext ← Exec.liftRes (runwrap next)
      let joinedHead ← Exec.liftRes (joinSubtrees p H headNext head)
      let _ ← onStorage (Store.insert joinedHead.node.key joinedHead.node.toPrim)
      Exec.modify fun t => { t with head := some joinedHead }
      joinAllLoop p H fuel
    else pure ()

/-- `MerkleTree::push` (`src/binary/merkle_tree.rs:295-306`). -/
def push (p : Profile) (H : HashFn) (data : Bytes) : LTreeM E Unit := do
  let t ← Exec.get
  let node ← Exec.liftRes (Node.createLeaf p H t.leavesCount data)
  let _ ← onStorage (Store.insert node.key node.toPrim)
  let t ← Exec.get
  Exec.modify fun t => { t with head := none }
  let head := Subtree.new node t.head
  Exec.modify fun t => { t with head := some head }
  joinAllLoop p H head.size
  let t ← Exec.get
  let n ← Exec.liftRes (u64Add p t.leavesCount 1)
  Exec.modify fun t => { t with leavesCount := n }

end BinaryLinked

/-! ### The sum tree -/

namespace SumLinked
open FuelMerkle.Sum
variable {E : Type}

/-- `struct MerkleTree` (`src/sum/merkle_tree.rs:41-45`). -/
structure LTree (E : Type) where
  storage : SStore E
  head : Option (Subtree Node)

/-- Computations on a tree. -/
abbrev LTreeM (E α : Type) := Exec (LTree E) (Fail E) α

/-- A storage call made through `self.storage`. -/
def onStorage {α : Type} (f : SStore E → Except E α × SStore E) : LTreeM E α := fun t =>
  match f t.storage with
  | (.ok a, s) => (.ok a, { t with storage := s })
  | (.error e, s) => (.error (.err e), { t with storage := s })

/-- `MerkleTree::new` (`src/sum/merkle_tree.rs:53-59`). -/
def LTree.new (storage : SStore E) : LTree E := { storage, head := none }

/-- `join_subtrees` (`src/sum/merkle_tree.rs:125-143`). -/
def joinSubtrees (p : Profile) (H : HashFn) (lhs rhs : Subtree Node) : LTreeM E (Subtree Node) := do
  let height ← Exec.liftRes (u32Add p lhs.node.height 1)
  let joined ← Exec.liftRes (Node.createNode p H height lhs.node.fee lhs.node.hash rhs.node.fee rhs.node.hash)
  let _ ← onStorage (Store.insert joined.hash joined)
  let (next, _) := lhs.takeNext
  return Subtree.new joined next

/-- The `while` loop of `root_node` (`src/sum/merkle_tree.rs:92-96`). -/
def rootLoop (p : Profile) (H : HashFn) : (fuel : Nat) → Subtree Node → LTreeM E Node
  | 0, _ => Exec.throw (.panic .diverges)
  | fuel + 1, current =>
    if current.next.isSome then do
      let (next, head) := current.takeNext
      let headNext ← Exec.liftRes (runwrap next)
      let current ← joinSubtrees p H headNext head
      rootLoop p H fuel current
    else return current.node

/-- `root_node` (`src/sum/merkle_tree.rs:87-102`). -/
def rootNode (p : Profile) (H : HashFn) : LTreeM E (Option Node) := do
  let t ← Exec.get
  match t.head with
  | none => return none
  | some initial => do
    let n ← rootLoop p H initial.size initial
    return some n

/-- `MerkleTree::root` (`src/sum/merkle_tree.rs:61-69`). -/
def root (p : Profile) (H : HashFn) : LTreeM E (Nat × Bytes32) := do
  match ← rootNode p H with
  | none => return (0, emptySum)
  | some node => return (node.fee, node.hash)

/-- The condition of the loop in `join_all_subtrees` (`src/sum/merkle_tree.rs:107-109`). -/
def sameHeight (current : Subtree Node) : Res Bool :=
  if current.next.isSome then do
    let next ← runwrap current.nextNode
    return current.node.height == next.height
  else return false

/-- The loop of `join_all_subtrees` (`src/sum/merkle_tree.rs:104-123`). -/
def joinAllLoop (p : Profile) (H : HashFn) : (fuel : Nat) → LTreeM E Unit
  | 0 => Exec.throw (.panic .diverges)
  | fuel + 1 => do
    let t ← Exec.get
    let current ← Exec.liftRes (runwrap t.head)
    let goOn ← Exec.liftRes (sameHeight current)
    if goOn then do
      let t ← Exec.get
      Exec.modify fun t => { t with head := none }
      let head ← Exec.liftRes (runwrap t.head)
      let (next, head) := head.takeNext
      let headNext ← Exec.liftRes (runwrap next)
      let joined ← joinSubtrees p H headNext head
      Exec.modify fun t => { t with head := some joined }
      joinAllLoop p H fuel
    else pure ()

/-- `MerkleTree::push` (`src/sum/merkle_tree.rs:71-81`). -/
def push (p : Profile) (H : HashFn) (fee : Nat) (data : Bytes) : LTreeM E Unit := do
  let node := Node.createLeaf H fee data
  let _ ← onStorage (Store.insert node.hash node)
  let t ← Exec.get
  Exec.modify fun t => { t with head := none }
  let head := Subtree.new node t.head
  Exec.modify fun t => { t with head := some head }
  joinAllLoop p H head.size

end SumLinked
end FuelMerkle
