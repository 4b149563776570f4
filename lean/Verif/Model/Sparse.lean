import Verif.Model.Storage
import Verif.Model.Prefix
import Verif.Model.PathIter

/-
The sparse Merkle tree: `/repo/src/sparse/*.rs`.
-/
namespace FuelMerkle
namespace Sparse

/-- `zero_sum` (`src/sparse/hash.rs:8-12`). -/
def zeroSum : Bytes32 := ⟨List.replicate 32 0, rfl⟩

/-- `sum` (`src/sparse/hash.rs:14-21`). -/
def sum (H : HashFn) (data : Bytes) : Bytes32 := H data

/-- `sum_all` (`src/sparse/hash.rs:23-33`). -/
def sumAll (H : HashFn) (data : List Bytes) : Bytes32 := H data.flatten

/-- `struct Node` (`src/sparse/node.rs:17-23`). -/
structure Node where
  height : Nat
  pfx : Prefix
  bytesLo : Bytes32
  bytesHi : Bytes32
deriving DecidableEq

/-- `Primitive` (`src/sparse/primitive.rs:24`). -/
abbrev Prim := Nat × UInt8 × Bytes32 × Bytes32

namespace Node

/-- `max_height` = `key_size_in_bits` of `Bytes32` (`src/sparse/node.rs:37-39`,
`src/common/node.rs:6-8`). -/
def maxHeight : Nat := 32 * 8

/-- `Default for Node`, `create_placeholder` (`src/sparse/node.rs:25-34, 95-97`). -/
def createPlaceholder : Node :=
  { height := 0, pfx := Prefix.default, bytesLo := zeroSum, bytesHi := zeroSum }

/-- `create_leaf` (`src/sparse/node.rs:50-57`). -/
def createLeaf (H : HashFn) (key : Bytes32) (data : Bytes) : Node :=
  { height := 0, pfx := .leaf, bytesLo := key, bytesHi := sum H data }

/-- `is_placeholder` (`src/sparse/node.rs:158-160`). -/
def isPlaceholder (n : Node) : Bool := n.bytesLo = zeroSum && n.bytesHi = zeroSum

/-- `is_leaf` (`src/sparse/node.rs:130-132`). -/
def isLeaf (n : Node) : Bool := n.pfx = .leaf || n.isPlaceholder

/-- `is_node` (`src/sparse/node.rs:134-136`). -/
def isNode (n : Node) : Bool := n.pfx = .node

/-- `hash` (`src/sparse/node.rs:162-173`). -/
def hash (H : HashFn) (n : Node) : Bytes32 :=
  if n.isPlaceholder then zeroSum
  else sumAll H [n.pfx.bytes, n.bytesLo.val, n.bytesHi.val]

/-- `create_node` (`src/sparse/node.rs:59-66`). -/
def createNode (H : HashFn) (leftChild rightChild : Node) (height : Nat) : Node :=
  { height, pfx := .node, bytesLo := leftChild.hash H, bytesHi := rightChild.hash H }

/-- `leaf_key` (`src/sparse/node.rs:138-141`). -/
def leafKey (n : Node) : Res Bytes32 := do
  rassert n.isLeaf
  return n.bytesLo

/-- `leaf_data` (`src/sparse/node.rs:143-146`). -/
def leafData (n : Node) : Res Bytes32 := do
  rassert n.isLeaf
  return n.bytesHi

/-- `left_child_key` (`src/sparse/node.rs:148-151`). -/
def leftChildKey (n : Node) : Res Bytes32 := do
  rassert n.isNode
  return n.bytesLo

/-- `right_child_key` (`src/sparse/node.rs:153-156`). -/
def rightChildKey (n : Node) : Res Bytes32 := do
  rassert n.isNode
  return n.bytesHi

/-- `common_path_length` (`src/sparse/node.rs:99-112`). -/
def commonPathLength (p : Profile) (a b : Node) : Res Nat := do
  rdebugAssert p a.isLeaf
  rdebugAssert p b.isLeaf
  if a.isPlaceholder || b.isPlaceholder then return 0
  else do
    let ka ← a.leafKey
    let kb ← b.leafKey
    FuelMerkle.commonPathLength ka.val kb.val

/-- `create_node_on_path` (`src/sparse/node.rs:68-93`). The cast from
`u32` to `usize` keeps the value. The one from `usize` to `u32` (line 76) is modelled as the
identity: the value is at most 256, or the next line panics. -/
def createNodeOnPath (p : Profile) (H : HashFn) (path : Bytes) (pathNode sideNode : Node) :
    Res Node :=
  if pathNode.isLeaf && sideNode.isLeaf then do
    let parentDepth ← pathNode.commonPathLength p sideNode
    let parentHeight ← usizeSub p maxHeight parentDepth
    match ← runwrap (getInstruction path parentDepth) with
    | .left => return createNode H pathNode sideNode parentHeight
    | .right => return createNode H sideNode pathNode parentHeight
  else do
    let parentHeight ← u32Add p (max pathNode.height sideNode.height) 1
    let parentDepth ← usizeSub p maxHeight parentHeight
    match ← runwrap (getInstruction path parentDepth) with
    | .left => return createNode H pathNode sideNode parentHeight
    | .right => return createNode H sideNode pathNode parentHeight

/-- `From<&Node> for Primitive` (`src/sparse/primitive.rs:51-60`). -/
def toPrim (n : Node) : Prim := (n.height, n.pfx.toU8, n.bytesLo, n.bytesHi)

/-- `TryFrom<Primitive> for Node` (`src/sparse/primitive.rs:62-73`, view at 33-49). -/
def ofPrim (q : Prim) : Except DeserializeError Node := do
  let pfx ← Prefix.ofU8 q.2.1
  return { height := q.1, pfx, bytesLo := q.2.2.1, bytesHi := q.2.2.2 }

end Node

/-- `StorageNodeError` (`src/sparse/node.rs:278-285`). -/
inductive StorageNodeError (E : Type) where
  | storageError (e : E)
  | deserializeError (e : DeserializeError)
deriving DecidableEq, Repr

/-- `MerkleTreeError` (`src/sparse/merkle_tree.rs:10-27`). `LoadError` carries the hex
string of a key; the model carries the key. -/
inductive Error (E : Type) where
  | loadError (key : Bytes32)
  | storageError (e : E)
  | deserializeError (e : DeserializeError)
  | childError (e : ChildError Bytes32 (StorageNodeError E))
deriving DecidableEq

/-- The storage of a sparse tree (`src/sparse/merkle_tree.rs:44`). -/
abbrev SpStore (E : Type) := Store Bytes32 Prim E

/-- `struct MerkleTree` (`src/sparse/merkle_tree.rs:35-40`). -/
structure Tree (E : Type) where
  rootNode : Node
  storage : SpStore E

variable {E : Type}

/-- Computations on a tree. -/
abbrev TreeM (E α : Type) := Exec (Tree E) (Fail (Error E)) α

/-- A storage call made through `self.storage`, its error converted by `?`
(`From<StorageError>`, `src/sparse/merkle_tree.rs:29-33`). -/
def onStorage {α : Type} (f : SpStore E → Except E α × SpStore E) : TreeM E α := fun t =>
  match f t.storage with
  | (.ok a, s) => (.ok a, { t with storage := s })
  | (.error e, s) => (.error (.err (.storageError e)), { t with storage := s })

/-- A storage call whose error is kept as a value (`map_err(..)` inside `left_child` and
`right_child`). -/
def tryStorage {α : Type} (f : SpStore E → Except E α × SpStore E) : TreeM E (Except E α) :=
  fun t => (.ok (f t.storage).1, { t with storage := (f t.storage).2 })

/-- Child errors of storage nodes. -/
abbrev CErr (E : Type) := ChildError Bytes32 (StorageNodeError E)

/-- Body shared by `left_child` and `right_child` after the leaf test
(`src/sparse/node.rs:299-312` and `319-332`). -/
def childByKey (key : Bytes32) : TreeM E (Except (CErr E) Node) :=
  if key = zeroSum then return .ok Node.createPlaceholder
  else do
    match ← tryStorage (Store.get key) with
    | .error e => return .error (.error (.storageError e))
    | .ok none => return .error (.childNotFound key)
    | .ok (some q) =>
      match Node.ofPrim q with
      | .ok n => return .ok n
      | .error e => return .error (.error (.deserializeError e))

/-- `StorageNode::left_child` (`src/sparse/node.rs:295-313`). -/
def leftChild (n : Node) : TreeM E (Except (CErr E) Node) :=
  if n.isLeaf then return .error .nodeIsLeaf
  else do
    let key ← Exec.liftRes n.leftChildKey
    childByKey key

/-- `StorageNode::right_child` (`src/sparse/node.rs:315-333`). -/
def rightChild (n : Node) : TreeM E (Except (CErr E) Node) :=
  if n.isLeaf then return .error .nodeIsLeaf
  else do
    let key ← Exec.liftRes n.rightChildKey
    childByKey key

/-- `impl Node for StorageNode` and `impl ParentNode for StorageNode`
(`src/sparse/node.rs:258-276, 287-334`). -/
def storageNode : ParentNode (fun α => TreeM E α) Node (CErr E) where
  keySizeInBits := 32 * 8
  height := Node.height
  leafKey := fun n => do
    let k ← Exec.liftRes n.leafKey
    return k.val
  isNode := Node.isNode
  leftChild := leftChild
  rightChild := rightChild
  lift := fun x => Exec.liftRes x

/-- `MerkleTree::new` (`src/sparse/merkle_tree.rs:48-54`). -/
def Tree.new (storage : SpStore E) : Tree E := { rootNode := Node.createPlaceholder, storage }

/-- `MerkleTree::load` (`src/sparse/merkle_tree.rs:56-72`). The storage is returned also on
failure, so that its state stays visible. -/
def Tree.load (storage : SpStore E) (root : Bytes32) :
    Except (Fail (Error E)) (Tree E) × SpStore E :=
  match Store.get root storage with
  | (.error e, s) => (.error (.err (.storageError e)), s)
  | (.ok none, s) => (.error (.err (.loadError root)), s)
  | (.ok (some primitive), s) =>
    match Node.ofPrim primitive with
    | .error e => (.error (.err (.deserializeError e)), s)
    | .ok n => (.ok { rootNode := n, storage := s }, s)

/-- `MerkleTree::root` (`src/sparse/merkle_tree.rs:122-124`). -/
def Tree.root (H : HashFn) (t : Tree E) : Bytes32 := t.rootNode.hash H

/-- `set_root_node` (`src/sparse/merkle_tree.rs:132-135`). -/
def setRootNode (p : Profile) (node : Node) : TreeM E Unit := do
  Exec.liftRes (rdebugAssert p (node.isLeaf || node.height = Node.maxHeight))
  Exec.modify fun t => { t with rootNode := node }

/-- The iteration and `collect` of `path_set` (`src/sparse/merkle_tree.rs:144-152`): the
iterator is advanced until it ends or an item has an error. -/
def collectPath : (fuel : Nat) → PathIter Node (CErr E) → TreeM E (List (Node × Node))
  | 0, _ => Exec.throw (.panic .diverges)
  | fuel + 1, it => do
    let (v, it') ← it.next storageNode
    match v with
    | none => return []
    | some (.error e, _) => Exec.throw (.err (.childError e))
    | some (.ok _, .error e) => Exec.throw (.err (.childError e))
    | some (.ok a, .ok b) => do
      let rest ← collectPath fuel it'
      return (a, b) :: rest

/-- `path_set` (`src/sparse/merkle_tree.rs:137-161`). -/
def pathSet (p : Profile) (leafNode : Node) : TreeM E (List Node × List Node) := do
  let t ← Exec.get
  let it ← PathIter.new storageNode p t.rootNode leafNode
  let items ← collectPath (PathIter.fuel (storageNode (E := E))) it
  let pathNodes := (items.map Prod.fst).reverse
  let sideNodes := (items.map Prod.snd).reverse.dropLast
  return (pathNodes, sideNodes)

/-- One step of the merge loops (`src/sparse/merkle_tree.rs:209-211`, `217-219`,
`273-275`, `282-284`). -/
def mergeNode (p : Profile) (H : HashFn) (path : Bytes) (current side : Node) : TreeM E Node := do
  let current ← Exec.liftRes (Node.createNodeOnPath p H path current side)
  let _ ← onStorage (Store.insert (current.hash H) current.toPrim)
  return current

/-- The merge loops (`src/sparse/merkle_tree.rs:208-212`, `216-220`, `281-285`). -/
def mergeNodes (p : Profile) (H : HashFn) (path : Bytes) : Node → List Node → TreeM E Node
  | current, [] => pure current
  | current, side :: sides => do
    let current ← mergeNode p H path current side
    mergeNodes p H path current sides

/-- `update_with_path_set` (`src/sparse/merkle_tree.rs:163-225`). -/
def updateWithPathSet (p : Profile) (H : HashFn) (requested : Node) (pathNodes sideNodes : List Node) :
    TreeM E Unit := do
  let path ← Exec.liftRes requested.leafKey
  match pathNodes with
  | [] => Exec.throw (.panic .indexOutOfBounds)
  | actual :: _ => do
    let requestedKey ← Exec.liftRes requested.leafKey
    let actualKey ← Exec.liftRes actual.leafKey
    let current ←
      (if requestedKey ≠ actualKey then do
        let current ←
          (if actual.isPlaceholder then pure requested
           else mergeNode p H path.val requested actual)
        let ancestorDepth ← Exec.liftRes (requested.commonPathLength p actual)
        let staleDepth := max sideNodes.length ancestorDepth
        let placeholdersCount := staleDepth - sideNodes.length
        mergeNodes p H path.val current (List.replicate placeholdersCount Node.createPlaceholder)
      else pure requested)
    let current ← mergeNodes p H path.val current sideNodes
    setRootNode p current

/-- The first loop of `delete_with_path_set` (`src/sparse/merkle_tree.rs:233-235`). -/
def removeAll (H : HashFn) : List Node → TreeM E Unit
  | [] => pure ()
  | node :: nodes => do
    let _ ← onStorage (Store.remove (node.hash H))
    removeAll H nodes

/-- `side_nodes_iter.find(|side_node| !side_node.is_placeholder())`
(`src/sparse/merkle_tree.rs:270-272`): the node found and what the iterator still holds. -/
def findNonPlaceholder : List Node → Option Node × List Node
  | [] => (none, [])
  | n :: ns => if n.isPlaceholder then findNonPlaceholder ns else (some n, ns)

/-- `delete_with_path_set` (`src/sparse/merkle_tree.rs:227-290`). -/
def deleteWithPathSet (p : Profile) (H : HashFn) (requested : Node) (pathNodes sideNodes : List Node) :
    TreeM E Unit := do
  removeAll H pathNodes
  let path ← Exec.liftRes requested.leafKey
  let (current, rest) ←
    (match sideNodes with
    | [] => pure (Node.createPlaceholder, [])
    | first :: others =>
      if first.isLeaf then
        match findNonPlaceholder others with
        | (some sideNode, rest) => do
          let current ← mergeNode p H path.val first sideNode
          pure (current, rest)
        | (none, rest) => pure (first, rest)
      else pure (Node.createPlaceholder, first :: others))
  let current ← mergeNodes p H path.val current rest
  setRootNode p current

/-- `MerkleTree::delete` (`src/sparse/merkle_tree.rs:102-120`). -/
def delete (p : Profile) (H : HashFn) (key : Bytes32) : TreeM E Unit := do
  let t ← Exec.get
  if t.root H = zeroSum then return ()
  else do
    match ← onStorage (Store.get key) with
    | none => return ()
    | some primitive =>
      match Node.ofPrim primitive with
      | .error e => Exec.throw (.err (.deserializeError e))
      | .ok leafNode => do
        let (pathNodes, sideNodes) ← pathSet p leafNode
        deleteWithPathSet p H leafNode pathNodes sideNodes

/-- `MerkleTree::update` (`src/sparse/merkle_tree.rs:74-100`). -/
def update (p : Profile) (H : HashFn) (key : Bytes32) (data : Bytes) : TreeM E Unit := do
  if data.isEmpty then delete p H key
  else do
    let leafNode := Node.createLeaf H key data
    let _ ← onStorage (Store.insert (leafNode.hash H) leafNode.toPrim)
    let leafKey ← Exec.liftRes leafNode.leafKey
    let _ ← onStorage (Store.insert leafKey leafNode.toPrim)
    let t ← Exec.get
    if t.rootNode.isPlaceholder then setRootNode p leafNode
    else do
      let (pathNodes, sideNodes) ← pathSet p leafNode
      updateWithPathSet p H leafNode pathNodes sideNodes

end Sparse
end FuelMerkle
