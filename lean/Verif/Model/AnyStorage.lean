import Verif.Model.Binary
import Verif.Model.Sparse
import Verif.Model.Sum

/-
The trees over any storage type: `MerkleTree<TableType, StorageType>` is generic in the storage
(`/repo/src/binary/merkle_tree.rs:42-46`, `/repo/src/sparse/merkle_tree.rs:42-46`,
`/repo/src/sum/merkle_tree.rs:47-52`). The definitions follow those of `Model/Binary.lean`,
`Model/Sparse.lean` and `Model/Sum.lean` line by line; the only difference is that a storage call is a
call of an arbitrary implementation, not of a map with failures. Functions that do not touch the storage
are the ones defined there.
-/
namespace FuelMerkle

/-- Any implementor of `StorageInspect` and `StorageMutate` (re-exported at `src/storage.rs:5`): a type of
states, and what its methods return and make of the state. Nothing is assumed about them: they may fail,
forget, or make up answers. `get` may change the state too (interior mutability). `contains_key` is left
out, because the trees never call it. A storage that panics is not modelled. -/
structure Backend (S K V E : Type) where
  get : K → S → Except E (Option V) × S
  insert : K → V → S → Except E (Option V) × S
  remove : K → S → Except E (Option V) × S

namespace Binary.Any
variable {S E : Type}

/-- `struct MerkleTree` (`src/binary/merkle_tree.rs:35-40`). -/
structure Tree (S : Type) where
  storage : S
  head : List Node
  leavesCount : Nat

/-- Computations on a tree. -/
abbrev TreeM (S E α : Type) := Exec (Tree S) (Fail (Error E)) α

/-- A storage call made through `self.storage`, its error converted by `?`
(`src/binary/merkle_tree.rs:28-32`). -/
def onStorage {α : Type} (f : S → Except E α × S) : TreeM S E α := fun t =>
  match f t.storage with
  | (.ok a, s) => (.ok a, { t with storage := s })
  | (.error e, s) => (.error (.err (.storageError e)), { t with storage := s })

/-- `MerkleTree::new` (`src/binary/merkle_tree.rs:47-54`). -/
def Tree.new (storage : S) : Tree S := { storage, head := [], leavesCount := 0 }

/-- `MerkleTree::root` (`src/binary/merkle_tree.rs:72-79`). -/
def Tree.root (p : Profile) (H : HashFn) (t : Tree S) : Res Bytes32 := do
  let (r, _) ← rootNode p H t.head (fun _ => none)
  return match r with
    | none => emptySum
    | some node => node.hash

variable (B : Backend S Nat Prim E)

/-- The loop of `build` (`src/binary/merkle_tree.rs:220-230`). -/
def buildLoop : List Position → List Node → TreeM S E (List Node)
  | [], currentHead => pure currentHead
  | peak :: peaks, currentHead => do
    let key := peak.inOrderIndex
    match ← onStorage (B.get key) with
    | none => Exec.throw (.err (.loadError key))
    | some q => buildLoop peaks (Node.ofPrim q :: currentHead)

/-- `build` (`src/binary/merkle_tree.rs:217-235`). -/
def build (p : Profile) : TreeM S E Unit := do
  let t ← Exec.get
  let peaks ← Exec.liftRes (peakPositions p t.leavesCount)
  let head ← buildLoop B peaks []
  Exec.modify fun t => { t with head := head }

/-- `MerkleTree::load` (`src/binary/merkle_tree.rs:56-70`). -/
def Tree.load (p : Profile) (storage : S) (leavesCount : Nat) : Except (Fail (Error E)) (Tree S) × S :=
  let tree : Tree S := { storage, head := [], leavesCount }
  match build B p tree with
  | (.ok _, t) => (.ok t, t.storage)
  | (.error e, t) => (.error e, t.storage)

/-- The side-node loop of `prove` (`src/binary/merkle_tree.rs:119-127`). -/
def proveSides (scratch : Scratch) : List Position → TreeM S E (List Bytes32)
  | [] => pure []
  | side :: sides => do
    let key := side.inOrderIndex
    let main ← onStorage (B.get key)
    match (scratch key).or main with
    | none => Exec.throw (.err (.loadError key))
    | some q => do
      let rest ← proveSides scratch sides
      return (Node.ofPrim q).hash :: rest

/-- `MerkleTree::prove` (`src/binary/merkle_tree.rs:81-131`). -/
def prove (p : Profile) (H : HashFn) (proofIndex : Nat) : TreeM S E (Bytes32 × List Bytes32) := do
  let t ← Exec.get
  let next ← Exec.liftRes (u64Add p proofIndex 1)
  if next > t.leavesCount then
    Exec.throw (.err (.invalidProofIndex proofIndex))
  else do
    let rootPosition ← Exec.liftRes (rootPosition p t.leavesCount)
    let leafPosition ← Exec.liftRes (Position.fromLeafIndex p proofIndex)
    match ← onStorage (B.get leafPosition.inOrderIndex) with
    | none => Exec.throw (.err (.loadError proofIndex))
    | some primitive => do
      let leafNode := Node.ofPrim primitive
      let items ← Exec.liftRes (rootPosition.pathList p leafPosition t.leavesCount)
      let sidePositions := (items.map Prod.snd).reverse.dropLast
      let (rootNode, scratch) ← Exec.liftRes (rootNode p H t.head (fun _ => none))
      let rootNode ← Exec.liftRes (runwrap rootNode)
      let sides ← proveSides B scratch sidePositions
      return (rootNode.hash, leafNode.hash :: sides)

/-- The loop of `join_all_subtrees` (`src/binary/merkle_tree.rs:312-337`). -/
def joinAllLoop (p : Profile) (H : HashFn) : Node → List Node → TreeM S E Unit
  | _, [] => pure ()
  | current, next :: rest =>
    if current.position.height = next.position.height then do
      Exec.modify fun t => { t with head := [] }
      let joined ← Exec.liftRes (joinNodes p H next current)
      let _ ← onStorage (B.insert joined.key joined.toPrim)
      Exec.modify fun t => { t with head := joined :: rest }
      joinAllLoop p H joined rest
    else pure ()

/-- `join_all_subtrees` (`src/binary/merkle_tree.rs:312-337`). -/
def joinAllSubtrees (p : Profile) (H : HashFn) : TreeM S E Unit := do
  let t ← Exec.get
  match t.head with
  | [] => Exec.throw (.panic .unwrapNone)
  | current :: rest => joinAllLoop B p H current rest

/-- `MerkleTree::push` (`src/binary/merkle_tree.rs:295-306`). -/
def push (p : Profile) (H : HashFn) (data : Bytes) : TreeM S E Unit := do
  let t ← Exec.get
  let node ← Exec.liftRes (Node.createLeaf p H t.leavesCount data)
  let _ ← onStorage (B.insert node.key node.toPrim)
  Exec.modify fun t => { t with head := node :: t.head }
  joinAllSubtrees B p H
  let t ← Exec.get
  let n ← Exec.liftRes (u64Add p t.leavesCount 1)
  Exec.modify fun t => { t with leavesCount := n }

end Binary.Any

namespace Sum.Any
variable {S E : Type}

/-- `struct MerkleTree` (`src/sum/merkle_tree.rs:41-45`). -/
structure Tree (S : Type) where
  storage : S
  head : List Node

/-- Computations on a tree; the error type is the storage error. -/
abbrev TreeM (S E α : Type) := Exec (Tree S) (Fail E) α

/-- A storage call made through `self.storage`. -/
def onStorage {α : Type} (f : S → Except E α × S) : TreeM S E α := fun t =>
  match f t.storage with
  | (.ok a, s) => (.ok a, { t with storage := s })
  | (.error e, s) => (.error (.err e), { t with storage := s })

/-- `MerkleTree::new` (`src/sum/merkle_tree.rs:53-59`). -/
def Tree.new (storage : S) : Tree S := { storage, head := [] }

variable (B : Backend S Bytes32 Node E)

/-- `join_subtrees` (`src/sum/merkle_tree.rs:125-143`). -/
def joinSubtrees (p : Profile) (H : HashFn) (lhs rhs : Node) : TreeM S E Node := do
  let height ← Exec.liftRes (u32Add p lhs.height 1)
  let joined ← Exec.liftRes (Node.createNode p H height lhs.fee lhs.hash rhs.fee rhs.hash)
  let _ ← onStorage (B.insert joined.hash joined)
  return joined

/-- The loop of `root_node` (`src/sum/merkle_tree.rs:91-96`). -/
def rootLoop (p : Profile) (H : HashFn) : Node → List Node → TreeM S E Node
  | current, [] => pure current
  | current, next :: rest => do
    let joined ← joinSubtrees B p H next current
    rootLoop p H joined rest

/-- `root_node` (`src/sum/merkle_tree.rs:87-102`). -/
def rootNode (p : Profile) (H : HashFn) : TreeM S E (Option Node) := do
  let t ← Exec.get
  match t.head with
  | [] => return none
  | h :: rest => do
    let n ← rootLoop B p H h rest
    return some n

/-- `MerkleTree::root` (`src/sum/merkle_tree.rs:61-69`). -/
def root (p : Profile) (H : HashFn) : TreeM S E (Nat × Bytes32) := do
  match ← rootNode B p H with
  | none => return (0, emptySum)
  | some node => return (node.fee, node.hash)

/-- The loop of `join_all_subtrees` (`src/sum/merkle_tree.rs:104-123`). -/
def joinAllLoop (p : Profile) (H : HashFn) : Node → List Node → TreeM S E Unit
  | _, [] => pure ()
  | current, next :: rest =>
    if current.height = next.height then do
      Exec.modify fun t => { t with head := [] }
      let joined ← joinSubtrees B p H next current
      Exec.modify fun t => { t with head := joined :: rest }
      joinAllLoop p H joined rest
    else pure ()

/-- `join_all_subtrees` (`src/sum/merkle_tree.rs:104-123`). -/
def joinAllSubtrees (p : Profile) (H : HashFn) : TreeM S E Unit := do
  let t ← Exec.get
  match t.head with
  | [] => Exec.throw (.panic .unwrapNone)
  | current :: rest => joinAllLoop B p H current rest

/-- `MerkleTree::push` (`src/sum/merkle_tree.rs:71-81`). -/
def push (p : Profile) (H : HashFn) (fee : Nat) (data : Bytes) : TreeM S E Unit := do
  let node := Node.createLeaf H fee data
  let _ ← onStorage (B.insert node.hash node)
  Exec.modify fun t => { t with head := node :: t.head }
  joinAllSubtrees B p H

end Sum.Any

namespace Sparse.Any
variable {S E : Type}

/-- `struct MerkleTree` (`src/sparse/merkle_tree.rs:35-40`). -/
structure Tree (S : Type) where
  rootNode : Node
  storage : S

/-- Computations on a tree. -/
abbrev TreeM (S E α : Type) := Exec (Tree S) (Fail (Error E)) α

/-- A storage call made through `self.storage`, its error converted by `?`
(`src/sparse/merkle_tree.rs:29-33`). -/
def onStorage {α : Type} (f : S → Except E α × S) : TreeM S E α := fun t =>
  match f t.storage with
  | (.ok a, s) => (.ok a, { t with storage := s })
  | (.error e, s) => (.error (.err (.storageError e)), { t with storage := s })

/-- A storage call whose error is kept as a value (`src/sparse/node.rs:303-305, 323-325`). -/
def tryStorage {α : Type} (f : S → Except E α × S) : TreeM S E (Except E α) :=
  fun t => (.ok (f t.storage).1, { t with storage := (f t.storage).2 })

/-- `MerkleTree::new` (`src/sparse/merkle_tree.rs:48-54`). -/
def Tree.new (storage : S) : Tree S := { rootNode := Node.createPlaceholder, storage }

/-- `MerkleTree::root` (`src/sparse/merkle_tree.rs:122-124`). -/
def Tree.root (H : HashFn) (t : Tree S) : Bytes32 := t.rootNode.hash H

/-- `set_root_node` (`src/sparse/merkle_tree.rs:132-135`). -/
def setRootNode (p : Profile) (node : Node) : TreeM S E Unit := do
  Exec.liftRes (rdebugAssert p (node.isLeaf || node.height = Node.maxHeight))
  Exec.modify fun t => { t with rootNode := node }

variable (B : Backend S Bytes32 Prim E)

/-- Body shared by `left_child` and `right_child` after the leaf test
(`src/sparse/node.rs:299-312` and `319-332`). -/
def childByKey (key : Bytes32) : TreeM S E (Except (CErr E) Node) :=
  if key = zeroSum then return .ok Node.createPlaceholder
  else do
    match ← tryStorage (B.get key) with
    | .error e => return .error (.error (.storageError e))
    | .ok none => return .error (.childNotFound key)
    | .ok (some q) =>
      match Node.ofPrim q with
      | .ok n => return .ok n
      | .error e => return .error (.error (.deserializeError e))

/-- `StorageNode::left_child` (`src/sparse/node.rs:295-313`). -/
def leftChild (n : Node) : TreeM S E (Except (CErr E) Node) :=
  if n.isLeaf then return .error .nodeIsLeaf
  else do
    let key ← Exec.liftRes n.leftChildKey
    childByKey B key

/-- `StorageNode::right_child` (`src/sparse/node.rs:315-333`). -/
def rightChild (n : Node) : TreeM S E (Except (CErr E) Node) :=
  if n.isLeaf then return .error .nodeIsLeaf
  else do
    let key ← Exec.liftRes n.rightChildKey
    childByKey B key

/-- `impl Node for StorageNode` and `impl ParentNode for StorageNode`
(`src/sparse/node.rs:258-276, 287-334`). -/
def storageNode : ParentNode (fun α => TreeM S E α) Node (CErr E) where
  keySizeInBits := 32 * 8
  height := Node.height
  leafKey := fun n => do
    let k ← Exec.liftRes n.leafKey
    return k.val
  isNode := Node.isNode
  leftChild := leftChild B
  rightChild := rightChild B
  lift := fun x => Exec.liftRes x

/-- `MerkleTree::load` (`src/sparse/merkle_tree.rs:56-72`). -/
def Tree.load (storage : S) (root : Bytes32) : Except (Fail (Error E)) (Tree S) × S :=
  match B.get root storage with
  | (.error e, s) => (.error (.err (.storageError e)), s)
  | (.ok none, s) => (.error (.err (.loadError root)), s)
  | (.ok (some primitive), s) =>
    match Node.ofPrim primitive with
    | .error e => (.error (.err (.deserializeError e)), s)
    | .ok n => (.ok { rootNode := n, storage := s }, s)

/-- The iteration and `collect` of `path_set` (`src/sparse/merkle_tree.rs:144-152`). -/
def collectPath : (fuel : Nat) → PathIter Node (CErr E) → TreeM S E (List (Node × Node))
  | 0, _ => Exec.throw (.panic .diverges)
  | fuel + 1, it => do
    let (v, it') ← it.next (storageNode B)
    match v with
    | none => return []
    | some (.error e, _) => Exec.throw (.err (.childError e))
    | some (.ok _, .error e) => Exec.throw (.err (.childError e))
    | some (.ok a, .ok b) => do
      let rest ← collectPath fuel it'
      return (a, b) :: rest

/-- `path_set` (`src/sparse/merkle_tree.rs:137-161`). -/
def pathSet (p : Profile) (leafNode : Node) : TreeM S E (List Node × List Node) := do
  let t ← Exec.get
  let it ← PathIter.new (storageNode B) p t.rootNode leafNode
  let items ← collectPath B (PathIter.fuel (storageNode B)) it
  let pathNodes := (items.map Prod.fst).reverse
  let sideNodes := (items.map Prod.snd).reverse.dropLast
  return (pathNodes, sideNodes)

/-- One step of the merge loops (`src/sparse/merkle_tree.rs:209-211`, `217-219`, `273-275`, `282-284`). -/
def mergeNode (p : Profile) (H : HashFn) (path : Bytes) (current side : Node) : TreeM S E Node := do
  let current ← Exec.liftRes (Node.createNodeOnPath p H path current side)
  let _ ← onStorage (B.insert (current.hash H) current.toPrim)
  return current

/-- The merge loops (`src/sparse/merkle_tree.rs:208-212`, `216-220`, `281-285`). -/
def mergeNodes (p : Profile) (H : HashFn) (path : Bytes) : Node → List Node → TreeM S E Node
  | current, [] => pure current
  | current, side :: sides => do
    let current ← mergeNode B p H path current side
    mergeNodes p H path current sides

/-- `update_with_path_set` (`src/sparse/merkle_tree.rs:163-225`). -/
def updateWithPathSet (p : Profile) (H : HashFn) (requested : Node) (pathNodes sideNodes : List Node) :
    TreeM S E Unit := do
  let path ← Exec.liftRes requested.leafKey
  match pathNodes with
  | [] => Exec.throw (.panic .indexOutOfBounds)
  | actual :: _ => do
    let requestedKey ← Exec.liftRes requested.leafKey
    let actualKey ← Exec.liftRes actual.leafKey
    let current ←
      (if requestedKey ≠ actualKey then do
        let current ←
          (if actual.isPlaceholder then pure requested
           else mergeNode B p H path.val requested actual)
        let ancestorDepth ← Exec.liftRes (requested.commonPathLength p actual)
        let staleDepth := max sideNodes.length ancestorDepth
        let placeholdersCount := staleDepth - sideNodes.length
        mergeNodes B p H path.val current (List.replicate placeholdersCount Node.createPlaceholder)
      else pure requested)
    let current ← mergeNodes B p H path.val current sideNodes
    setRootNode p current

/-- The first loop of `delete_with_path_set` (`src/sparse/merkle_tree.rs:233-235`). -/
def removeAll (H : HashFn) : List Node → TreeM S E Unit
  | [] => pure ()
  | node :: nodes => do
    let _ ← onStorage (B.remove (node.hash H))
    removeAll H nodes

/-- `delete_with_path_set` (`src/sparse/merkle_tree.rs:227-290`). -/
def deleteWithPathSet (p : Profile) (H : HashFn) (requested : Node) (pathNodes sideNodes : List Node) :
    TreeM S E Unit := do
  removeAll B H pathNodes
  let path ← Exec.liftRes requested.leafKey
  let (current, rest) ←
    (match sideNodes with
    | [] => pure (Node.createPlaceholder, [])
    | first :: others =>
      if first.isLeaf then
        match findNonPlaceholder others with
        | (some sideNode, rest) => do
          let current ← mergeNode B p H path.val first sideNode
          pure (current, rest)
        | (none, rest) => pure (first, rest)
      else pure (Node.createPlaceholder, first :: others))
  let current ← mergeNodes B p H path.val current rest
  setRootNode p current

/-- `MerkleTree::delete` (`src/sparse/merkle_tree.rs:102-120`). -/
def delete (p : Profile) (H : HashFn) (key : Bytes32) : TreeM S E Unit := do
  let t ← Exec.get
  if t.root H = zeroSum then return ()
  else do
    match ← onStorage (B.get key) with
    | none => return ()
    | some primitive =>
      match Node.ofPrim primitive with
      | .error e => Exec.throw (.err (.deserializeError e))
      | .ok leafNode => do
        let (pathNodes, sideNodes) ← pathSet B p leafNode
        deleteWithPathSet B p H leafNode pathNodes sideNodes

/-- `MerkleTree::update` (`src/sparse/merkle_tree.rs:74-100`). -/
def update (p : Profile) (H : HashFn) (key : Bytes32) (data : Bytes) : TreeM S E Unit := do
  if data.isEmpty then delete B p H key
  else do
    let leafNode := Node.createLeaf H key data
    let _ ← onStorage (B.insert (leafNode.hash H) leafNode.toPrim)
    let leafKey ← Exec.liftRes leafNode.leafKey
    let _ ← onStorage (B.insert leafKey leafNode.toPrim)
    let t ← Exec.get
    if t.rootNode.isPlaceholder then setRootNode p leafNode
    else do
      let (pathNodes, sideNodes) ← pathSet B p leafNode
      updateWithPathSet B p H leafNode pathNodes sideNodes

end Sparse.Any
end FuelMerkle
