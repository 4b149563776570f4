import Verif.Model.Binary
import Verif.Model.Sum
import Verif.Model.Sparse
import Verif.Model.Verify

/-
The calls of the trees once more, as in `Model/Binary.lean`, `Model/Sum.lean` and
`Model/Sparse.lean`, and the verifier of `Model/Verify.lean`, with a record of every message that is hashed: each finished digest
(`/repo/src/binary/hash.rs`, `/repo/src/sum/hash.rs`, `/repo/src/sparse/hash.rs`) adds its
message. Functions that hash nothing are taken over from there with `quiet`.
-/
namespace FuelMerkle

/-- A state and the messages hashed so far, in order. -/
structure Metered (σ : Type) where
  inner : σ
  hashed : List Bytes

/-- A computation that hashes nothing. -/
def quiet {σ ε α : Type} (x : Exec σ ε α) : Exec (Metered σ) ε α := fun s =>
  ((x s.inner).1, { s with inner := (x s.inner).2 })

/-- One run of the hash function, `Hash::new()` to `finalize()`. -/
def digest {σ ε : Type} (H : HashFn) (message : Bytes) : Exec (Metered σ) ε Bytes32 := fun s =>
  (.ok (H message), { s with hashed := s.hashed ++ [message] })

namespace Binary.Metered
variable {E : Type}

/-- Computations on a tree. -/
abbrev TreeM (E α : Type) := Exec (FuelMerkle.Metered (Tree E)) (Fail (Error E)) α

/-- `node_sum` (`src/binary/hash.rs:16-24`). -/
def nodeSum (H : HashFn) (lhs rhs : Bytes) : TreeM E Bytes32 := digest H (Prefix.node.bytes ++ lhs ++ rhs)

/-- `leaf_sum` (`src/binary/hash.rs:28-35`). -/
def leafSum (H : HashFn) (data : Bytes) : TreeM E Bytes32 := digest H (Prefix.leaf.bytes ++ data)

/-- `create_leaf` (`src/binary/node.rs:19-23`). -/
def createLeaf (p : Profile) (H : HashFn) (index : Nat) (data : Bytes) : TreeM E Node := do
  let position ← Exec.liftRes (Position.fromLeafIndex p index)
  let hash ← leafSum H data
  return { position, hash }

/-- `create_node` (`src/binary/node.rs:25-29`). -/
def createNode (p : Profile) (H : HashFn) (leftChild rightChild : Node) : TreeM E Node := do
  let position ← Exec.liftRes (leftChild.position.parent p)
  let hash ← nodeSum H leftChild.hash.val rightChild.hash.val
  return { position, hash }

/-- `join_subtrees` (`src/binary/merkle_tree.rs:340-343`). -/
def joinNodes (p : Profile) (H : HashFn) (lhs rhs : Node) : TreeM E Node := createNode p H lhs rhs

/-- `build_root_node` (`src/binary/merkle_tree.rs:345-358`). -/
def buildRootNode (p : Profile) (H : HashFn) : Node → List Node → Scratch → TreeM E (Node × Scratch)
  | current, [], scratch => return (current, scratch)
  | current, next :: rest, scratch => do
    let joined ← joinNodes p H next current
    buildRootNode p H joined rest (Store.upd scratch joined.key (some joined.toPrim))

/-- `root_node` (`src/binary/merkle_tree.rs:283-287`). -/
def rootNode (p : Profile) (H : HashFn) (head : List Node) (scratch : Scratch) : TreeM E (Option Node × Scratch) :=
  match head with
  | [] => return (none, scratch)
  | h :: rest => do
    let (n, s) ← buildRootNode p H h rest scratch
    return (some n, s)

/-- `MerkleTree::root` (`src/binary/merkle_tree.rs:72-79`). -/
def root (p : Profile) (H : HashFn) : TreeM E Bytes32 := do
  let t ← quiet Exec.get
  let (r, _) ← rootNode p H t.head (fun _ => none)
  return match r with
    | none => emptySum
    | some node => node.hash

/-- `MerkleTree::prove` (`src/binary/merkle_tree.rs:81-131`). -/
def prove (p : Profile) (H : HashFn) (proofIndex : Nat) : TreeM E (Bytes32 × List Bytes32) := do
  let t ← quiet Exec.get
  let next ← Exec.liftRes (u64Add p proofIndex 1)
  if next > t.leavesCount then
    Exec.throw (.err (.invalidProofIndex proofIndex))
  else do
    let rootPosition ← Exec.liftRes (rootPosition p t.leavesCount)
    let leafPosition ← Exec.liftRes (Position.fromLeafIndex p proofIndex)
    match ← quiet (onStorage (Store.get leafPosition.inOrderIndex)) with
    | none => Exec.throw (.err (.loadError proofIndex))
    | some primitive => do
      let leafNode := Node.ofPrim primitive
      let items ← Exec.liftRes (rootPosition.pathList p leafPosition t.leavesCount)
      let sidePositions := (items.map Prod.snd).reverse.dropLast
      let (rootNode, scratch) ← rootNode p H t.head (fun _ => none)
      let rootNode ← Exec.liftRes (runwrap rootNode)
      let sides ← quiet (proveSides scratch sidePositions)
      return (rootNode.hash, leafNode.hash :: sides)

/-- The loop of `join_all_subtrees` (`src/binary/merkle_tree.rs:312-337`). -/
def joinAllLoop (p : Profile) (H : HashFn) : Node → List Node → TreeM E Unit
  | _, [] => pure ()
  | current, next :: rest =>
    if current.position.height = next.position.height then do
      quiet (Exec.modify fun t => { t with head := [] })
      let joined ← joinNodes p H next current
      let _ ← quiet (onStorage (Store.insert joined.key joined.toPrim))
      quiet (Exec.modify fun t => { t with head := joined :: rest })
      joinAllLoop p H joined rest
    else pure ()

/-- `join_all_subtrees` (`src/binary/merkle_tree.rs:312-337`). -/
def joinAllSubtrees (p : Profile) (H : HashFn) : TreeM E Unit := do
  let t ← quiet Exec.get
  match t.head with
  | [] => Exec.throw (.panic .unwrapNone)
  | current :: rest => joinAllLoop p H current rest

/-- `MerkleTree::push` (`src/binary/merkle_tree.rs:295-306`). -/
def push (p : Profile) (H : HashFn) (data : Bytes) : TreeM E Unit := do
  let t ← quiet Exec.get
  let node ← createLeaf p H t.leavesCount data
  let _ ← quiet (onStorage (Store.insert node.key node.toPrim))
  quiet (Exec.modify fun t => { t with head := node :: t.head })
  joinAllSubtrees p H
  let t ← quiet Exec.get
  let n ← Exec.liftRes (u64Add p t.leavesCount 1)
  quiet (Exec.modify fun t => { t with leavesCount := n })

end Binary.Metered

namespace Sum.Metered
variable {E : Type}

/-- Computations on a tree. -/
abbrev TreeM (E α : Type) := Exec (FuelMerkle.Metered (Tree E)) (Fail E) α

/-- `node_sum` (`src/sum/hash.rs:14-22`). -/
def nodeSum (H : HashFn) (lhsFee : Nat) (lhs : Bytes) (rhsFee : Nat) (rhs : Bytes) : TreeM E Bytes32 :=
  digest H (Prefix.node.bytes ++ u64ToBeBytes lhsFee ++ lhs ++ u64ToBeBytes rhsFee ++ rhs)

/-- `leaf_sum` (`src/sum/hash.rs:26-32`). -/
def leafSum (H : HashFn) (fee : Nat) (data : Bytes) : TreeM E Bytes32 :=
  digest H (Prefix.leaf.bytes ++ u64ToBeBytes fee ++ data)

/-- `create_leaf` (`src/sum/node.rs:15-23`). -/
def createLeaf (H : HashFn) (fee : Nat) (data : Bytes) : TreeM E Node := do
  let hash ← leafSum H fee data
  return { height := 0, hash, fee, leftChildKey := none, rightChildKey := none }

/-- `create_node` (`src/sum/node.rs:25-39`). -/
def createNode (p : Profile) (H : HashFn) (height lhsFee : Nat) (lhsKey : Bytes32) (rhsFee : Nat) (rhsKey : Bytes32) : TreeM E Node := do
  let hash ← nodeSum H lhsFee lhsKey.val rhsFee rhsKey.val
  let fee ← Exec.liftRes (u64Add p lhsFee rhsFee)
  return { height, hash, fee, leftChildKey := some lhsKey, rightChildKey := some rhsKey }

/-- `join_subtrees` (`src/sum/merkle_tree.rs:125-143`). -/
def joinSubtrees (p : Profile) (H : HashFn) (lhs rhs : Node) : TreeM E Node := do
  let height ← Exec.liftRes (u32Add p lhs.height 1)
  let joined ← createNode p H height lhs.fee lhs.hash rhs.fee rhs.hash
  let _ ← quiet (onStorage (Store.insert joined.hash joined))
  return joined

/-- The loop of `root_node` (`src/sum/merkle_tree.rs:91-96`). -/
def rootLoop (p : Profile) (H : HashFn) : Node → List Node → TreeM E Node
  | current, [] => pure current
  | current, next :: rest => do
    let joined ← joinSubtrees p H next current
    rootLoop p H joined rest

/-- `root_node` (`src/sum/merkle_tree.rs:87-102`). -/
def rootNode (p : Profile) (H : HashFn) : TreeM E (Option Node) := do
  let t ← quiet Exec.get
  match t.head with
  | [] => return none
  | h :: rest => do
    let n ← rootLoop p H h rest
    return some n

/-- `MerkleTree::root` (`src/sum/merkle_tree.rs:61-69`). -/
def root (p : Profile) (H : HashFn) : TreeM E (Nat × Bytes32) := do
  match ← rootNode p H with
  | none => return (0, emptySum)
  | some node => return (node.fee, node.hash)

/-- The loop of `join_all_subtrees` (`src/sum/merkle_tree.rs:104-123`). -/
def joinAllLoop (p : Profile) (H : HashFn) : Node → List Node → TreeM E Unit
  | _, [] => pure ()
  | current, next :: rest =>
    if current.height = next.height then do
      quiet (Exec.modify fun t => { t with head := [] })
      let joined ← joinSubtrees p H next current
      quiet (Exec.modify fun t => { t with head := joined :: rest })
      joinAllLoop p H joined rest
    else pure ()

/-- `join_all_subtrees` (`src/sum/merkle_tree.rs:104-123`). -/
def joinAllSubtrees (p : Profile) (H : HashFn) : TreeM E Unit := do
  let t ← quiet Exec.get
  match t.head with
  | [] => Exec.throw (.panic .unwrapNone)
  | current :: rest => joinAllLoop p H current rest

/-- `MerkleTree::push` (`src/sum/merkle_tree.rs:71-81`). -/
def push (p : Profile) (H : HashFn) (fee : Nat) (data : Bytes) : TreeM E Unit := do
  let node ← createLeaf H fee data
  let _ ← quiet (onStorage (Store.insert node.hash node))
  quiet (Exec.modify fun t => { t with head := node :: t.head })
  joinAllSubtrees p H

end Sum.Metered

namespace Sparse.Metered
variable {E : Type}

/-- Computations on a tree. -/
abbrev TreeM (E α : Type) := Exec (FuelMerkle.Metered (Tree E)) (Fail (Error E)) α

/-- `Node::hash` (`src/sparse/node.rs:162-173`), with `sum_all` (`src/sparse/hash.rs:23-33`). A
placeholder is not hashed. -/
def hash (H : HashFn) (n : Node) : TreeM E Bytes32 :=
  if n.isPlaceholder then return zeroSum
  else digest H [n.pfx.bytes, n.bytesLo.val, n.bytesHi.val].flatten

/-- `create_leaf` (`src/sparse/node.rs:50-57`), with `sum` (`src/sparse/hash.rs:14-21`). -/
def createLeaf (H : HashFn) (key : Bytes32) (data : Bytes) : TreeM E Node := do
  let bytesHi ← digest H data
  return { height := 0, pfx := .leaf, bytesLo := key, bytesHi }

/-- `create_node` (`src/sparse/node.rs:59-66`): hashes both children. -/
def createNode (H : HashFn) (leftChild rightChild : Node) (height : Nat) : TreeM E Node := do
  let bytesLo ← hash H leftChild
  let bytesHi ← hash H rightChild
  return { height, pfx := .node, bytesLo, bytesHi }

/-- `create_node_on_path` (`src/sparse/node.rs:68-93`). -/
def createNodeOnPath (p : Profile) (H : HashFn) (path : Bytes) (pathNode sideNode : Node) : TreeM E Node :=
  if pathNode.isLeaf && sideNode.isLeaf then do
    let parentDepth ← Exec.liftRes (pathNode.commonPathLength p sideNode)
    let parentHeight ← Exec.liftRes (usizeSub p Node.maxHeight parentDepth)
    match ← Exec.liftRes (runwrap (getInstruction path parentDepth)) with
    | .left => createNode H pathNode sideNode parentHeight
    | .right => createNode H sideNode pathNode parentHeight
  else do
    let parentHeight ← Exec.liftRes (u32Add p (max pathNode.height sideNode.height) 1)
    let parentDepth ← Exec.liftRes (usizeSub p Node.maxHeight parentHeight)
    match ← Exec.liftRes (runwrap (getInstruction path parentDepth)) with
    | .left => createNode H pathNode sideNode parentHeight
    | .right => createNode H sideNode pathNode parentHeight

/-- `MerkleTree::root` (`src/sparse/merkle_tree.rs:122-124`). -/
def root (H : HashFn) : TreeM E Bytes32 := do
  let t ← quiet Exec.get
  hash H t.rootNode

/-- One step of the merge loops (`src/sparse/merkle_tree.rs:209-211`, `217-219`, `273-275`, `282-284`). -/
def mergeNode (p : Profile) (H : HashFn) (path : Bytes) (current side : Node) : TreeM E Node := do
  let current ← createNodeOnPath p H path current side
  let key ← hash H current
  let _ ← quiet (onStorage (Store.insert key current.toPrim))
  return current

/-- The merge loops (`src/sparse/merkle_tree.rs:208-212`, `216-220`, `281-285`). -/
def mergeNodes (p : Profile) (H : HashFn) (path : Bytes) : Node → List Node → TreeM E Node
  | current, [] => pure current
  | current, side :: sides => do
    let current ← mergeNode p H path current side
    mergeNodes p H path current sides

/-- `update_with_path_set` (`src/sparse/merkle_tree.rs:163-225`). -/
def updateWithPathSet (p : Profile) (H : HashFn) (requested : Node) (pathNodes sideNodes : List Node) : TreeM E Unit := do
  let path ← Exec.liftRes requested.leafKey
  match pathNodes with
  | [] => Exec.throw (.panic .indexOutOfBounds)
  | actual :: _ => do
    let requestedKey ← Exec.liftRes requested.leafKey
    let actualKey ← Exec.liftRes actual.leafKey
    let current ←
      (if requestedKey ≠ actualKey then do
        let current ←
          (if actual.isPlaceholder then pure requested
           else mergeNode p H path.val requested actual)
        let ancestorDepth ← Exec.liftRes (requested.commonPathLength p actual)
        let staleDepth := max sideNodes.length ancestorDepth
        let placeholdersCount := staleDepth - sideNodes.length
        mergeNodes p H path.val current (List.replicate placeholdersCount Node.createPlaceholder)
      else pure requested)
    let current ← mergeNodes p H path.val current sideNodes
    quiet (setRootNode p current)

/-- The first loop of `delete_with_path_set` (`src/sparse/merkle_tree.rs:233-235`). -/
def removeAll (H : HashFn) : List Node → TreeM E Unit
  | [] => pure ()
  | node :: nodes => do
    let key ← hash H node
    let _ ← quiet (onStorage (Store.remove key))
    removeAll H nodes

/-- `delete_with_path_set` (`src/sparse/merkle_tree.rs:227-290`). -/
def deleteWithPathSet (p : Profile) (H : HashFn) (requested : Node) (pathNodes sideNodes : List Node) : TreeM E Unit := do
  removeAll H pathNodes
  let path ← Exec.liftRes requested.leafKey
  let (current, rest) ←
    (match sideNodes with
    | [] => pure (Node.createPlaceholder, [])
    | first :: others =>
      if first.isLeaf then
        match findNonPlaceholder others with
        | (some sideNode, rest) => do
          let current ← mergeNode p H path.val first sideNode
          pure (current, rest)
        | (none, rest) => pure (first, rest)
      else pure (Node.createPlaceholder, first :: others))
  let current ← mergeNodes p H path.val current rest
  quiet (setRootNode p current)

/-- `MerkleTree::delete` (`src/sparse/merkle_tree.rs:102-120`). -/
def delete (p : Profile) (H : HashFn) (key : Bytes32) : TreeM E Unit := do
  let r ← root H
  if r = zeroSum then return ()
  else do
    match ← quiet (onStorage (Store.get key)) with
    | none => return ()
    | some primitive =>
      match Node.ofPrim primitive with
      | .error e => Exec.throw (.err (.deserializeError e))
      | .ok leafNode => do
        let (pathNodes, sideNodes) ← quiet (pathSet p leafNode)
        deleteWithPathSet p H leafNode pathNodes sideNodes

/-- `MerkleTree::update` (`src/sparse/merkle_tree.rs:74-100`). -/
def update (p : Profile) (H : HashFn) (key : Bytes32) (data : Bytes) : TreeM E Unit := do
  if data.isEmpty then delete p H key
  else do
    let leafNode ← createLeaf H key data
    let leafHash ← hash H leafNode
    let _ ← quiet (onStorage (Store.insert leafHash leafNode.toPrim))
    let leafKey ← Exec.liftRes leafNode.leafKey
    let _ ← quiet (onStorage (Store.insert leafKey leafNode.toPrim))
    let t ← quiet Exec.get
    if t.rootNode.isPlaceholder then quiet (setRootNode p leafNode)
    else do
      let (pathNodes, sideNodes) ← quiet (pathSet p leafNode)
      updateWithPathSet p H leafNode pathNodes sideNodes

end Sparse.Metered

namespace Verify.Metered

/-- Computations without state. -/
abbrev PlainM (α : Type) := Exec (FuelMerkle.Metered Unit) (Fail Empty) α

/-- `node_sum` (`test-helpers/src/binary/hash.rs:24-30`). -/
def nodeSum (H : HashFn) (lhs rhs : Bytes) : PlainM Bytes32 := digest H (Prefix.node.bytes ++ lhs ++ rhs)

/-- The first loop (`test-helpers/src/binary/verify.rs:18-39`), see `Verify.loop`. -/
def loop (p : Profile) (H : HashFn) (proofSet : List Bytes32) (proofIndex numLeaves : Nat) :
    (fuel : Nat) → St → PlainM (Option St)
  | 0, _ => Exec.throw (.panic .diverges)
  | fuel + 1, st => do
    let w ← Exec.liftRes (pow2 p st.height)
    let start ← Exec.liftRes (u64Mul p (proofIndex / w) w)
    let e ← Exec.liftRes (u64Add p start w)
    let subtreeEnd ← Exec.liftRes (u64Sub p e 1)
    if subtreeEnd ≥ numLeaves then return some st
    else
      match proofSet[st.height]? with
      | none => return none
      | some proofData => do
        let d ← Exec.liftRes (u64Sub p proofIndex start)
        let half ← Exec.liftRes (pow2 p (st.height - 1))
        let sum ← (if d < half then nodeSum H st.sum.val proofData.val
          else nodeSum H proofData.val st.sum.val)
        loop p H proofSet proofIndex numLeaves fuel
          { height := st.height + 1, sum, stableEnd := subtreeEnd }

/-- The last loop (`test-helpers/src/binary/verify.rs:50-54`). -/
def finish (H : HashFn) : Bytes32 → List Bytes32 → PlainM Bytes32
  | sum, [] => pure sum
  | sum, proofData :: rest => do
    let sum ← nodeSum H proofData.val sum.val
    finish H sum rest

/-- `verify` (`test-helpers/src/binary/verify.rs:3-57`). -/
def verify (p : Profile) (H : HashFn) (root : Bytes32) (proofSet : List Bytes32)
    (proofIndex numLeaves : Nat) : PlainM Bool := do
  if proofIndex ≥ numLeaves then return false
  else
    match proofSet with
    | [] => return false
    | first :: _ => do
      match ← loop p H proofSet proofIndex numLeaves (proofSet.length + 66)
          { height := 1, sum := first, stableEnd := proofIndex } with
      | none => return false
      | some st => do
        let last ← Exec.liftRes (u64Sub p numLeaves 1)
        if st.stableEnd ≠ last then
          match proofSet[st.height]? with
          | none => return false
          | some proofData => do
            let sum ← nodeSum H st.sum.val proofData.val
            let sum ← finish H sum (proofSet.drop (st.height + 1))
            return decide (sum = root)
        else do
          let sum ← finish H st.sum (proofSet.drop st.height)
          return decide (sum = root)

end Verify.Metered
end FuelMerkle
