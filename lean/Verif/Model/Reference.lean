import Verif.Model.Binary

/-
The reference tree of the test helpers: `/repo/test-helpers/src/binary/merkle_tree.rs` with
`/repo/test-helpers/src/binary/node.rs` (a linked list, modelled as a list) and
`/repo/test-helpers/src/binary/hash.rs` (same bytes as the library's hash functions).
-/
namespace FuelMerkle
namespace Reference

open Binary (nodeSum leafSum)

/-- `Node<Data>` without its link (`test-helpers/src/binary/node.rs:1-6`). -/
structure RNode where
  height : Nat
  data : Bytes32
deriving DecidableEq

/-- `struct MerkleTree` (`test-helpers/src/binary/merkle_tree.rs:6-11`). -/
structure Tree where
  head : List RNode
  leavesCount : Nat
  proofIndex : Nat
  proofSet : List Bytes32

/-- `new` (`test-helpers/src/binary/merkle_tree.rs:14-21`). -/
def Tree.new : Tree := { head := [], leavesCount := 0, proofIndex := 0, proofSet := [] }

/-- `set_proof_index` (`test-helpers/src/binary/merkle_tree.rs:23-28`). -/
def Tree.setProofIndex (t : Tree) (proofIndex : Nat) : Res Tree :=
  if t.head.isEmpty then .ok { t with proofIndex } else .error .assertion

/-- `join_subtrees` (`test-helpers/src/binary/merkle_tree.rs:123-128`); the caller keeps the
tail of `a`. -/
def join (p : Profile) (H : HashFn) (a b : RNode) : Res RNode := do
  let height ← u32Add p a.height 1
  return { height, data := nodeSum H a.data.val b.data.val }

/-- The loop of `root` (`test-helpers/src/binary/merkle_tree.rs:34-39`). -/
def rootLoop (p : Profile) (H : HashFn) : RNode → List RNode → Res RNode
  | current, [] => return current
  | current, next :: rest => do
    let joined ← join p H next current
    rootLoop p H joined rest

/-- `root` (`test-helpers/src/binary/merkle_tree.rs:30-43`). -/
def Tree.root (p : Profile) (H : HashFn) (t : Tree) : Res Bytes32 :=
  match t.head with
  | [] => return Binary.emptySum
  | h :: rest => do
    let n ← rootLoop p H h rest
    return n.data

/-- `join_all_subtrees` (`test-helpers/src/binary/merkle_tree.rs:96-121`) on the list of
nodes, with the proof set it extends. -/
def joinAll (p : Profile) (H : HashFn) (leavesCount proofIndex : Nat) :
    RNode → List RNode → List Bytes32 → Res (List RNode × List Bytes32)
  | head, [], proofSet => return ([head], proofSet)
  | head, next :: rest, proofSet =>
    if head.height = next.height then do
      let h1 ← u32Add p head.height 1
      let proofSet ←
        (if h1 = proofSet.length then do
          let headLeavesCount ← u64Shl1 p head.height
          let mid ← u64Mul p (leavesCount / headLeavesCount) headLeavesCount
          if proofIndex < mid then return proofSet ++ [head.data]
          else return proofSet ++ [next.data]
        else return proofSet)
      let joined ← join p H next head
      joinAll p H leavesCount proofIndex joined rest proofSet
    else return (head :: next :: rest, proofSet)

/-- `push` (`test-helpers/src/binary/merkle_tree.rs:49-59`). -/
def Tree.push (p : Profile) (H : HashFn) (t : Tree) (data : Bytes) : Res Tree := do
  let proofSet :=
    if t.leavesCount = t.proofIndex then t.proofSet ++ [leafSum H data] else t.proofSet
  let (head, proofSet) ←
    joinAll p H t.leavesCount t.proofIndex { height := 0, data := leafSum H data } t.head proofSet
  let n ← u64Add p t.leavesCount 1
  return { t with head, proofSet, leavesCount := n }

/-- First loop of `prove` (`test-helpers/src/binary/merkle_tree.rs:68-73`). -/
def proveJoin (p : Profile) (H : HashFn) (limit : Nat) : RNode → List RNode → Res (RNode × List RNode)
  | current, [] => return (current, [])
  | current, next :: rest =>
    if next.height < limit then do
      let joined ← join p H next current
      proveJoin p H limit joined rest
    else return (current, next :: rest)

/-- `prove` (`test-helpers/src/binary/merkle_tree.rs:61-86`). -/
def Tree.prove (p : Profile) (H : HashFn) (t : Tree) : Res (Bytes32 × List Bytes32) := do
  let root ← t.root p H
  match t.head, t.proofSet with
  | [], proofSet => return (root, proofSet)
  | _, [] => return (root, [])
  | h :: rest, f :: fs => do
    let proofSet := f :: fs
    let limit := proofSet.length - 1
    let (current, rest) ← proveJoin p H limit h rest
    let proofSet' :=
      match rest with
      | [] => proofSet
      | next :: rest' =>
        if next.height = limit then proofSet ++ [current.data] ++ rest'.map RNode.data
        else proofSet ++ (next :: rest').map RNode.data
    return (root, proofSet')

end Reference
end FuelMerkle
