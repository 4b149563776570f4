import Verif.Tests.Util

/-
Transcriptions of unit tests of the repository, run on the model. Tests of the model's
fidelity, not proofs.
-/
namespace FuelMerkle.Tests

def okEq {α : Type} [DecidableEq α] (x : Res α) (y : α) : Bool :=
  match x with | .ok a => a = y | .error _ => false

def pos (i : Nat) : Position := ⟨i⟩

/-! `src/common/position.rs:316-399` -/

#guard [0, 2, 4, 1, 5, 9, 3, 11, 19].map (fun i => (pos i).height) = [0, 0, 0, 1, 1, 1, 2, 2, 2]
#guard [(0, 2), (2, 0), (1, 5), (5, 1), (3, 11), (11, 3)].all
  fun (a, b) => okEq ((pos a).sibling debug) (pos b)
#guard [(0, 1), (2, 1), (1, 3), (5, 3), (3, 7), (11, 7)].all
  fun (a, b) => okEq ((pos a).parent debug) (pos b)
#guard [(0, 5), (2, 5), (4, 1), (6, 1), (1, 11), (5, 11), (9, 3), (13, 3)].all
  fun (a, b) => okEq ((pos a).uncle debug) (pos b)
#guard [(7, 3), (3, 1), (1, 0), (11, 9), (9, 8)].all
  fun (a, b) => okEq ((pos a).leftChild debug) (pos b)
#guard [(7, 11), (3, 5), (1, 2), (11, 13), (9, 10)].all
  fun (a, b) => okEq ((pos a).rightChild debug) (pos b)

/-! `src/common/position_path.rs:121-560` (a selection) -/

def pathIs (root leaf n : Nat) (path side : List Nat) : Bool :=
  okEq (do
    let l ← Position.fromLeafIndex debug leaf
    (pos root).pathList debug l n) ((path.zip side).map fun (a, b) => (pos a, pos b))

#guard pathIs 0 0 1 [0] [0]
#guard pathIs 3 0 4 [3, 1, 0] [3, 5, 2]
#guard pathIs 7 0 5 [7, 3, 1, 0] [7, 8, 5, 2]
#guard pathIs 7 4 5 [7, 8] [7, 3]
#guard pathIs 7 0 6 [7, 3, 1, 0] [7, 9, 5, 2]
#guard pathIs 7 5 6 [7, 9, 10] [7, 3, 8]
#guard pathIs 7 6 7 [7, 11, 12] [7, 3, 9]

/-! The library tree, the reference tree and the checker agree
(`tests/binary.rs:33-100`), here for every size below 20 and every index. -/

def leafData (i : Nat) : Bytes := u64ToBeBytes i

def build (n : Nat) : Res Binary.InMemory.T :=
  (List.range n).foldlM (fun t i => Binary.InMemory.push debug Sha256.sha256 t (leafData i))
    Binary.InMemory.new

def buildRef (n i : Nat) : Res Reference.Tree := do
  let t ← Reference.Tree.new.setProofIndex i
  (List.range n).foldlM (fun t i => t.push debug Sha256.sha256 (leafData i)) t

def agree (n i : Nat) : Bool :=
  match (do
    let t ← build n
    let r ← buildRef n i
    let a ← Binary.InMemory.prove debug Sha256.sha256 t i
    let b ← r.prove debug Sha256.sha256
    let ra ← Binary.InMemory.root debug Sha256.sha256 t
    let rb ← r.root debug Sha256.sha256
    let v ← Verify.verify debug Sha256.sha256 ra b.2 i n
    return (decide (a = some b) && decide (ra = rb) && v) : Res Bool) with
  | .ok b => b
  | .error _ => false

#guard (List.range 20).all fun n => (List.range n).all fun i => agree n i

/-- Loading a tree from its storage gives the same root. -/
def reload (n m : Nat) : Bool :=
  match (do
    let t ← build n
    let r ← build m
    let ra ← Binary.InMemory.root debug Sha256.sha256 r
    match (Binary.Tree.load debug t.storage m).1 with
    | .ok t' => do
      let rb ← Binary.InMemory.root debug Sha256.sha256 t'
      return ra = rb
    | .error _ => return false : Res Bool) with
  | .ok b => b
  | .error _ => false

#guard (List.range 17).all fun n => (List.range (n + 1)).all fun m => reload n m

/-! `src/sum/merkle_tree.rs:187-250` -/

def sumTree (n : Nat) : Except (Fail Empty) (Nat × Bytes32) :=
  let t : Sum.Tree Empty := Sum.Tree.new Store.empty
  let t := (List.range n).foldl
    (fun t i => (Sum.push debug Sha256.sha256 100 (leafData i) t).2) t
  (Sum.root debug Sha256.sha256 t).1

def sumLeaf (i : Nat) : Bytes32 := Sum.leafSum Sha256.sha256 100 (leafData i)

def sumNode (a : Nat) (x : Bytes32) (b : Nat) (y : Bytes32) : Bytes32 :=
  Sum.nodeSum Sha256.sha256 (100 * a) x.val (100 * b) y.val

#guard match sumTree 5 with
  | .ok r => r = (500, sumNode 4 (sumNode 2 (sumNode 1 (sumLeaf 0) 1 (sumLeaf 1))
      2 (sumNode 1 (sumLeaf 2) 1 (sumLeaf 3))) 1 (sumLeaf 4))
  | .error _ => false

end FuelMerkle.Tests
