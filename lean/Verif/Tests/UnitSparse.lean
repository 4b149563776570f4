import Verif.Tests.Unit

/-
The unit tests of `/repo/src/sparse`, one by one, run on the model with SHA-256. Tests of the
model's fidelity, not proofs.
-/
namespace FuelMerkle.Tests
open Sparse (Node)

/-- `sum` (`src/sparse/hash.rs:12-19`). -/
def ssum (b : Bytes) : Bytes32 := Sparse.sum Sha256.sha256 b

def ones : Bytes := List.replicate 32 1
def ffs : Bytes32 := ⟨List.replicate 32 0xff, rfl⟩

def mkLeaf (s : String) (data : Bytes := ones) : Node :=
  Node.createLeaf Sha256.sha256 (ssum (utf8 s)) data

def mkNode (l r : Node) : Node := Node.createNode Sha256.sha256 l r 1

/-! ### `src/sparse/node.rs:345-495`, module `test_node` -/

/-- `leaf_hash` (lines 351-357). -/
def leafHash (key : Bytes32) (data : Bytes) : Bytes32 :=
  ssum ([0x00] ++ key.val ++ (ssum data).val)

def isLeafWith (n : Node) (key data : Bytes32) : Bool :=
  n.isLeaf && !n.isNode && n.height = 0 && n.pfx = .leaf && okEq n.leafKey key && okEq n.leafData data

def isNodeWith (n : Node) (height : Nat) (l r : Bytes32) : Bool :=
  !n.isLeaf && n.isNode && n.height = height && n.pfx = .node && okEq n.leftChildKey l &&
    okEq n.rightChildKey r

/-! `test_create_leaf_returns_a_valid_leaf` -/
#guard isLeafWith (mkLeaf "LEAF") (ssum (utf8 "LEAF")) (ssum ones)

/-! `test_create_node_returns_a_valid_node` -/
#guard isNodeWith (mkNode (mkLeaf "LEFT CHILD") (mkLeaf "RIGHT CHILD")) 1
  (leafHash (ssum (utf8 "LEFT CHILD")) ones) (leafHash (ssum (utf8 "RIGHT CHILD")) ones)

/-! `test_create_placeholder_returns_a_placeholder_node` -/
#guard Node.createPlaceholder.isPlaceholder &&
  Node.createPlaceholder.hash Sha256.sha256 = Sparse.zeroSum

/-! `test_create_leaf_from_primitive_returns_a_valid_leaf` -/
#guard match Node.ofPrim (0, Prefix.leaf.toU8, ffs, ffs) with
  | .ok n => isLeafWith n ffs ffs
  | .error _ => false

/-! `test_create_node_from_primitive_returns_a_valid_node` -/
#guard match Node.ofPrim (255, Prefix.node.toU8, ffs, ffs) with
  | .ok n => isNodeWith n 255 ffs ffs
  | .error _ => false

/-! `test_create_from_primitive_returns_deserialize_error_if_invalid_prefix` -/
#guard match Node.ofPrim (0xff, 0xff, ffs, ffs) with
  | .ok _ => false
  | .error e => e = .invalidPrefix 0xff

/-! `test_leaf_primitive_returns_expected_primitive` -/
#guard (mkLeaf "LEAF").toPrim = (0, Prefix.leaf.toU8, ssum (utf8 "LEAF"), ssum ones)

/-! `test_node_primitive_returns_expected_primitive` -/
#guard (mkNode (mkLeaf "LEFT CHILD") (mkLeaf "RIGHT CHILD")).toPrim =
  (1, Prefix.node.toU8, leafHash (ssum (utf8 "LEFT CHILD")) ones,
    leafHash (ssum (utf8 "RIGHT CHILD")) ones)

/-! `test_leaf_hash_returns_expected_hash_value` -/
#guard (mkLeaf "LEAF").hash Sha256.sha256 =
  ssum ([0x00] ++ (ssum (utf8 "LEAF")).val ++ (ssum ones).val)

/-! `test_node_hash_returns_expected_hash_value` -/
#guard (mkNode (mkLeaf "LEFT CHILD") (mkLeaf "RIGHT CHILD")).hash Sha256.sha256 =
  ssum ([0x01] ++ (leafHash (ssum (utf8 "LEFT CHILD")) ones).val ++
    (leafHash (ssum (utf8 "RIGHT CHILD")) ones).val)

/-! ### `src/sparse/node.rs:497-710`, module `test_storage_node` -/

abbrev SpTree := Sparse.Tree Empty

/-- A storage with the given nodes under their hashes. -/
def nodesStored (ns : List Node) : Sparse.SpStore Empty :=
  ns.foldl (fun s n => (s.insert (n.hash Sha256.sha256) n.toPrim).2) Store.empty

/-- `StorageNode::new(&s, node)` and one of the two calls. -/
def childOf (s : Sparse.SpStore Empty) (call : Node → Sparse.TreeM Empty (Except (Sparse.CErr Empty) Node))
    (n : Node) : Option (Except (Sparse.CErr Empty) Node) :=
  match (call n { rootNode := n, storage := s }).1 with
  | .ok r => some r
  | .error _ => none

def isChild (r : Option (Except (Sparse.CErr Empty) Node)) (n : Node) : Bool :=
  match r with | some (.ok m) => m.hash Sha256.sha256 = n.hash Sha256.sha256 | _ => false

def isChildError (r : Option (Except (Sparse.CErr Empty) Node)) (e : Sparse.CErr Empty) : Bool :=
  match r, e with
  | some (.error (.childNotFound a)), .childNotFound b => a = b
  | some (.error .nodeIsLeaf), .nodeIsLeaf => true
  | some (.error (.error (.deserializeError a))), .error (.deserializeError b) => a = b
  | _, _ => false

def hello : Node := mkLeaf "Hello World"
def goodbye : Node := mkLeaf "Goodbye World"
def both : Node := mkNode hello goodbye

/-! `test_node_left_child_returns_the_left_child`, `test_node_right_child_returns_the_right_child` -/
#guard isChild (childOf (nodesStored [hello, goodbye, both]) Sparse.leftChild both) hello
#guard isChild (childOf (nodesStored [hello, goodbye, both]) Sparse.rightChild both) goodbye

/-! `test_node_left_child_returns_placeholder_when_key_is_zero_sum`,
`test_node_right_child_returns_placeholder_when_key_is_zero_sum` -/
#guard
  let node := mkNode Node.createPlaceholder goodbye
  match childOf (nodesStored [goodbye, node]) Sparse.leftChild node with
  | some (.ok c) => c.isPlaceholder
  | _ => false
#guard
  let node := mkNode goodbye Node.createPlaceholder
  match childOf (nodesStored [goodbye, node]) Sparse.rightChild node with
  | some (.ok c) => c.isPlaceholder
  | _ => false

/-! `test_node_left_child_returns_error_when_node_is_leaf`,
`test_node_right_child_returns_error_when_node_is_leaf` -/
#guard isChildError (childOf Store.empty Sparse.leftChild hello) .nodeIsLeaf
#guard isChildError (childOf Store.empty Sparse.rightChild hello) .nodeIsLeaf

/-! `test_node_left_child_returns_error_when_key_is_not_found`,
`test_node_right_child_returns_error_when_key_is_not_found` -/
#guard
  let node := mkNode (mkLeaf "Hello World" (List.replicate 32 0)) goodbye
  match node.leftChildKey with
  | .ok k => isChildError (childOf Store.empty Sparse.leftChild node) (.childNotFound k)
  | .error _ => false
#guard match both.rightChildKey with
  | .ok k => isChildError (childOf Store.empty Sparse.rightChild both) (.childNotFound k)
  | .error _ => false

/-! `test_node_left_child_returns_deserialize_error_when_primitive_is_invalid`,
`test_node_right_child_returns_deserialize_error_when_primitive_is_invalid` -/
#guard isChildError (childOf (Store.empty.insert (hello.hash Sha256.sha256) (0xff, 0xff, ffs, ffs)).2
  Sparse.leftChild both) (.error (.deserializeError (.invalidPrefix 0xff)))
#guard isChildError (childOf (Store.empty.insert (goodbye.hash Sha256.sha256) (0xff, 0xff, ffs, ffs)).2
  Sparse.rightChild both) (.error (.deserializeError (.invalidPrefix 0xff)))

/-! ### `src/sparse/merkle_tree.rs:303-680` -/

/-- `sum(i.to_be_bytes())` for a `u32`. -/
def k32 (i : Nat) : Bytes32 := ssum ((u64ToBeBytes i).drop 4)

def DATA : Bytes := utf8 "DATA"

/-- One step of a test: `tree.update(..).unwrap()` or `tree.delete(..).unwrap()`. -/
inductive Do where
  | up (key : Nat) (data : Bytes := DATA)
  | del (key : Nat)

def perform (t : SpTree) : List Do → Option SpTree
  | [] => some t
  | d :: ds =>
    match (match d with
      | .up k b => Sparse.update debug Sha256.sha256 (k32 k) b t
      | .del k => Sparse.delete debug Sha256.sha256 (k32 k) t) with
    | (.ok _, t) => perform t ds
    | (.error _, _) => none

def rootAfter (ds : List Do) : Option Bytes32 :=
  (perform (Sparse.Tree.new Store.empty) ds).map (·.root Sha256.sha256)

def ups (a b : Nat) : List Do := (List.range' a (b - a)).map (.up ·)
def dels (a b : Nat) : List Do := (List.range' a (b - a)).map .del

def rootIs (ds : List Do) (root : String) : Bool :=
  root.length = 64 && rootAfter ds == some (bytes32 root)

def zeros : String := "0000000000000000000000000000000000000000000000000000000000000000"
def r1 : String := "39f36a7cb4dfb1b46f03d044265df6a491dffc1034121bc1071a34ddce9bb14b"
def r2 : String := "8d0ae412ca9ca0afcb3217af8bcd5a673e798bd6fd1dfacad17711e883f494cb"
def r3 : String := "52295e42d8de2505fdc0cc825ff9fead419cbcf540d8b30c7c4b9c9b94c268b7"
def r5 : String := "108f731f2414e33ae57e584dc26bd276db07874436b2264ca6e520c658185c6b"
def r10 : String := "21ca4917e99da99a61de93deaf88c400d4c082991cb95779e444d43dd13e8849"
def r100 : String := "82bf747d455a55e2f7044a03536fc43f1f55d43b855e72c0110c986707a23e4d"
def rOver : String := "dd97174c80e5e5aa3a31c61b05e279c1495c8a07b2a08bca5dbc9fb9774f9457"
def rUnion : String := "7e6643325042cfe0fc76626c043b97062af51c7e9fc56665f12b479034bce326"
def rSparse : String := "e912e97abc67707b2e6027338292943b53d01a7fbd7b244674128c7e468dd696"

/-! `test_empty_root`, `test_update_1`, `_2`, `_3`, `_5`, `_10`, `_100` -/
#guard rootIs [] zeros
#guard rootIs (ups 0 1) r1
#guard rootIs (ups 0 2) r2
#guard rootIs (ups 0 3) r3
#guard rootIs (ups 0 5) r5
#guard rootIs (ups 0 10) r10
#guard rootIs (ups 0 100) r100

/-! `test_update_with_repeated_inputs`, `test_update_overwrite_key` -/
#guard rootIs [.up 0, .up 0] r1
#guard rootIs [.up 0, .up 0 (utf8 "CHANGE")] rOver

/-! `test_update_union`, `test_update_sparse_union` -/
#guard rootIs (ups 0 5 ++ ups 10 15 ++ ups 20 25) rUnion
#guard rootIs [.up 0, .up 2, .up 4, .up 6, .up 8] rSparse

/-! `test_update_with_empty_data`, `test_update_with_empty_performs_delete` -/
#guard rootIs [.up 0 []] zeros
#guard rootIs [.up 0, .up 0 []] zeros

/-! `test_update_1_delete_1`, `test_update_2_delete_1`, `test_update_10_delete_5` -/
#guard rootIs [.up 0, .del 0] zeros
#guard rootIs [.up 0, .up 1, .del 1] r1
#guard rootIs (ups 0 10 ++ dels 5 10) r5

/-! `test_delete_non_existent_key`, `test_interleaved_update_delete`, `test_delete_sparse_union` -/
#guard rootIs (ups 0 5 ++ [.del 1024]) r5
#guard rootIs (ups 0 10 ++ dels 5 15 ++ ups 10 20 ++ dels 15 25 ++ ups 20 30 ++ dels 25 35) rUnion
#guard rootIs (ups 0 10 ++ [.del 1, .del 3, .del 5, .del 7, .del 9]) rSparse

/-! `test_load_returns_a_valid_tree` -/
#guard match perform (Sparse.Tree.new Store.empty) (ups 0 5) with
  | some t =>
    match (Sparse.Tree.load t.storage (t.root Sha256.sha256)).1 with
    | .ok t' => (perform t' (ups 5 10)).map (·.root Sha256.sha256) == rootAfter (ups 0 10) &&
        (rootAfter (ups 0 10)).isSome
    | .error _ => false
  | none => false

/-! `test_load_returns_a_load_error_if_the_storage_is_not_valid_for_the_root` -/
#guard match perform (Sparse.Tree.new Store.empty) (ups 0 5) with
  | some t =>
    match (Sparse.Tree.load t.storage (ssum [0xff, 0xff, 0xff, 0xff])).1 with
    | .error (.err (.loadError _)) => true
    | _ => false
  | none => false

/-! `test_load_returns_a_deserialize_error_if_the_storage_is_corrupted` -/
#guard match perform (Sparse.Tree.new Store.empty) (ups 0 5) with
  | some t =>
    let root := t.root Sha256.sha256
    match (Sparse.Tree.load (t.storage.insert root (0xff, 0xff, ffs, ffs)).2 root).1 with
    | .error (.err (.deserializeError _)) => true
    | _ => false
  | none => false

/-! ### `src/sparse/in_memory.rs:51-124` -/

def inMemory (ds : List Do) : Res Bytes32 := do
  let t ← ds.foldlM (fun t d => match d with
    | .up k b => Sparse.InMemory.update debug Sha256.sha256 t (k32 k) b
    | .del k => Sparse.InMemory.delete debug Sha256.sha256 t (k32 k)) Sparse.InMemory.new
  return Sparse.InMemory.root Sha256.sha256 t

/-! `test_empty_root`, `test_update_1`, `_2`, `_3`, `test_update_1_delete_1`,
`test_update_2_delete_1` -/
#guard okEq (inMemory []) (bytes32 zeros)
#guard okEq (inMemory (ups 0 1)) (bytes32 r1)
#guard okEq (inMemory (ups 0 2)) (bytes32 r2)
#guard okEq (inMemory (ups 0 3)) (bytes32 r3)
#guard okEq (inMemory [.up 0, .del 0]) (bytes32 zeros)
#guard okEq (inMemory [.up 0, .up 1, .del 1]) (bytes32 r1)

end FuelMerkle.Tests
