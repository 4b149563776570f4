import Verif.Tests.Unit

/-
The unit tests of `/repo/src/binary`, `/repo/src/sum`, `/repo/src/common.rs` and
`/repo/test-helpers/src/binary`, one by one, run on the model with SHA-256. Tests of the model's
fidelity, not proofs.
-/
namespace FuelMerkle.Tests

/-- `TEST_DATA` (`test-helpers/src/test_data.rs:1-12`). -/
def TEST_DATA : List Bytes := [
  utf8 "Frankly, my dear, I don't give a damn.",
  utf8 "I'm going to make him an offer he can't refuse.",
  utf8 "Toto, I've got a feeling we're not in Kansas anymore.",
  utf8 "Here's looking at you, kid.",
  utf8 "Go ahead, make my day.",
  utf8 "May the Force be with you.",
  utf8 "You talking to me?",
  utf8 "What we've got here is failure to communicate.",
  utf8 "I love the smell of napalm in the morning.",
  utf8 "Love means never having to say you're sorry."]

/-! ### `src/common.rs:46-55`, `empty_sum_sha256_is_empty_hash` -/

#guard Sha256.sha256 [] = emptySumSha256

/-! ### `src/binary/merkle_tree.rs:289-760` -/

abbrev BiTree := Binary.Tree Empty

/-- `tree.push(datum)` for each of the data, the answers dropped. -/
def pushed (data : List Bytes) : BiTree :=
  data.foldl (fun t d => (Binary.push debug Sha256.sha256 d t).2) (Binary.Tree.new Store.empty)

/-- The leaf hash of `TEST_DATA[i]`. -/
def L (i : Nat) : Bytes32 := Binary.leafSum Sha256.sha256 (TEST_DATA.getD i [])
def N (a b : Bytes32) : Bytes32 := Binary.nodeSum Sha256.sha256 a.val b.val

def n1 : Bytes32 := N (L 0) (L 1)
def n5 : Bytes32 := N (L 2) (L 3)
def n3 : Bytes32 := N n1 n5
def n9 : Bytes32 := N (L 4) (L 5)
def n11 : Bytes32 := N n9 (L 6)
def n7 : Bytes32 := N n3 n11

/-! `test_push_builds_internal_tree_structure` -/
#guard
  let s := (pushed (TEST_DATA.take 7)).storage
  [(0, L 0), (2, L 1), (4, L 2), (6, L 3), (8, L 4), (10, L 5), (12, L 6), (1, n1), (5, n5),
    (9, n9), (3, n3)].all fun (k, h) =>
      match (s.get k).1 with
      | .ok (some q) => (Binary.Node.ofPrim q).hash = h
      | _ => false

def be (n : Nat) : List Bytes := (List.range n).map u64ToBeBytes

/-- Loading the tree of `n` leaves from its own storage, with `m` as the number of leaves. -/
def loaded (n m : Nat) : Except (Fail (Binary.Error Empty)) BiTree :=
  (Binary.Tree.load debug (pushed (be n)).storage m).1

/-! `load_returns_a_valid_tree`, with `2^9 - 1` leaves instead of `2^16 - 1` -/
#guard match loaded 511 511, (pushed (be 511)).root debug Sha256.sha256 with
  | .ok t, .ok r => okEq (t.root debug Sha256.sha256) r
  | _, _ => false

/-! `load_returns_empty_tree_for_0_leaves` -/
#guard match loaded 0 0 with
  | .ok t => okEq (t.root debug Sha256.sha256) Binary.emptySum
  | _ => false

/-! `load_returns_a_load_error_if_the_storage_is_not_valid_for_the_leaves_count` -/
#guard match loaded 5 10 with
  | .error (.err (.loadError _)) => true
  | _ => false

/-! `root_returns_the_empty_root_for_0_leaves`, `..._for_1_leaf`, `..._for_7_leaves` -/
#guard okEq ((pushed []).root debug Sha256.sha256) Binary.emptySum
#guard okEq ((pushed (TEST_DATA.take 1)).root debug Sha256.sha256) (L 0)
#guard okEq ((pushed (TEST_DATA.take 7)).root debug Sha256.sha256) n7

def proof (n i : Nat) : Except (Fail (Binary.Error Empty)) (Bytes32 × List Bytes32) :=
  (Binary.prove debug Sha256.sha256 i (pushed (TEST_DATA.take n))).1

def proofIs (n i : Nat) (root : Bytes32) (set : List Bytes32) : Bool :=
  match proof n i with
  | .ok r => r = (root, set)
  | .error _ => false

/-! `prove_returns_invalid_proof_index_error_for_0_leaves`,
`prove_returns_invalid_proof_index_error_when_index_is_greater_than_number_of_leaves` -/
#guard match proof 0 0 with | .error (.err (.invalidProofIndex 0)) => true | _ => false
#guard match proof 5 10 with | .error (.err (.invalidProofIndex 10)) => true | _ => false

/-! `prove_returns_the_merkle_root_and_proof_set_for_1_leaf` -/
#guard proofIs 1 0 (L 0) [L 0]

/-! `prove_returns_the_merkle_root_and_proof_set_for_4_leaves` -/
#guard proofIs 4 0 n3 [L 0, L 1, n5]
#guard proofIs 4 1 n3 [L 1, L 0, n5]
#guard proofIs 4 2 n3 [L 2, L 3, n1]
#guard proofIs 4 3 n3 [L 3, L 2, n1]

/-! `prove_returns_the_merkle_root_and_proof_set_for_5_leaves` -/
#guard proofIs 5 0 (N n3 (L 4)) [L 0, L 1, n5, L 4]
#guard proofIs 5 1 (N n3 (L 4)) [L 1, L 0, n5, L 4]
#guard proofIs 5 2 (N n3 (L 4)) [L 2, L 3, n1, L 4]
#guard proofIs 5 3 (N n3 (L 4)) [L 3, L 2, n1, L 4]
#guard proofIs 5 4 (N n3 (L 4)) [L 4, n3]

/-! `prove_returns_the_merkle_root_and_proof_set_for_7_leaves` -/

def proofs7 : List (List Bytes32) := [
  [L 0, L 1, n5, n11], [L 1, L 0, n5, n11], [L 2, L 3, n1, n11], [L 3, L 2, n1, n11],
  [L 4, L 5, L 6, n3], [L 5, L 4, L 6, n3], [L 6, n9, n3]]

#guard (List.range 7).all fun i => proofIs 7 i n7 (proofs7.getD i [])

/-! ### `src/binary/in_memory.rs:51-260` -/

def memory (n : Nat) : Res Binary.InMemory.T :=
  (TEST_DATA.take n).foldlM (Binary.InMemory.push debug Sha256.sha256) Binary.InMemory.new

def memoryRoot (n : Nat) : Res Bytes32 := do Binary.InMemory.root debug Sha256.sha256 (← memory n)

def memoryProof (n i : Nat) : Res (Option (Bytes32 × List Bytes32)) := do
  Binary.InMemory.prove debug Sha256.sha256 (← memory n) i

/-! `root_returns_the_empty_root_for_0_leaves`, `..._for_1_leaf`, `..._for_7_leaves` -/
#guard okEq (memoryRoot 0) Binary.emptySum
#guard okEq (memoryRoot 1) (L 0)
#guard okEq (memoryRoot 7) n7

/-! `prove_returns_none_for_0_leaves`,
`prove_returns_none_when_index_is_greater_than_number_of_leaves` -/
#guard okEq (memoryProof 0 0) none
#guard okEq (memoryProof 5 10) none

/-! `prove_returns_the_merkle_root_and_proof_set_for_1_leaf`, `..._for_7_leaves` -/
#guard okEq (memoryProof 1 0) (some (L 0, [L 0]))
#guard (List.range 7).all fun i => okEq (memoryProof 7 i) (some (n7, proofs7.getD i []))

/-! ### `src/sum/merkle_tree.rs:157-290` -/

def FEE : Nat := 100

def feeRoot (n : Nat) : Except (Fail Empty) (Nat × Bytes32) :=
  (Sum.root debug Sha256.sha256 ((TEST_DATA.take n).foldl
    (fun t d => (Sum.push debug Sha256.sha256 FEE d t).2) (Sum.Tree.new Store.empty))).1

def feeRootIs (n : Nat) (r : Nat × Bytes32) : Bool :=
  match feeRoot n with | .ok x => x = r | .error _ => false

def SL (i : Nat) : Bytes32 := Sum.leafSum Sha256.sha256 FEE (TEST_DATA.getD i [])

def SN (a : Nat) (x : Bytes32) (b : Nat) (y : Bytes32) : Bytes32 :=
  Sum.nodeSum Sha256.sha256 (FEE * a) x.val (FEE * b) y.val

def sn4 : Bytes32 := SN 2 (SN 1 (SL 0) 1 (SL 1)) 2 (SN 1 (SL 2) 1 (SL 3))

/-! `root_returns_the_hash_of_the_empty_string_when_no_leaves_are_pushed`,
`root_returns_the_hash_of_the_leaf_when_one_leaf_is_pushed`,
`root_returns_the_hash_of_the_head_when_4_leaves_are_pushed`, `..._5_...`, `..._7_...` -/
#guard feeRootIs 0 (0, Sum.emptySum)
#guard feeRootIs 1 (FEE, SL 0)
#guard feeRootIs 4 (FEE * 4, sn4)
#guard feeRootIs 5 (FEE * 5, SN 4 sn4 1 (SL 4))
#guard feeRootIs 7 (FEE * 7, SN 4 sn4 3 (SN 2 (SN 1 (SL 4) 1 (SL 5)) 1 (SL 6)))

/-! ### `test-helpers/src/binary/merkle_tree.rs:151-410` -/

def referenceTree (data : List Bytes) (index : Option Nat := none) : Res Reference.Tree := do
  let t ← match index with
    | some i => Reference.Tree.new.setProofIndex i
    | none => pure Reference.Tree.new
  data.foldlM (fun t d => t.push debug Sha256.sha256 d) t

def referenceRoot (n : Nat) : Res Bytes32 := do
  (← referenceTree (TEST_DATA.take n)).root debug Sha256.sha256

def referenceProof (data : List Bytes) (index : Option Nat := none) : Res (Bytes32 × List Bytes32) := do
  (← referenceTree data index).prove debug Sha256.sha256

/-! `root_returns_the_hash_of_the_empty_string_when_no_leaves_are_pushed`,
`root_returns_the_hash_of_the_leaf_when_one_leaf_is_pushed`,
`root_returns_the_hash_of_the_head_when_4_leaves_are_pushed`, `..._5_...`, `..._7_...` -/
#guard okEq (referenceRoot 0) Binary.emptySum
#guard okEq (referenceRoot 1) (L 0)
#guard okEq (referenceRoot 4) n3
#guard okEq (referenceRoot 5) (N n3 (L 4))
#guard okEq (referenceRoot 7) n7

/-! `leaves_count_returns_the_number_of_leaves_pushed_to_the_tree` -/
#guard match referenceTree (TEST_DATA.take 4) with | .ok t => t.leavesCount = 4 | .error _ => false

/-! `prove_returns_the_merkle_root_and_proof_set_for_the_given_proof_index`,
`..._left_of_the_root`, `..._right_of_the_root` -/
#guard okEq (referenceProof (TEST_DATA.take 4) (some 0)) (n3, [L 0, L 1, n5])
#guard okEq (referenceProof (TEST_DATA.take 5) (some 2)) (N n3 (L 4), [L 2, L 3, n1, L 4])
#guard okEq (referenceProof (TEST_DATA.take 5) (some 4)) (N n3 (L 4), [L 4, n3])

/-! `prove_returns_the_root_of_the_empty_merkle_tree_when_no_leaves_are_added`,
`prove_returns_an_empty_proof_set_when_no_leaves_are_added` -/
#guard okEq (referenceProof []) (Binary.emptySum, [])

/-! ### `test-helpers/src/binary/verify.rs:59-145` -/

def check (root set : Res (Bytes32 × List Bytes32)) (i n : Nat) : Res Bool := do
  Verify.verify debug Sha256.sha256 (← root).1 (← set).2 i n

/-! `verify_returns_true_when_the_given_proof_set_matches_the_given_merkle_root` -/
#guard
  let p := referenceProof (TEST_DATA.take 5) (some 2)
  okEq (check p p 2 5) true

/-! `verify_returns_false_when_the_given_proof_set_does_not_match_the_given_merkle_root` -/
#guard okEq (check (referenceProof (TEST_DATA.take 4) (some 2))
  (referenceProof (TEST_DATA.drop 5) (some 2)) 2 5) false

/-! `verify_returns_false_when_the_proof_set_is_empty` -/
#guard
  let p := referenceProof [] (some 0)
  okEq (check p p 0 0) false

/-! `verify_returns_false_when_the_proof_index_is_invalid` -/
#guard
  let p := referenceProof (TEST_DATA.take 4) (some 0)
  okEq (check p p 15 5) false

/-! ### `tests/binary.rs:34-138`: `test_roots`, `test_prove`, `test_load`

The sampled leaves are the first ones, the sizes stop at 64, and every index is proved; the
generator of random samples is not modelled. -/

def sampled (n : Nat) : List Bytes := (be n).map fun d => (Sha256.sha256 d).val

#guard [1, 2, 5, 7, 8, 9, 64].all fun n =>
  match referenceTree (sampled n) with
  | .ok t => match t.root debug Sha256.sha256 with
    | .ok r => okEq ((pushed (sampled n)).root debug Sha256.sha256) r &&
      (match (Binary.Tree.load debug (pushed (sampled n)).storage n).1 with
        | .ok t' => okEq (t'.root debug Sha256.sha256) r
        | .error _ => false)
    | .error _ => false
  | .error _ => false

#guard [1, 2, 5, 7, 8, 9].all fun n => (List.range n).all fun i =>
  match (Binary.prove debug Sha256.sha256 i (pushed (sampled n))).1 with
  | .ok r => okEq (referenceProof (sampled n) (some i)) r
  | .error _ => false

#guard [0, 31, 40, 63].all fun i =>
  match (Binary.prove debug Sha256.sha256 i (pushed (sampled 64))).1 with
  | .ok r => okEq (referenceProof (sampled 64) (some i)) r
  | .error _ => false

end FuelMerkle.Tests
