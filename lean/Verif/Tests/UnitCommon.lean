import Verif.Tests.Unit
import Verif.Model.PathUser

/-
The unit tests of `/repo/src/common` and its modules, one by one, run on the model. Tests of the
model's fidelity, not proofs.
-/
namespace FuelMerkle.Tests

/-! ### `src/common/position.rs:284-399` -/

/-! `test_from_in_order_index`, `test_from_leaf_index` -/

#guard [0, 1, 2 ^ 64 - 1].all fun i => (Position.fromInOrderIndex i).inOrderIndex = i
#guard [(0, 0), (1, 2), ((2 ^ 64 - 1) >>> 1, 2 ^ 64 - 1 - 1)].all
  fun (i, k) => okEq (Position.fromLeafIndex debug i) (pos k)

/-! `test_equality_returns_true_for_two_equal_positions`,
`test_equality_returns_false_for_two_unequal_positions` -/

#guard Position.fromInOrderIndex 0 = pos 0 && okEq (Position.fromLeafIndex debug 1) (pos 2)
#guard pos 0 ≠ pos 1 && Position.fromInOrderIndex 0 ≠ pos 1 &&
  !okEq (Position.fromLeafIndex debug 0) (pos 2)

/-! `test_is_leaf`, `test_is_node` -/

#guard [0, 2, 4, 6].all fun i => (pos i).isLeaf && !(pos i).isNode
#guard [1, 5, 9, 13].all fun i => !(pos i).isLeaf && (pos i).isNode

/-! ### `src/common/position_path.rs:121-560` -/

/-! `test_path_set_returns_path_and_side_nodes_for_1_leaf` -/

#guard pathIs 0 0 1 [0] [0]

/-! `test_path_set_returns_path_and_side_nodes_for_4_leaves` -/

#guard pathIs 3 0 4 [3, 1, 0] [3, 5, 2]
#guard pathIs 3 1 4 [3, 1, 2] [3, 5, 0]
#guard pathIs 3 2 4 [3, 5, 4] [3, 1, 6]
#guard pathIs 3 3 4 [3, 5, 6] [3, 1, 4]

/-! `test_path_set_returns_path_and_side_nodes_for_5_leaves` -/

#guard pathIs 7 0 5 [7, 3, 1, 0] [7, 8, 5, 2]
#guard pathIs 7 1 5 [7, 3, 1, 2] [7, 8, 5, 0]
#guard pathIs 7 2 5 [7, 3, 5, 4] [7, 8, 1, 6]
#guard pathIs 7 3 5 [7, 3, 5, 6] [7, 8, 1, 4]
#guard pathIs 7 4 5 [7, 8] [7, 3]

/-! `test_path_set_returns_path_and_side_nodes_for_6_leaves` -/

#guard pathIs 7 0 6 [7, 3, 1, 0] [7, 9, 5, 2]
#guard pathIs 7 1 6 [7, 3, 1, 2] [7, 9, 5, 0]
#guard pathIs 7 2 6 [7, 3, 5, 4] [7, 9, 1, 6]
#guard pathIs 7 3 6 [7, 3, 5, 6] [7, 9, 1, 4]
#guard pathIs 7 4 6 [7, 9, 8] [7, 3, 10]
#guard pathIs 7 5 6 [7, 9, 10] [7, 3, 8]

/-! `test_path_set_returns_path_and_side_nodes_for_7_leaves` -/

#guard pathIs 7 0 7 [7, 3, 1, 0] [7, 11, 5, 2]
#guard pathIs 7 1 7 [7, 3, 1, 2] [7, 11, 5, 0]
#guard pathIs 7 2 7 [7, 3, 5, 4] [7, 11, 1, 6]
#guard pathIs 7 3 7 [7, 3, 5, 6] [7, 11, 1, 4]
#guard pathIs 7 4 7 [7, 11, 9, 8] [7, 3, 12, 10]
#guard pathIs 7 5 7 [7, 11, 9, 10] [7, 3, 12, 8]
#guard pathIs 7 6 7 [7, 11, 12] [7, 3, 9]


/-! ### `src/common/path_iterator.rs:195-590` -/

/-- `TestNode` and its implementations of the traits (lines 201-263). -/
def testNode : UserNode Nat Empty where
  keySizeInBits := 64
  height := fun i => (pos i).height
  leafKey := fun i => u64ToBeBytes (i / 2)
  isNode := fun i => i % 2 ≠ 0
  leftChild := fun i => .ok (i - 2 ^ ((pos i).height - 1))
  rightChild := fun i => .ok (i + 2 ^ ((pos i).height - 1))

def iterItems (root leaf : Nat) : Option (List (Nat × Nat)) :=
  match testNode.path debug root (2 * leaf) 12 with
  | .ok l => some (l.filterMap fun
    | some (.ok a, .ok b) => some (a, b)
    | _ => none)
  | .error _ => none

def iterPath (root leaf : Nat) (path : List Nat) : Bool :=
  (iterItems root leaf).map (·.map Prod.fst) == some path

def iterSide (root leaf : Nat) (side : List Nat) : Bool :=
  (iterItems root leaf).map (·.map Prod.snd) == some side

/-! `test_path_iter_returns_path` -/

#guard iterPath 7 0 [7, 3, 1, 0]
#guard iterPath 7 1 [7, 3, 1, 2]
#guard iterPath 7 2 [7, 3, 5, 4]
#guard iterPath 7 3 [7, 3, 5, 6]
#guard iterPath 7 4 [7, 11, 9, 8]
#guard iterPath 7 5 [7, 11, 9, 10]
#guard iterPath 7 6 [7, 11, 13, 12]
#guard iterPath 7 7 [7, 11, 13, 14]

/-! `test_path_iter_returns_side_nodes` -/

#guard iterSide 7 0 [7, 11, 5, 2]
#guard iterSide 7 1 [7, 11, 5, 0]
#guard iterSide 7 2 [7, 11, 1, 6]
#guard iterSide 7 3 [7, 11, 1, 4]
#guard iterSide 7 4 [7, 3, 13, 10]
#guard iterSide 7 5 [7, 3, 13, 8]
#guard iterSide 7 6 [7, 3, 9, 14]
#guard iterSide 7 7 [7, 3, 9, 12]

/-! `test_path_iter_height_4` -/

#guard iterPath 15 4 [15, 7, 11, 9, 8]

/-! `test_path_iter_height_8` -/

#guard iterPath 255 61 [255, 127, 63, 95, 111, 119, 123, 121, 122]

/-! `test_path_iter_returns_root_root_when_root_is_leaf` -/

#guard iterPath 0 0 [0]
#guard iterSide 0 0 [0]

/-! ### `src/common/msb.rs:57-160` -/

def bitsOf (bytes : Bytes) : Option (List Nat) :=
  (List.range (8 * bytes.length)).mapM fun i =>
    (getBitAtIndexFromMsb bytes i).map fun | ._0 => 0 | ._1 => 1

def aa : UInt8 := 0b10101010

/-! `test_msb_for_bytes_1`, `_2`, `_4`, `_8`: the bits, put together again, are the number the
bytes spell. -/

#guard [1, 2, 4, 8].all fun n =>
  (bitsOf (List.replicate n aa)).map (·.foldl (fun k b => 2 * k + b) 0) ==
    some ((List.replicate n aa).foldl (fun k b => 256 * k + b.toNat) 0)

/-! `test_get_bit_at_index_from_msb_returns_none_for_index_out_of_bounds` -/

#guard getBitAtIndexFromMsb [aa, aa, aa, aa] 32 = none

/-! `test_common_prefix_count_returns_count_of_common_bits_when_all_bits_match`,
`..._when_some_bits_match`, `test_common_prefix_count_returns_0_when_the_first_bits_are_different` -/

#guard okEq (commonPrefixCount [aa, aa, aa, aa] [aa, aa, aa, aa]) (4 * 8)
#guard okEq (commonPrefixCount [aa, aa, aa, aa] [aa, aa, ~~~aa, aa]) (2 * 8)
#guard okEq (commonPrefixCount [aa, aa, aa, aa] [0b00101010, aa, aa, aa]) 0

/-! ### `src/common/storage_map.rs:66-152` -/

abbrev TestStore := Store Nat Nat Empty

def one (s : TestStore) (k v : Nat) : TestStore := (s.insert k v).2

def okIs {α β : Type} [DecidableEq α] (x : Except Empty α × β) (y : α) : Bool :=
  match x.1 with | .ok a => a = y | .error e => nomatch e

/-! `test_get_returns_value_for_given_key`, `test_get_returns_none_for_invalid_key`,
`test_insert_existing_key_updates_value_for_given_key` -/

#guard okIs ((one Store.empty 0 0).get 0) (some 0)
#guard okIs ((one Store.empty 0 0).get 1) none
#guard okIs ((one (one Store.empty 0 0) 0 1).get 0) (some 1)

/-! `test_remove_deletes_the_value_for_given_key`,
`test_remove_returns_the_deleted_value_for_given_key`, `test_remove_returns_none_for_invalid_key` -/

#guard okIs (Store.get 0 ((one Store.empty 0 0).remove 0).2) none
#guard okIs ((one Store.empty 0 0).remove 0) (some 0)
#guard okIs (Store.remove 0 (Store.empty : TestStore)) none

/-! `test_contains_key_returns_true_for_valid_key`,
`test_contains_key_returns_false_for_invalid_key` -/

#guard okIs ((one Store.empty 0 0).containsKey 0) true
#guard okIs (Store.containsKey 0 (Store.empty : TestStore)) false

end FuelMerkle.Tests
