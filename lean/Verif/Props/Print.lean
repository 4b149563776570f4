import Verif.Proofs.Print
import Verif.Proofs.Text
import Verif.Tests.ToyHash

/-
C75: printing nodes and errors.
-/
namespace FuelMerkle
namespace Props
open Print
variable {E : Type}

/-- **C75**. Every sparse node can be printed, as a node and as a storage node: no assertion
fails, whatever is in the node (read from a corrupt storage, say). -/
theorem C75_sparse_prints (H : HashFn) (n : Sparse.Node) :
    (∃ text, n.debug H = .ok text) ∧ ∃ text, n.debugStorage H = .ok text := by
  cases h : n.pfx with
  | node => exact ⟨⟨_, Sparse.Node.debugAs_node _ H n h⟩, _, Sparse.Node.debugAs_node _ H n h⟩
  | leaf => exact ⟨⟨_, Sparse.Node.debugAs_leaf _ H n h⟩, _, Sparse.Node.debugAs_leaf _ H n h⟩

/-- **C75**. Sparse nodes that are printed alike are equal, whatever the hash function. -/
theorem C75_sparse_text (H : HashFn) (a b : Sparse.Node) :
    (a.debug H = b.debug H → a = b) ∧ (a.debugStorage H = b.debugStorage H → a = b) :=
  ⟨Sparse.Node.debugAs_inj, Sparse.Node.debugAs_inj⟩

example : Sparse.Node.debug Tests.toyHash ⟨3, .node, ⟨List.replicate 32 0xab, rfl⟩, ⟨List.replicate 32 0x0c, rfl⟩⟩ =
    .ok ("Node (Internal) { Height: 3, Hash: \"".toList ++
      hexEncode (Sparse.Node.hash Tests.toyHash ⟨3, .node, ⟨List.replicate 32 0xab, rfl⟩, ⟨List.replicate 32 0x0c, rfl⟩⟩).val ++
      "\", Left child key: \"".toList ++ (List.replicate 32 ['a', 'b']).flatten ++
      "\", Right child key: \"".toList ++ (List.replicate 32 ['0', 'c']).flatten ++ "\" }".toList) := by decide +kernel

/-- **C75**. Binary nodes that are printed alike are equal. (Printing them cannot fail: the model
of the derived implementation is a total function.) -/
theorem C75_binary_text (a b : Binary.Node) (h : a.debug = b.debug) : a = b := Binary.Node.debug_inj h

example : (Binary.Node.debug ⟨⟨12⟩, ⟨List.replicate 32 7, rfl⟩⟩) =
    "Node { position: Position(12), hash: [7, 7, 7, 7, 7, 7, 7, 7, 7, 7, 7, 7, 7, 7, 7, 7, 7, 7, 7, 7, 7, 7, 7, 7, 7, 7, 7, 7, 7, 7, 7, 7] }".toList := by
  decide +kernel

/-- **C75**. Printing a sum node panics exactly if it is not a leaf and a child key is missing. -/
theorem C75_sum_prints (n : Sum.Node) :
    (n.height ≠ 0 ∧ (n.leftChildKey = none ∨ n.rightChildKey = none) → n.debug = .error .unwrapNone) ∧
    (n.height = 0 ∨ (n.leftChildKey ≠ none ∧ n.rightChildKey ≠ none) → ∃ text, n.debug = .ok text) := by
  refine ⟨fun h => Sum.Node.debug_panic n ?_, fun h => (Sum.Node.debug_ok_iff n).2 h⟩
  rintro (h0 | ⟨h1, h2⟩)
  · exact h.1 h0
  · rcases h.2 with h' | h'
    · exact h1 h'
    · exact h2 h'

/-- **C75**. No sum tree contains or stores a node that cannot be printed: after any calls, with any
failures, on a storage whose records could be printed (an empty one, say), all nodes of the tree
and all records can be printed. -/
theorem C75_sum_reachable (p : Profile) (H : HashFn) (ops : List Sum.Op) (s : Sum.SStore E)
    (hs : ∀ k n, s.map k = some n → ∃ text, n.debug = .ok text) :
    (∀ n ∈ (Sum.run p H ops (Sum.Tree.new s)).2.head, ∃ text, n.debug = .ok text) ∧
    ∀ k n, (Sum.run p H ops (Sum.Tree.new s)).2.storage.map k = some n → ∃ text, n.debug = .ok text := by
  have h := Sum.run_printable p H ops (Sum.Tree.new s)
    ⟨by simp [Sum.Tree.new], fun k n hn => (Sum.Node.debug_ok_iff n).1 (hs k n hn)⟩
  exact ⟨fun n hn => (Sum.Node.debug_ok_iff n).2 (h.1 n hn), fun k n hn => (Sum.Node.debug_ok_iff n).2 (h.2 k n hn)⟩

example : ∃ n, (Sum.run ⟨true, true, .w64⟩ Tests.toyHash [.push 1 [1], .push 2 [2], .root] (Sum.Tree.new (Store.empty : Sum.SStore Unit))).2.head = [n] ∧
    n.height = 1 := ⟨_, rfl, by decide +kernel⟩

/-- **C75**. Sum nodes that are printed alike have the same digest, fee and child keys. (The height
is not shown.) -/
theorem C75_sum_text (a b : Sum.Node) (text : Text) (ha : a.debug = .ok text) (hb : b.debug = .ok text) :
    a.hash = b.hash ∧ a.fee = b.fee ∧ (a.height = 0 ↔ b.height = 0) ∧
      (a.height ≠ 0 → a.leftChildKey = b.leftChildKey ∧ a.rightChildKey = b.rightChildKey) :=
  Sum.Node.debug_inj ((Sum.Node.debug_ok_iff a).1 ⟨_, ha⟩) ((Sum.Node.debug_ok_iff b).1 ⟨_, hb⟩) (ha.trans hb.symm)

example : ∃ text, Sum.Node.debug ⟨0, ⟨List.replicate 32 255, rfl⟩, 120, none, none⟩ = .ok text ∧
    text = "Node (Leaf) { Hash: \"".toList ++ List.replicate 64 'f' ++ "\", Fee: 120, Key: \"".toList ++ List.replicate 64 'f' ++
      "\" }".toList := ⟨_, rfl, by decide +kernel⟩

/-- **C75**. The message of an error of the binary tree that does not come from the storage tells
which error it is and the index or key it is about. -/
theorem C75_binary_messages (storage : E → Text) (i j : Nat) :
    ((Binary.Error.invalidProofIndex i : Binary.Error E).display storage =
      (Binary.Error.invalidProofIndex j : Binary.Error E).display storage → i = j) ∧
    ((Binary.Error.loadError i : Binary.Error E).display storage =
      (Binary.Error.loadError j : Binary.Error E).display storage → i = j) ∧
    (Binary.Error.invalidProofIndex i : Binary.Error E).display storage ≠
      (Binary.Error.loadError j : Binary.Error E).display storage := by
  have e1 : " is not valid".toList = ' ' :: "is not valid".toList := by decide
  have e2 : "; the key is not found in storage".toList = ';' :: " the key is not found in storage".toList := by decide
  have e3 : "proof index ".toList = 'p' :: "roof index ".toList := by decide
  have e4 : "cannot load node with key ".toList = 'c' :: "annot load node with key ".toList := by decide
  exact ⟨message_inj e1 (by decide), message_inj e2 (by decide), message_ne e3 e4 (by decide)⟩

/-- **C75**. The message of a load error of the sparse tree tells the root asked for; the message of
a deserialization error tells the byte that was found. -/
theorem C75_sparse_messages (r r' : Bytes32) (b b' : UInt8) :
    (Sparse.loadErrorText r = Sparse.loadErrorText r' → r = r') ∧
    ((DeserializeError.invalidPrefix b).display = (DeserializeError.invalidPrefix b').display → b = b') := by
  have e1 : " is not valid".toList = ' ' :: "is not valid".toList := by decide
  exact ⟨hex_message_inj, fun h => UInt8.toNat_inj.1 (message_inj e1 (by decide) h)⟩

example : (Binary.Error.loadError 10 : Binary.Error Unit).display (fun _ => []) =
    "cannot load node with key 10; the key is not found in storage".toList := by decide +kernel

/-- **C75**. The exact text of a sparse node: what kind of node it is, its height in decimal, its
digest and its two halves in hexadecimal; the text of a storage node differs in the first word. -/
theorem C75_sparse_shows (H : HashFn) (n : Sparse.Node) :
    ∃ height hash first second : Text, Spec.IsDecimal height n.height ∧ Spec.IsHex hash (n.hash H).val ∧
      Spec.IsHex first n.bytesLo.val ∧ Spec.IsHex second n.bytesHi.val ∧
      (n.pfx = .node →
        n.debug H = .ok ("Node (Internal) { Height: ".toList ++ height ++ ", Hash: \"".toList ++ hash ++
          "\", Left child key: \"".toList ++ first ++ "\", Right child key: \"".toList ++ second ++ "\" }".toList) ∧
        n.debugStorage H = .ok ("StorageNode (Internal) { Height: ".toList ++ height ++ ", Hash: \"".toList ++ hash ++
          "\", Left child key: \"".toList ++ first ++ "\", Right child key: \"".toList ++ second ++ "\" }".toList)) ∧
      (n.pfx = .leaf →
        n.debug H = .ok ("Node (Leaf) { Height: ".toList ++ height ++ ", Hash: \"".toList ++ hash ++
          "\", Leaf key: \"".toList ++ first ++ "\", Leaf data: \"".toList ++ second ++ "\" }".toList) ∧
        n.debugStorage H = .ok ("StorageNode (Leaf) { Height: ".toList ++ height ++ ", Hash: \"".toList ++ hash ++
          "\", Leaf key: \"".toList ++ first ++ "\", Leaf data: \"".toList ++ second ++ "\" }".toList)) := by
  refine ⟨dec n.height, hexEncode (n.hash H).val, hexEncode n.bytesLo.val, hexEncode n.bytesHi.val, isDecimal_dec _,
    isHex_hexEncode _, isHex_hexEncode _, isHex_hexEncode _, fun h => ?_, fun h => ?_⟩
  · have e1 := Sparse.Node.debugAs_node "Node".toList H n h
    have e2 := Sparse.Node.debugAs_node "StorageNode".toList H n h
    constructor
    · refine e1.trans (congrArg _ ?_)
      simp [debugStruct, fields, quoted]
    · refine e2.trans (congrArg _ ?_)
      simp [debugStruct, fields, quoted]
  · have e1 := Sparse.Node.debugAs_leaf "Node".toList H n h
    have e2 := Sparse.Node.debugAs_leaf "StorageNode".toList H n h
    constructor
    · refine e1.trans (congrArg _ ?_)
      simp [debugStruct, fields, quoted]
    · refine e2.trans (congrArg _ ?_)
      simp [debugStruct, fields, quoted]

/-- **C75**. The exact text of a binary node: its position in decimal and its digest as an array of
decimal numbers. -/
theorem C75_binary_shows (n : Binary.Node) :
    ∃ position hash : Text, Spec.IsDecimal position n.position.inOrderIndex ∧
      Spec.IsArray hash (n.hash.val.map UInt8.toNat) ∧
      n.debug = "Node { position: Position(".toList ++ position ++ "), hash: ".toList ++ hash ++ " }".toList := by
  refine ⟨dec n.position.inOrderIndex, debugArray (n.hash.val.map UInt8.toNat), isDecimal_dec _, isArray_debugArray _, ?_⟩
  exact Binary.Node.debug_text n

/-- **C75**. The exact text of a sum node that can be printed. -/
theorem C75_sum_shows (n : Sum.Node) :
    ∃ hash fee : Text, Spec.IsHex hash n.hash.val ∧ Spec.IsDecimal fee n.fee ∧
      (n.height = 0 → n.debug = .ok ("Node (Leaf) { Hash: \"".toList ++ hash ++ "\", Fee: ".toList ++ fee ++
        ", Key: \"".toList ++ hash ++ "\" }".toList)) ∧
      ∀ l r, n.height ≠ 0 → n.leftChildKey = some l → n.rightChildKey = some r →
        ∃ left right : Text, Spec.IsHex left l.val ∧ Spec.IsHex right r.val ∧
          n.debug = .ok ("Node (Internal) { Hash: \"".toList ++ hash ++ "\", Fee: ".toList ++ fee ++
            ", Left child key: \"".toList ++ left ++ "\", Right child key: \"".toList ++ right ++ "\" }".toList) := by
  refine ⟨_, _, isHex_hexEncode _, isDecimal_dec _, fun h => ?_, fun l r h hl hr =>
    ⟨_, _, isHex_hexEncode _, isHex_hexEncode _, ?_⟩⟩
  · refine (Sum.Node.debug_leaf n h).trans (congrArg _ ?_)
    simp [debugStruct, fields, quoted]
  · refine (Sum.Node.debug_node n h hl hr).trans (congrArg _ ?_)
    simp [debugStruct, fields, quoted]

/-- **C75**. The exact messages of the errors that contain values. -/
theorem C75_messages (storage : E → Text) (i : Nat) (e : E) (r : Bytes32) (b : UInt8) :
    ∃ index root byte : Text, Spec.IsDecimal index i ∧ Spec.IsHex root r.val ∧ Spec.IsDecimal byte b.toNat ∧
      (Binary.Error.invalidProofIndex i).display storage = "proof index ".toList ++ index ++ " is not valid".toList ∧
      (Binary.Error.loadError i).display storage =
        "cannot load node with key ".toList ++ index ++ "; the key is not found in storage".toList ∧
      (Binary.Error.storageError e).display storage = storage e ∧
      Sparse.loadErrorText r = "cannot load node with key ".toList ++ root ++ "; the key is not found in storage".toList ∧
      (DeserializeError.invalidPrefix b).display = "prefix ".toList ++ byte ++ " is not valid".toList :=
  ⟨_, _, _, isDecimal_dec _, isHex_hexEncode _, isDecimal_dec _, rfl, rfl, rfl, rfl, rfl⟩

example : Spec.IsDecimal "120".toList 120 ∧ ¬ Spec.IsDecimal "0120".toList 120 ∧ Spec.IsHex "0cab".toList [12, 171] ∧
    ¬ Spec.IsHex "c0ab".toList [12, 171] ∧ ¬ Spec.IsHex "cab".toList [12, 171] ∧ ¬ Spec.IsHex "0CAB".toList [12, 171] := by
  unfold Spec.IsDecimal Spec.IsHex
  decide +kernel

end Props
end FuelMerkle
