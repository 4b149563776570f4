import Verif.Model.Binary
import Verif.Model.Sparse
import Verif.Model.Sum

/-
How nodes and errors are printed: the `Debug` implementations of nodes and the `Display` texts of
errors that contain values. Texts are lists of characters. Only the one-line format `{:?}` is
modelled, not the indented format `{:#?}`. The formatting functions of the standard library and
`hex::encode` are not part of `/repo`; they are written down here as documented.
-/
namespace FuelMerkle

/-- A printed text. -/
abbrev Text := List Char

namespace Print

/-- Decimal numbers (`Display` and `Debug` of `u8`, `u32`, `u64` in the standard library). -/
def dec (n : Nat) : Text := Nat.toDigits 10 n

/-- One byte as two hexadecimal digits (crate `hex`). -/
def hexByte (b : UInt8) : Text := [Nat.digitChar (b.toNat / 16), Nat.digitChar (b.toNat % 16)]

/-- `hex::encode` (crate `hex`): lower case. -/
def hexEncode (bs : Bytes) : Text := bs.flatMap hexByte

/-- `Debug` of a string without special characters (standard library). -/
def quoted (t : Text) : Text := '"' :: t ++ ['"']

/-- The fields printed by `DebugStruct` (standard library). -/
def fields : List (Text × Text) → Text
  | [] => []
  | [f] => f.1 ++ ": ".toList ++ f.2
  | f :: fs => f.1 ++ ": ".toList ++ f.2 ++ ", ".toList ++ fields fs

/-- `Formatter::debug_struct` .. `finish` (standard library), with at least one field. -/
def debugStruct (name : Text) (fs : List (Text × Text)) : Text :=
  name ++ " { ".toList ++ fields fs ++ " }".toList

/-- The elements of a printed array after the first bracket (standard library). -/
def arrayTail : List Nat → Text
  | [] => [']']
  | [n] => dec n ++ [']']
  | n :: ns => dec n ++ ", ".toList ++ arrayTail ns

/-- `Debug` of an array of numbers (standard library). -/
def debugArray (ns : List Nat) : Text := '[' :: arrayTail ns

end Print
open Print

/-- Derived `Debug` of `Position` (`src/common/position.rs:83-84`). -/
def Position.debug (q : Position) : Text := "Position(".toList ++ dec q.inOrderIndex ++ [')']

/-- Derived `Debug` of the binary `Node` (`src/binary/node.rs:8-12`). -/
def Binary.Node.debug (n : Binary.Node) : Text :=
  debugStruct "Node".toList
    [("position".toList, n.position.debug), ("hash".toList, debugArray (n.hash.val.map UInt8.toNat))]

/-- The branches of `Debug` for the sparse `Node` and `StorageNode`, which differ in the name only
(`src/sparse/node.rs:202-221` and `336-362`). -/
def Sparse.Node.debugAs (name : Text) (H : HashFn) (n : Sparse.Node) : Res Text :=
  if n.isNode then do
    let left ← n.leftChildKey
    let right ← n.rightChildKey
    return debugStruct (name ++ " (Internal)".toList)
      [("Height".toList, dec n.height), ("Hash".toList, quoted (hexEncode (n.hash H).val)),
        ("Left child key".toList, quoted (hexEncode left.val)), ("Right child key".toList, quoted (hexEncode right.val))]
  else do
    let key ← n.leafKey
    let data ← n.leafData
    return debugStruct (name ++ " (Leaf)".toList)
      [("Height".toList, dec n.height), ("Hash".toList, quoted (hexEncode (n.hash H).val)),
        ("Leaf key".toList, quoted (hexEncode key.val)), ("Leaf data".toList, quoted (hexEncode data.val))]

/-- `Debug for Node`, sparse (`src/sparse/node.rs:202-221`). -/
def Sparse.Node.debug (H : HashFn) (n : Sparse.Node) : Res Text := n.debugAs "Node".toList H

/-- `Debug for StorageNode` (`src/sparse/node.rs:336-362`); the storage it refers to is not
printed. -/
def Sparse.Node.debugStorage (H : HashFn) (n : Sparse.Node) : Res Text := n.debugAs "StorageNode".toList H

/-- `Debug for Node`, sum (`src/sum/node.rs:70-93`), with the `unwrap`s of lines 78 and 82. -/
def Sum.Node.debug (n : Sum.Node) : Res Text :=
  if n.height ≠ 0 then do
    let left ← runwrap n.leftChildKey
    let right ← runwrap n.rightChildKey
    return debugStruct "Node (Internal)".toList
      [("Hash".toList, quoted (hexEncode n.hash.val)), ("Fee".toList, dec n.fee),
        ("Left child key".toList, quoted (hexEncode left.val)), ("Right child key".toList, quoted (hexEncode right.val))]
  else
    return debugStruct "Node (Leaf)".toList
      [("Hash".toList, quoted (hexEncode n.hash.val)), ("Fee".toList, dec n.fee),
        ("Key".toList, quoted (hexEncode n.hash.val))]

/-- `Display` of the binary `MerkleTreeError`, with the one of the storage error as a parameter
(`src/binary/merkle_tree.rs:14-26`). -/
def Binary.Error.display {E : Type} (storage : E → Text) : Binary.Error E → Text
  | .invalidProofIndex i => "proof index ".toList ++ dec i ++ " is not valid".toList
  | .loadError k => "cannot load node with key ".toList ++ dec k ++ "; the key is not found in storage".toList
  | .storageError e => storage e

/-- The text of `LoadError` of the sparse tree: the key in hexadecimal
(`src/sparse/merkle_tree.rs:13-17`, the string is made at line 63). -/
def Sparse.loadErrorText (key : Bytes32) : Text :=
  "cannot load node with key ".toList ++ hexEncode key.val ++ "; the key is not found in storage".toList

/-- `Display` of `DeserializeError` and `PrefixError` (`src/common/error.rs:3-8`,
`src/common/prefix.rs:35-40`). -/
def DeserializeError.display : DeserializeError → Text
  | .invalidPrefix b => "prefix ".toList ++ dec b.toNat ++ " is not valid".toList

end FuelMerkle
