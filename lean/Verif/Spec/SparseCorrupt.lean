import Verif.Spec.SparseStorage

/-
What a storage of unknown contents must get right for a sparse tree. Used in the statements of
the properties.
-/
namespace FuelMerkle
namespace Sparse
open Spec
variable {E : Type}

/-- The records of the sparse Merkle tree over `es`, whose keys agree on their first `d` bits:
height, kind (0 leaf, 1 inner node), and key and digest or the two child hashes. The height is
counted from the bottom of the full tree of 256 levels; leaves have height 0. -/
def smtRecordsFrom (H : HashFn) : (fuel d : Nat) → Entries Bytes32 → List Prim
  | _, _, [] => []
  | _, _, [(k, v)] => [(0, 0x00, k, v)]
  | 0, _, _ :: _ :: _ => []
  | fuel + 1, d, es =>
    (256 - d, 0x01, smt H fuel (d + 1) (es.filter fun x => !keyBit x.1 d), smt H fuel (d + 1) (es.filter fun x => keyBit x.1 d)) ::
      (smtRecordsFrom H fuel (d + 1) (es.filter fun x => !keyBit x.1 d) ++
        smtRecordsFrom H fuel (d + 1) (es.filter fun x => keyBit x.1 d))

/-- The records of the tree of a map. -/
def recordsOf (H : HashFn) (kv : Entries Bytes) : List Prim := smtRecordsFrom H 256 0 (digests H kv)

/-- The message a record stands for: all of it but the height. -/
def recordMsg (q : Prim) : Bytes := [q.2.1] ++ q.2.2.1.val ++ q.2.2.2.val

/-- The storage has, for the trees of these maps and for these keys, nothing or the right record:
the records of the trees under their hashes, and some leaf record of the key under each key. -/
structure Sound (H : HashFn) (m : Bytes32 → Option Prim) (maps : List (Entries Bytes)) (keys : List Bytes32) : Prop where
  nodes : ∀ kv ∈ maps, ∀ q ∈ recordsOf H kv, ∀ q', m (H (recordMsg q)) = some q' → q' = q
  leaves : ∀ k ∈ keys, ∀ q, m k = some q → ∃ v, q = (0, 0x00, k, v)

/-- Every record hashes to the key it is filed under, or is the leaf record of one of these keys,
filed under it. A storage can check this of what it returns. -/
def HashChecked (H : HashFn) (m : Bytes32 → Option Prim) (keys : List Bytes32) : Prop :=
  ∀ x q, m x = some q → (x ∉ keys ∧ H (recordMsg q) = x) ∨ (x ∈ keys ∧ ∃ v, q = (0, 0x00, x, v))

/-- The records of the trees of these maps have the right heights. -/
def RightHeights (H : HashFn) (m : Bytes32 → Option Prim) (maps : List (Entries Bytes)) : Prop :=
  ∀ kv ∈ maps, ∀ q ∈ recordsOf H kv, ∀ q', m (H (recordMsg q)) = some q' → recordMsg q' = recordMsg q → q'.1 = q.1

/-- The tree opened for the map `kv` on the storage: new for the empty map, else loaded at the
root of the map. -/
def Opens (H : HashFn) (kv : Entries Bytes) (s : SpStore E) (t : Tree E) : Prop :=
  if kv = [] then t = Tree.new s else ∃ s', Tree.load s (rootOf H kv) = (.ok t, s')

end Sparse
end FuelMerkle
