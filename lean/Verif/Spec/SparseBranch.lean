import Verif.Spec.SparseApi

/-
Parts of a sparse Merkle tree: the entries below an inner node.
-/
namespace FuelMerkle
namespace Sparse
open Spec

/-- The entries whose keys have the first `d` bits of `k`. -/
def under {V : Type} (d : Nat) (k : Bytes32) (kv : Entries V) : Entries V :=
  kv.filter fun x => decide (∀ i < d, keyBit x.1 i = keyBit k i)

/-- The hash of the part of the tree of a map that holds the keys with the first `d` bits of
`k`. -/
def branchOf (H : HashFn) (d : Nat) (k : Bytes32) (kv : Entries Bytes) : Bytes32 :=
  smt H (256 - d) d (digests H (under d k kv))

end Sparse
end FuelMerkle
