import Verif.Spec.SparseApi

/-
How many storage calls the calls of the sparse tree should make, as a function of the keys in
the map only.
-/
namespace FuelMerkle
namespace Spec

/-- The keys that have the same bit `d` as `k`, and the other ones. -/
def withBit (k : Bytes32) (d : Nat) (ks : List Bytes32) : List Bytes32 := ks.filter fun x => keyBit x d == keyBit k d
def withoutBit (k : Bytes32) (d : Nat) (ks : List Bytes32) : List Bytes32 := ks.filter fun x => keyBit x d != keyBit k d

/-- How many inner nodes are met when descending along the bits of `k` from depth `d`, where
the keys `ks` are left: one as long as there are two keys or more. -/
def pathLenFrom (k : Bytes32) : (fuel d : Nat) → List Bytes32 → Nat
  | 0, _, _ => 0
  | fuel + 1, d, ks => if ks.length ≤ 1 then 0 else 1 + pathLenFrom k fuel (d + 1) (withBit k d ks)

/-- Number of inner nodes on the path of `k` in the tree over the keys `ks`. -/
def pathLen (k : Bytes32) (ks : List Bytes32) : Nat := pathLenFrom k 256 0 ks

/-- How many children of these inner nodes are not empty. -/
def pathReadsFrom (k : Bytes32) : (fuel d : Nat) → List Bytes32 → Nat
  | 0, _, _ => 0
  | fuel + 1, d, ks => if ks.length ≤ 1 then 0 else
    (if withBit k d ks = [] then 0 else 1) + (if withoutBit k d ks = [] then 0 else 1) +
      pathReadsFrom k fuel (d + 1) (withBit k d ks)

/-- Number of nodes of the tree over the keys `ks` that are children of a node on the path of
`k`. -/
def pathReads (k : Bytes32) (ks : List Bytes32) : Nat := pathReadsFrom k 256 0 ks

end Spec

namespace Sparse
open Spec

/-- The number of storage calls of a call in a given state. An update writes the leaf twice,
reads the nodes beside and on the path, and writes the inner nodes of the new path. A removal
does nothing on the empty tree; it reads the record of the key; if there is one it reads the
path, removes its nodes and writes the inner nodes of the new path. -/
def Op.calls (op : Op) (s : State) : Nat :=
  match op.data with
  | some _ => 2 + pathReads op.key (keysOf s.kv) + pathLen op.key (keysOf (op.onState s).kv)
  | none =>
    if s.kv = [] then 0
    else if op.key ∉ s.recs then 1
    else 1 + pathReads op.key (keysOf s.kv) + (pathLen op.key (keysOf s.kv) + 1) +
      pathLen op.key (keysOf (op.onState s).kv)

/-- The number of storage calls of a history. -/
def callsFrom : State → List Op → Nat
  | _, [] => 0
  | s, op :: ops => op.calls s + callsFrom (op.onState s) ops

end Sparse
end FuelMerkle
