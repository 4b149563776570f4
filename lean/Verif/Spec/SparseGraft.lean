import Verif.Spec.SparseBranch

/-
What an update makes of the tree opened at an inner node when it has to fork a leaf: the nodes of
the part end up as many levels too high as the part was below the root.
-/
namespace FuelMerkle
namespace Sparse
open Spec

/-- The hash of a tree `j` levels below its root that was put together from the entries `es` of
a part taken from `d` levels further down and the new entry `(k, v)`. The entries of the part
are divided by the bits `j + d`, as they were, but joined on the side given by bit `j` of `k`.
When one entry is left, it and the new one follow, as they would in a tree at level `j`. -/
def displaced (H : HashFn) (k v : Bytes32) (d : Nat) : (fuel j : Nat) → Entries Bytes32 → Bytes32
  | _, j, [] => smt H (256 - j) j [(k, v)]
  | _, j, [x] => smt H (256 - j) j [(k, v), x]
  | 0, _, _ :: _ :: _ => zero32
  | fuel + 1, j, es =>
    let along := displaced H k v d fuel (j + 1) (es.filter fun x => keyBit x.1 (j + d) == keyBit k (j + d))
    let beside := smt H fuel (j + d + 1) (es.filter fun x => keyBit x.1 (j + d) != keyBit k (j + d))
    H (if keyBit k j then smtNodeMsg beside along else smtNodeMsg along beside)

/-- The messages hashed for `displaced` that were not hashed for the part. -/
def displacedMsgs (H : HashFn) (k v : Bytes32) (d : Nat) : (fuel j : Nat) → Entries Bytes32 → List Bytes
  | _, j, [] => smtMsgsFrom H (256 - j) j [(k, v)]
  | _, j, [x] => smtMsgsFrom H (256 - j) j [(k, v), x]
  | 0, _, _ :: _ :: _ => []
  | fuel + 1, j, es =>
    let along := displaced H k v d fuel (j + 1) (es.filter fun x => keyBit x.1 (j + d) == keyBit k (j + d))
    let beside := smt H fuel (j + d + 1) (es.filter fun x => keyBit x.1 (j + d) != keyBit k (j + d))
    (if keyBit k j then smtNodeMsg beside along else smtNodeMsg along beside) ::
      displacedMsgs H k v d fuel (j + 1) (es.filter fun x => keyBit x.1 (j + d) == keyBit k (j + d))

/-- The root after such an update of `k` in the part of a map with the first `d` bits of `k`. -/
def displacedRoot (H : HashFn) (d : Nat) (k : Bytes32) (data : Bytes) (kv : Entries Bytes) : Bytes32 :=
  displaced H k (H data) d (256 - d) 0 (digests H (under d k kv))

def displacedRootMsgs (H : HashFn) (d : Nat) (k : Bytes32) (data : Bytes) (kv : Entries Bytes) : List Bytes :=
  displacedMsgs H k (H data) d (256 - d) 0 (digests H (under d k kv))

end Sparse
end FuelMerkle
