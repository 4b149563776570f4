import Verif.Spec.Verifier
import Verif.Spec.Bits

/-
The compact sparse Merkle tree, written from its description: a function of a finite map
from 32-byte keys to digests, computed by splitting the keys bit by bit from the most
significant bit. Independent of the code.
-/
namespace FuelMerkle.Spec

/-- The 32 zero bytes. -/
def zero32 : Bytes32 := ⟨List.replicate 32 0, rfl⟩

/-- Bit `i` of a key, counted from the most significant bit. -/
def keyBit (k : Bytes32) (i : Nat) : Bool := (bitsOf k.val)[i]?.getD false

/-- A finite map from keys to values, as the list of its entries. -/
abbrev Entries (V : Type) := List (Bytes32 × V)

/-- The message hashed for a leaf. -/
def smtLeafMsg (k v : Bytes32) : Bytes := [0x00] ++ k.val ++ v.val

/-- The message hashed for an inner node. -/
def smtNodeMsg (l r : Bytes32) : Bytes := [0x01] ++ l.val ++ r.val

/-- Root of the subtree that holds the entries `es`, whose keys agree on their first `d` bits;
`fuel` bits are left. No entry: zero. One entry: the leaf hash. More: the hash of the two
subtrees for bit `d`. -/
def smt (H : HashFn) : (fuel d : Nat) → Entries Bytes32 → Bytes32
  | _, _, [] => zero32
  | _, _, [(k, v)] => H (smtLeafMsg k v)
  | 0, _, _ :: _ :: _ => zero32
  | fuel + 1, d, es =>
    H (smtNodeMsg (smt H fuel (d + 1) (es.filter fun x => !keyBit x.1 d))
      (smt H fuel (d + 1) (es.filter fun x => keyBit x.1 d)))

/-- Root of the sparse Merkle tree over a map from keys to digests. -/
def smtRoot (H : HashFn) (es : Entries Bytes32) : Bytes32 := smt H 256 0 es

/-- The messages hashed to compute `smt`. -/
def smtMsgsFrom (H : HashFn) : (fuel d : Nat) → Entries Bytes32 → List Bytes
  | _, _, [] => []
  | _, _, [(k, v)] => [smtLeafMsg k v]
  | 0, _, _ :: _ :: _ => []
  | fuel + 1, d, es =>
    smtNodeMsg (smt H fuel (d + 1) (es.filter fun x => !keyBit x.1 d))
        (smt H fuel (d + 1) (es.filter fun x => keyBit x.1 d)) ::
      (smtMsgsFrom H fuel (d + 1) (es.filter fun x => !keyBit x.1 d) ++
        smtMsgsFrom H fuel (d + 1) (es.filter fun x => keyBit x.1 d))

/-- The messages hashed to compute `smtRoot`. -/
def smtMsgs (H : HashFn) (es : Entries Bytes32) : List Bytes := smtMsgsFrom H 256 0 es

/-- The key whose leaf is met when descending from the root along the bits of `k`, if the
descent ends in a leaf. -/
def metFrom (k : Bytes32) {V : Type} : (fuel d : Nat) → Entries V → Option Bytes32
  | _, _, [] => none
  | _, _, [(k', _)] => some k'
  | 0, _, _ :: _ :: _ => none
  | fuel + 1, d, es => metFrom k fuel (d + 1) (es.filter fun x => keyBit x.1 d == keyBit k d)

/-- The key met on the path of `k` in the tree over `es`. -/
def met {V : Type} (k : Bytes32) (es : Entries V) : Option Bytes32 := metFrom k 256 0 es

/-- The map without the key `k`. -/
def Entries.erase {V : Type} (es : Entries V) (k : Bytes32) : Entries V := es.filter fun x => x.1 ≠ k

/-- The map with `k` mapped to `v`. -/
def Entries.put {V : Type} (es : Entries V) (k : Bytes32) (v : V) : Entries V := (k, v) :: Entries.erase es k

/-- The digests of the values of a map. -/
def digests (H : HashFn) (kv : Entries Bytes) : Entries Bytes32 := kv.map fun x => (x.1, H x.2)

end FuelMerkle.Spec
