import Verif.Spec.SparseApi
import Verif.Spec.SumTree

/-
Comparing the three kinds of trees: when a sparse tree is full down to some depth, and the
data a plain binary tree would have to hold to have the same root. Independent of the code.
-/
namespace FuelMerkle.Spec

/-- The entries are listed in key order and there is exactly one for every value of the first
`e` key bits: entry number `j` has the `e`-digit binary expansion of `j` as its first bits. -/
def Full {V : Type} (e : Nat) (kv : Entries V) : Prop :=
  kv.length = 2 ^ e ∧ ∀ (j : Nat) x, kv[j]? = some x → ∀ b < e, keyBit x.1 b = j.testBit (e - 1 - b)

/-- The entries `es`, whose keys agree on their first `d` bits, are listed in key order, and
bit by bit the keys divide the list where RFC 6962 divides it: at the largest power of two
smaller than the length. -/
def Shaped {V : Type} : (fuel d : Nat) → Entries V → Prop
  | _, _, [] => False
  | _, _, [_] => True
  | 0, _, _ :: _ :: _ => False
  | fuel + 1, d, es =>
    (es.filter fun x => !keyBit x.1 d) = es.take (split es.length) ∧
      (es.filter fun x => keyBit x.1 d) = es.drop (split es.length) ∧
      Shaped fuel (d + 1) (es.take (split es.length)) ∧ Shaped fuel (d + 1) (es.drop (split es.length))

/-- A map whose sparse tree has the shape of the plain binary tree over its entries. -/
def ListShaped {V : Type} (kv : Entries V) : Prop := Shaped 256 0 kv

/-- What a sparse leaf hashes, without the prefix byte: key and digest of the value. -/
def leafText (H : HashFn) (x : Bytes32 × Bytes) : Bytes := x.1.val ++ (H x.2).val

/-- What a sum leaf hashes, without the prefix byte: fee and data. -/
def itemText (x : Item) : Bytes := be64 x.1 ++ x.2

end FuelMerkle.Spec
