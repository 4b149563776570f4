import Verif.Spec.Verifier

/-
The binary Merkle sum tree, written from its description in the Fuel specification: every
node carries a fee and a digest; independent of the code.
-/
namespace FuelMerkle.Spec

/-- A leaf: fee and data. -/
abbrev Item := Nat × Bytes

/-- The lowest eight bytes of a number, big-endian. -/
def be64 (n : Nat) : Bytes := (List.range 8).map fun j => UInt8.ofNat (n / 256 ^ (7 - j))

/-- Sum of the fees. -/
def total (D : List Item) : Nat := (D.map Prod.fst).sum

/-- The sum-tree hash: `H()` of nothing for the empty list, `H(0x00 || fee || data)` for one
leaf, and otherwise `H(0x01 || fee(L) || hash(L) || fee(R) || hash(R))` where `L` is the
first `k` leaves, `k` the largest power of two smaller than the number of leaves. Fees are
written as 8 bytes. -/
def sumHash (H : HashFn) : List Item → Bytes32
  | [] => H []
  | [x] => H ([0x00] ++ be64 x.1 ++ x.2)
  | x :: y :: ds =>
    let D := x :: y :: ds
    let k := split D.length
    H ([0x01] ++ be64 (total (D.take k)) ++ (sumHash H (D.take k)).val ++
      be64 (total (D.drop k)) ++ (sumHash H (D.drop k)).val)
termination_by D => D.length
decreasing_by
  all_goals
    have := split_spec (n := (x :: y :: ds).length) (by simp)
    obtain ⟨⟨e, he⟩, h2, _⟩ := this
    have := Nat.two_pow_pos e
    simp only [List.length_take, List.length_drop] at *
    omega

/-- The messages hashed to compute `sumHash H D`. -/
def sumMsgs (H : HashFn) : List Item → List Bytes
  | [] => [[]]
  | [x] => [[0x00] ++ be64 x.1 ++ x.2]
  | x :: y :: ds =>
    let D := x :: y :: ds
    let k := split D.length
    ([0x01] ++ be64 (total (D.take k)) ++ (sumHash H (D.take k)).val ++
      be64 (total (D.drop k)) ++ (sumHash H (D.drop k)).val) ::
      (sumMsgs H (D.take k) ++ sumMsgs H (D.drop k))
termination_by D => D.length
decreasing_by
  all_goals
    have := split_spec (n := (x :: y :: ds).length) (by simp)
    obtain ⟨⟨e, he⟩, h2, _⟩ := this
    have := Nat.two_pow_pos e
    simp only [List.length_take, List.length_drop] at *
    omega

/-- The messages hashed to compute the sum-tree hashes of all prefixes of `D`. -/
def prefixMsgs (H : HashFn) (D : List Item) : List Bytes :=
  (List.range (D.length + 1)).flatMap fun m => sumMsgs H (D.take m)

end FuelMerkle.Spec
