import Verif.Model.Basic

/-
A small hash function, cheap enough to run whole programs in the kernel. It is used only to show
that the hypotheses of theorems can be met; SHA-256 is used for the same purpose where it is fast
enough.
-/
namespace FuelMerkle.Tests

/-- The 32 bytes of a number, least significant first. -/
def toBytes32 (n : Nat) : Bytes32 := ⟨(List.range 32).map fun i => UInt8.ofNat (n / 256 ^ i), by simp⟩

/-- A polynomial over the bytes, scrambled, modulo 2^256. -/
def toyHash : HashFn := fun b =>
  toBytes32 ((b.foldl (fun acc x => (acc * 115792089237316195423570985008687907853269984665640564039457584007913129639747 + x.toNat + 1) % 2 ^ 256) 7
    * 57896044618658097711785492504343953926634992332820282019728792003956564819949) % 2 ^ 256)

end FuelMerkle.Tests
