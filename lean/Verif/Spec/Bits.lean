/-
Reading bytes as numbers and as bit strings, independently of the code.
-/
namespace FuelMerkle.Spec

/-- The number written by a big-endian byte string. -/
def beNat : List UInt8 → Nat
  | [] => 0
  | b :: bs => b.toNat * 256 ^ bs.length + beNat bs

/-- The eight bits of a byte, most significant first. -/
def bitsOfByte (b : UInt8) : List Bool :=
  [7, 6, 5, 4, 3, 2, 1, 0].map fun i => b.toNat / 2 ^ i % 2 == 1

/-- The bits of a byte string, most significant bit of the first byte first. -/
def bitsOf (bytes : List UInt8) : List Bool := bytes.flatMap bitsOfByte

/-- Length of the longest common prefix of two lists. -/
def lcp {α : Type} [DecidableEq α] : List α → List α → Nat
  | a :: as, b :: bs => if a = b then lcp as bs + 1 else 0
  | _, _ => 0

end FuelMerkle.Spec
