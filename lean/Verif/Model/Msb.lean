import Verif.Model.Basic

/-
Bit addressing of byte arrays: `/repo/src/common/msb.rs` and `/repo/src/common/path.rs`.
`[u8; N]` is a list of bytes of length `N`.
-/
namespace FuelMerkle

/-- `enum Bit` (`src/common/msb.rs:2-5`). -/
inductive Bit where
  | _0
  | _1
deriving DecidableEq, Repr

/-- `enum Instruction` (`src/common/path.rs:3-6`). -/
inductive Instruction where
  | left
  | right
deriving DecidableEq, Repr

/-- `From<Bit> for Instruction` (`src/common/path.rs:8-15`). -/
def Instruction.ofBit : Bit → Instruction
  | ._0 => .left
  | ._1 => .right

/-- `impl GetBit for u8` (`src/common/msb.rs:11-24`). -/
def getBit (b : UInt8) (bitIndex : Nat) : Option Bit :=
  if bitIndex < 8 then
    let mask : UInt8 := 1 <<< (UInt8.ofNat (7 - bitIndex))
    let bit := b &&& mask
    if bit = 0 then some ._0 else some ._1
  else none

/-- `get_bit_at_index_from_msb` (`src/common/msb.rs:32-39`). -/
def getBitAtIndexFromMsb (bytes : List UInt8) (index : Nat) : Option Bit :=
  let byteIndex := index / 8
  let byteBitIndex := index % 8
  bytes[byteIndex]?.bind fun byte => getBit byte byteBitIndex

/-- The loop of `common_prefix_count` (`src/common/msb.rs:43-51`): `remaining` bits are
left, the next one is number `i`, `count` bits agreed so far. -/
def commonPrefixLoop (a b : List UInt8) : (remaining i count : Nat) → Res Nat
  | 0, _, count => .ok count
  | r + 1, i, count => do
    let lhsBit ← runwrap (getBitAtIndexFromMsb a i)
    let rhsBit ← runwrap (getBitAtIndexFromMsb b i)
    if lhsBit = rhsBit then commonPrefixLoop a b r (i + 1) (count + 1)
    else return count

/-- `common_prefix_count` (`src/common/msb.rs:41-53`). -/
def commonPrefixCount (a b : List UInt8) : Res Nat :=
  commonPrefixLoop a b (a.length * 8) 0 0

/-- `Path::get_instruction` (`src/common/path.rs:29-31`). -/
def getInstruction (path : List UInt8) (index : Nat) : Option Instruction :=
  (getBitAtIndexFromMsb path index).map Instruction.ofBit

/-- `ComparablePath::common_path_length` (`src/common/path.rs:38-40`). -/
def commonPathLength (a b : List UInt8) : Res Nat := commonPrefixCount a b

end FuelMerkle
