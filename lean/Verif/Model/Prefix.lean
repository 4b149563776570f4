import Verif.Model.Basic

/-
Node prefixes: `/repo/src/common/prefix.rs`, and the errors of `/repo/src/common/error.rs`.
-/
namespace FuelMerkle

/-- `enum Prefix` (`src/common/prefix.rs:4-9`). -/
inductive Prefix where
  | node
  | leaf
deriving DecidableEq, Repr

/-- `Default for Prefix` (`src/common/prefix.rs:11-15`). -/
def Prefix.default : Prefix := .leaf

/-- `From<Prefix> for u8` and `Prefix as u8` (`src/common/prefix.rs:1-2, 5-9, 17-24`). -/
def Prefix.toU8 : Prefix → UInt8
  | .node => 0x01
  | .leaf => 0x00

/-- `AsRef<[u8]> for Prefix` (`src/common/prefix.rs:54-61`; the `[u8; 1]` variants at
26-33 and 63-70 are the same bytes). -/
def Prefix.bytes : Prefix → Bytes
  | .node => [0x01]
  | .leaf => [0x00]

/-- `PrefixError` (`src/common/prefix.rs:37-40`), which is also the only payload of
`DeserializeError` (`src/common/error.rs:5-8`). -/
inductive DeserializeError where
  | invalidPrefix (byte : UInt8)
deriving DecidableEq, Repr

/-- `TryFrom<u8> for Prefix` (`src/common/prefix.rs:42-52`). -/
def Prefix.ofU8 (byte : UInt8) : Except DeserializeError Prefix :=
  if byte = 0x01 then .ok .node
  else if byte = 0x00 then .ok .leaf
  else .error (.invalidPrefix byte)

end FuelMerkle
