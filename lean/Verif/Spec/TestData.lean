import Verif.Model.TestData
import Verif.Spec.SparseApi

/-
What the values and the tests of the data-driven tests mean, and a concrete `hex` and `base64`.
-/
namespace FuelMerkle
namespace TestData

/-- Encoding and decoding undo each other; text that is UTF-8 passes the lossy conversion
unchanged. -/
structure Codecs.Lawful (C : Codecs) : Prop where
  base64 : ∀ b, C.base64Decode (C.base64Encode b) = some b
  hex : ∀ b, C.hexDecode (C.hexEncode b) = some b
  utf8 : ∀ s, C.fromUtf8Lossy (utf8Bytes s) = s

/-- The value stands for these bytes. -/
def EncodedValue.Means (C : Codecs) (v : EncodedValue) (b : Bytes) : Prop :=
  match v.encoding with
  | .base64 => C.base64Decode v.value = some b
  | .hex => C.hexDecode v.value = some b
  | .utf8 => utf8Bytes v.value = b

/-- The values stand, one by one, for these 32-byte strings. -/
def Reads (C : Codecs) : List EncodedValue → List Bytes32 → Prop
  | [], [] => True
  | v :: vs, x :: xs => v.Means C x.val ∧ Reads C vs xs
  | _, _ => False

/-- The step stands for this call. -/
def Step.Means (C : Codecs) (s : Step) : Sparse.Op → Prop
  | .update k d => s.action = "update" ∧ (∃ v, s.key = some v ∧ v.Means C k.val) ∧ ∃ v, s.data = some v ∧ v.Means C d
  | .delete k => s.action = "delete" ∧ ∃ v, s.key = some v ∧ v.Means C k.val

/-- The steps stand, one by one, for these calls. -/
def StepsMean (C : Codecs) : List Step → List Sparse.Op → Prop
  | [], [] => True
  | s :: ss, o :: os => s.Means C o ∧ StepsMean C ss os
  | _, _ => False

/-! ### Hexadecimal -/

def hexDigits : List Char := "0123456789abcdef".toList

/-- The digit of a number below 16. -/
def hexChar (n : Nat) : Char := hexDigits.getD n '?'

/-- The number of a digit; both cases are accepted. -/
def hexVal (c : Char) : Option Nat :=
  if '0' ≤ c ∧ c ≤ '9' then some (c.toNat - 48)
  else if 'a' ≤ c ∧ c ≤ 'f' then some (c.toNat - 87)
  else if 'A' ≤ c ∧ c ≤ 'F' then some (c.toNat - 55)
  else none

def hexEncodeChars : Bytes → List Char
  | [] => []
  | b :: bs => hexChar (b.toNat / 16) :: hexChar (b.toNat % 16) :: hexEncodeChars bs

def hexDecodeChars : List Char → Option Bytes
  | [] => some []
  | c :: d :: cs => do
    let h ← hexVal c
    let l ← hexVal d
    let bs ← hexDecodeChars cs
    return UInt8.ofNat (16 * h + l) :: bs
  | _ => none

/-! ### Base64 with padding (RFC 4648, section 4) -/

def b64Digits : List Char := "ABCDEFGHIJKLMNOPQRSTUVWXYZabcdefghijklmnopqrstuvwxyz0123456789+/".toList

def b64Char (n : Nat) : Char := b64Digits.getD n '?'

def b64Val (c : Char) : Option Nat :=
  if 'A' ≤ c ∧ c ≤ 'Z' then some (c.toNat - 65)
  else if 'a' ≤ c ∧ c ≤ 'z' then some (c.toNat - 71)
  else if '0' ≤ c ∧ c ≤ '9' then some (c.toNat + 4)
  else if c = '+' then some 62
  else if c = '/' then some 63
  else none

def b64EncodeChars : Bytes → List Char
  | [] => []
  | [a] => [b64Char (a.toNat / 4), b64Char (a.toNat % 4 * 16), '=', '=']
  | [a, b] => [b64Char (a.toNat / 4), b64Char (a.toNat % 4 * 16 + b.toNat / 16), b64Char (b.toNat % 16 * 4), '=']
  | a :: b :: c :: bs =>
    b64Char (a.toNat / 4) :: b64Char (a.toNat % 4 * 16 + b.toNat / 16) ::
      b64Char (b.toNat % 16 * 4 + c.toNat / 64) :: b64Char (c.toNat % 64) :: b64EncodeChars bs

def b64DecodeChars : List Char → Option Bytes
  | [] => some []
  | x :: y :: z :: w :: cs =>
    if w = '=' ∧ cs = [] then
      if z = '=' then do
        let p ← b64Val x
        let q ← b64Val y
        if q % 16 = 0 then return [UInt8.ofNat (p * 4 + q / 16)] else none
      else do
        let p ← b64Val x
        let q ← b64Val y
        let r ← b64Val z
        if r % 4 = 0 then return [UInt8.ofNat (p * 4 + q / 16), UInt8.ofNat (q % 16 * 16 + r / 4)] else none
    else do
      let p ← b64Val x
      let q ← b64Val y
      let r ← b64Val z
      let s ← b64Val w
      let bs ← b64DecodeChars cs
      return UInt8.ofNat (p * 4 + q / 16) :: UInt8.ofNat (q % 16 * 16 + r / 4) :: UInt8.ofNat (r % 4 * 64 + s) :: bs
  | _ => none

/-- Concrete codecs. Bytes that are not UTF-8 become one replacement character here. -/
def standard : Codecs where
  base64Encode b := String.ofList (b64EncodeChars b)
  base64Decode s := b64DecodeChars s.toList
  hexEncode b := String.ofList (hexEncodeChars b)
  hexDecode s := hexDecodeChars s.toList
  fromUtf8Lossy b := (String.fromUTF8? ⟨b.toArray⟩).getD "�"

end TestData
end FuelMerkle
