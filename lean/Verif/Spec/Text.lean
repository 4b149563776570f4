import Verif.Spec.Bits

/-
What it means for a text to be the hexadecimal or decimal form of something, independently of the
code: the digits are read back.
-/
namespace FuelMerkle.Spec

/-- The digits, in order of their value. -/
def digits : List Char := "0123456789abcdef".toList

/-- The number that a sequence of digits stands for. -/
def valueIn (base : Nat) (text : List Char) : Nat := text.foldl (fun v c => v * base + digits.idxOf c) 0

/-- The text is the lower case hexadecimal form of the bytes, two digits for each of them. -/
def IsHex (text : List Char) (bytes : List UInt8) : Prop :=
  text.length = 2 * bytes.length ∧ (∀ c ∈ text, c ∈ digits) ∧ valueIn 16 text = beNat bytes

/-- The text is the decimal form of the number, without leading zeros. -/
def IsDecimal (text : List Char) (n : Nat) : Prop :=
  text ≠ [] ∧ (∀ c ∈ text, c ∈ digits.take 10) ∧ valueIn 10 text = n ∧ (text.head? = some '0' → text = ['0'])

/-- The text is the form of an array of numbers: decimal forms between brackets, separated by a
comma and a space. -/
def IsArray (text : List Char) (ns : List Nat) : Prop :=
  ∃ items : List (List Char), items.length = ns.length ∧
    (∀ (i : Nat) (t : List Char) (n : Nat), items[i]? = some t → ns[i]? = some n → IsDecimal t n) ∧ text = ['['] ++ List.intercalate ", ".toList items ++ [']']

end FuelMerkle.Spec
