import Verif.Model.Msb
import Verif.Model.Position
import Verif.Spec.Bits
import Verif.Proofs.Exec

/-
Bit addressing.
-/
namespace FuelMerkle
open Spec

/-- A bit as a Boolean. -/
def Bit.ofBool : Bool → Bit
  | true => ._1
  | false => ._0

def Bit.toBool : Bit → Bool
  | ._1 => true
  | ._0 => false

@[simp] theorem Bit.toBool_ofBool (b : Bool) : (Bit.ofBool b).toBool = b := by cases b <;> rfl

theorem Bit.ofBool_inj {a b : Bool} : Bit.ofBool a = Bit.ofBool b ↔ a = b := by
  cases a <;> cases b <;> simp [Bit.ofBool]

theorem bitsOfByte_length (b : UInt8) : (bitsOfByte b).length = 8 := rfl

theorem bitsOf_length (bs : List UInt8) : (bitsOf bs).length = 8 * bs.length := by
  induction bs with
  | nil => rfl
  | cons b bs ih =>
    simp only [bitsOf, List.flatMap_cons, List.length_append, bitsOfByte_length] at *
    simp only [List.length_cons]; omega

theorem getBit_table : ∀ n, n < 256 → ∀ i, i < 8 →
    getBit (UInt8.ofNat n) i = some (Bit.ofBool (n / 2 ^ (7 - i) % 2 == 1)) := by
  decide +kernel

theorem bitsOfByte_get (b : UInt8) {i : Nat} (hi : i < 8) :
    (bitsOfByte b)[i]? = some (b.toNat / 2 ^ (7 - i) % 2 == 1) := by
  unfold bitsOfByte
  match i, hi with
  | 0, _ | 1, _ | 2, _ | 3, _ | 4, _ | 5, _ | 6, _ | 7, _ => rfl

theorem getBit_eq (b : UInt8) (i : Nat) :
    getBit b i = (bitsOfByte b)[i]?.map Bit.ofBool := by
  by_cases hi : i < 8
  · have := getBit_table b.toNat b.toNat_lt i hi
    rw [UInt8.ofNat_toNat] at this
    rw [this, bitsOfByte_get b hi]; rfl
  · have : (bitsOfByte b)[i]? = none := by
      rw [List.getElem?_eq_none_iff, bitsOfByte_length]; omega
    rw [this, getBit, if_neg hi]; rfl

theorem bitsOf_get (bytes : List UInt8) (i : Nat) :
    (bitsOf bytes)[i]? = bytes[i / 8]?.bind fun b => (bitsOfByte b)[i % 8]? := by
  induction bytes generalizing i with
  | nil => simp [bitsOf]
  | cons b bs ih =>
    have e : bitsOf (b :: bs) = bitsOfByte b ++ bitsOf bs := rfl
    rw [e]
    by_cases hi : i < 8
    · rw [List.getElem?_append_left (by rw [bitsOfByte_length]; exact hi)]
      rw [Nat.div_eq_of_lt hi, Nat.mod_eq_of_lt hi]; rfl
    · rw [List.getElem?_append_right (by rw [bitsOfByte_length]; omega), bitsOfByte_length, ih]
      have h1 : i / 8 = (i - 8) / 8 + 1 := by omega
      have h2 : i % 8 = (i - 8) % 8 := by omega
      rw [h1, h2]; rfl

theorem getBitAtIndexFromMsb_eq (bytes : List UInt8) (i : Nat) :
    getBitAtIndexFromMsb bytes i = (bitsOf bytes)[i]?.map Bit.ofBool := by
  unfold getBitAtIndexFromMsb
  rw [bitsOf_get]
  simp only [getBit_eq]
  cases bytes[i / 8]? <;> rfl

theorem beNat_lt (bs : List UInt8) : beNat bs < 2 ^ (8 * bs.length) := by
  induction bs with
  | nil => simp [beNat]
  | cons b bs ih =>
    have h1 := b.toNat_lt
    have e : (256 : Nat) ^ bs.length = 2 ^ (8 * bs.length) := by
      rw [Nat.pow_mul]
    simp only [beNat, List.length_cons, e]
    rw [show 8 * (bs.length + 1) = 8 * bs.length + 8 by omega, Nat.pow_add]
    have : b.toNat * 2 ^ (8 * bs.length) ≤ 255 * 2 ^ (8 * bs.length) :=
      Nat.mul_le_mul_right _ (by omega)
    omega

/-- Bit `i` from the most significant end is binary digit `8·len - 1 - i` of the number. -/
theorem bitsOf_get_beNat (bytes : List UInt8) {i : Nat} (hi : i < 8 * bytes.length) :
    (bitsOf bytes)[i]? = some ((beNat bytes).testBit (8 * bytes.length - 1 - i)) := by
  induction bytes generalizing i with
  | nil => simp at hi
  | cons b bs ih =>
    have e : bitsOf (b :: bs) = bitsOfByte b ++ bitsOf bs := rfl
    have e2 : (256 : Nat) ^ bs.length = 2 ^ (8 * bs.length) := by rw [Nat.pow_mul]
    have hlt := beNat_lt bs
    simp only [List.length_cons] at hi ⊢
    rw [e]
    simp only [beNat, e2]
    rw [Nat.mul_comm b.toNat]
    by_cases h8 : i < 8
    · rw [List.getElem?_append_left (by rw [bitsOfByte_length]; exact h8), bitsOfByte_get b h8]
      rw [Nat.testBit_two_pow_mul_add _ hlt, if_neg (by omega)]
      rw [show 8 * (bs.length + 1) - 1 - i - 8 * bs.length = 7 - i by omega,
        Nat.testBit_eq_decide_div_mod_eq]
      rfl
    · rw [List.getElem?_append_right (by rw [bitsOfByte_length]; omega), bitsOfByte_length]
      rw [ih (by omega), Nat.testBit_two_pow_mul_add _ hlt, if_pos (by omega)]
      congr 2; omega

/-! ### Common prefix -/

theorem lcp_le_left {α : Type} [DecidableEq α] (a b : List α) : lcp a b ≤ a.length := by
  induction a generalizing b with
  | nil => simp [lcp]
  | cons x xs ih =>
    cases b with
    | nil => simp [lcp]
    | cons y ys =>
      simp only [lcp, List.length_cons]
      have := ih ys
      split <;> omega

theorem lcp_comm {α : Type} [DecidableEq α] (a b : List α) : lcp a b = lcp b a := by
  induction a generalizing b with
  | nil => cases b <;> simp [lcp]
  | cons x xs ih =>
    cases b with
    | nil => simp [lcp]
    | cons y ys =>
      simp only [lcp, ih ys]
      by_cases h : x = y
      · simp [h]
      · simp [h, Ne.symm h]

theorem lcp_self {α : Type} [DecidableEq α] (a : List α) : lcp a a = a.length := by
  induction a with
  | nil => simp [lcp]
  | cons x xs ih => simp [lcp, ih]

theorem lcp_get {α : Type} [DecidableEq α] (a b : List α) {i : Nat} (hi : i < lcp a b) :
    a[i]? = b[i]? := by
  induction a generalizing b i with
  | nil => simp [lcp] at hi
  | cons x xs ih =>
    cases b with
    | nil => simp [lcp] at hi
    | cons y ys =>
      simp only [lcp] at hi
      split at hi
      · rename_i h
        cases i with
        | zero => simp [h]
        | succ i => simpa using ih ys (by omega)
      · omega

theorem lcp_get_ne {α : Type} [DecidableEq α] (a b : List α) (ha : lcp a b < a.length)
    (hb : lcp a b < b.length) : a[lcp a b]? ≠ b[lcp a b]? := by
  induction a generalizing b with
  | nil => simp at ha
  | cons x xs ih =>
    cases b with
    | nil => simp at hb
    | cons y ys =>
      by_cases h : x = y
      · have e : lcp (x :: xs) (y :: ys) = lcp xs ys + 1 := by simp [lcp, h]
        rw [e] at ha hb ⊢
        simp only [List.length_cons] at ha hb
        simpa using ih ys (by omega) (by omega)
      · have e : lcp (x :: xs) (y :: ys) = 0 := by simp [lcp, h]
        rw [e]; simpa using h

theorem lcp_eq_of {α : Type} [DecidableEq α] (a b : List α) {n : Nat} (hn : n < a.length)
    (heq : ∀ i, i < n → a[i]? = b[i]?) (hne : a[n]? ≠ b[n]?) : lcp a b = n := by
  induction a generalizing b n with
  | nil => simp at hn
  | cons x xs ih =>
    cases b with
    | nil =>
      cases n with
      | zero => simp [lcp]
      | succ n => simpa using heq 0 (by omega)
    | cons y ys =>
      cases n with
      | zero =>
        have : x ≠ y := by simpa using hne
        simp [lcp, this]
      | succ n =>
        have h0 : x = y := by simpa using heq 0 (by omega)
        have := ih ys (n := n) (by simpa using hn)
          (fun i hi => by simpa using heq (i + 1) (by omega)) (by simpa using hne)
        simp [lcp, h0, this]

theorem lcp_append {α : Type} [DecidableEq α] (c a b : List α) :
    lcp (c ++ a) (c ++ b) = c.length + lcp a b := by
  induction c with
  | nil => simp
  | cons x xs ih => simp [lcp, ih]; omega

theorem commonPrefixLoop_eq (a b : List UInt8) (hlen : a.length = b.length) (r i count : Nat)
    (hr : i + r = 8 * a.length) :
    commonPrefixLoop a b r i count =
      .ok (count + lcp ((bitsOf a).drop i) ((bitsOf b).drop i)) := by
  induction r generalizing i count with
  | zero =>
    have : (bitsOf a).drop i = [] := by
      apply List.drop_eq_nil_of_le; rw [bitsOf_length]; omega
    simp [commonPrefixLoop, this, lcp]
  | succ r ih =>
    have ha : i < (bitsOf a).length := by rw [bitsOf_length]; omega
    have hb : i < (bitsOf b).length := by rw [bitsOf_length]; omega
    rw [commonPrefixLoop, getBitAtIndexFromMsb_eq, getBitAtIndexFromMsb_eq,
      List.getElem?_eq_getElem ha, List.getElem?_eq_getElem hb,
      List.drop_eq_getElem_cons ha, List.drop_eq_getElem_cons hb]
    simp only [Option.map_some, runwrap, Res.ok_bind, Bit.ofBool_inj, lcp]
    split
    · rw [ih (i + 1) (count + 1) (by omega)]; congr 1; omega
    · rfl

theorem commonPrefixCount_eq (a b : List UInt8) (hlen : a.length = b.length) :
    commonPrefixCount a b = .ok (lcp (bitsOf a) (bitsOf b)) := by
  unfold commonPrefixCount
  rw [commonPrefixLoop_eq a b hlen _ _ _ (by omega)]
  simp

/-! ### `u64::to_be_bytes` -/

theorem u64ToBeBytes_length (x : Nat) : (u64ToBeBytes x).length = 8 := by
  simp [u64ToBeBytes]

theorem beNat_u64ToBeBytes {x : Nat} (hx : x < 2 ^ 64) : beNat (u64ToBeBytes x) = x := by
  have e : u64ToBeBytes x = [UInt8.ofNat (x / 256 ^ 7), UInt8.ofNat (x / 256 ^ 6),
    UInt8.ofNat (x / 256 ^ 5), UInt8.ofNat (x / 256 ^ 4), UInt8.ofNat (x / 256 ^ 3),
    UInt8.ofNat (x / 256 ^ 2), UInt8.ofNat (x / 256 ^ 1), UInt8.ofNat (x / 256 ^ 0)] := rfl
  rw [e]
  simp only [beNat, List.length_cons, List.length_nil, UInt8.toNat_ofNat']
  omega

theorem u64ToBeBytes_injective {x y : Nat} (hx : x < 2 ^ 64) (hy : y < 2 ^ 64)
    (e : u64ToBeBytes x = u64ToBeBytes y) : x = y := by
  rw [← beNat_u64ToBeBytes hx, ← beNat_u64ToBeBytes hy, e]

theorem getBit_u64 {x j : Nat} (hx : x < 2 ^ 64) (hj : j < 64) :
    getInstruction (u64ToBeBytes x) j =
      some (if x.testBit (63 - j) then .right else .left) := by
  unfold getInstruction
  rw [getBitAtIndexFromMsb_eq, bitsOf_get_beNat _ (by rw [u64ToBeBytes_length]; omega),
    u64ToBeBytes_length, beNat_u64ToBeBytes hx]
  simp only [Option.map_some, Nat.reduceMul]
  rw [show 64 - 1 - j = 63 - j by omega]
  cases x.testBit (63 - j) <;> rfl

end FuelMerkle
