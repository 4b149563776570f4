/-
Machine layer of the model: build profiles, panics, checked/wrapping integer
arithmetic, and the state-and-failure monad used by the tree models.

Nothing in this file models a particular file of /repo; it models the Rust
language constructs that /repo uses.
-/
namespace FuelMerkle

/-- The size of pointers on the target, and so of `usize`. -/
inductive Pointers where
  | w32
  | w64
deriving DecidableEq, Repr

/-- The number of bits of `usize`. -/
def Pointers.bits : Pointers → Nat
  | w32 => 32
  | w64 => 64

instance {P : Pointers → Prop} [h₁ : Decidable (P .w32)] [h₂ : Decidable (P .w64)] : Decidable (∀ w, P w) :=
  decidable_of_iff (P .w32 ∧ P .w64) ⟨fun h w => match w with | .w32 => h.1 | .w64 => h.2, fun h => ⟨h _, h _⟩⟩

/-- A Rust build, as far as it is observable: whether integer overflow panics
(`-C overflow-checks`), whether `debug_assert!` is compiled in, and the pointer size of the
target. -/
structure Profile where
  overflowChecks : Bool
  debugAssertions : Bool
  pointers : Pointers
deriving DecidableEq, Repr

/-- The ways a Rust computation in this crate can panic. `diverges` is not a Rust
panic: it is the value returned by a modelled loop when its fuel runs out, and is
proved unreachable. -/
inductive Panic where
  | overflow
  | assertion
  | debugAssertion
  | unwrapNone
  | indexOutOfBounds
  | diverges
deriving DecidableEq, Repr

/-- A computation that may panic. -/
abbrev Res (α : Type) := Except Panic α

/-! ### Unsigned and signed machine integers

`u64` values are natural numbers below `2^64`, `u32` values are below `2^32`, `usize` values
are below `2^32` or `2^64` depending on the target, `i64` values are integers in
`[-2^63, 2^63)`. A cast from `u32` to `usize` keeps the value on both targets. -/

/-- `a + b` on `u64`. -/
def u64Add (p : Profile) (a b : Nat) : Res Nat :=
  if a + b < 2 ^ 64 then .ok (a + b)
  else if p.overflowChecks then .error .overflow
  else .ok ((a + b) % 2 ^ 64)

/-- `a - b` on `u64`. -/
def u64Sub (p : Profile) (a b : Nat) : Res Nat :=
  if b ≤ a then .ok (a - b)
  else if p.overflowChecks then .error .overflow
  else .ok (a + 2 ^ 64 - b)

/-- `a - b` on `usize`. (`b % 2 ^ bits` is `b` for every value that `usize` has.) -/
def usizeSub (p : Profile) (a b : Nat) : Res Nat :=
  if b ≤ a then .ok (a - b)
  else if p.overflowChecks then .error .overflow
  else .ok (a + 2 ^ p.pointers.bits - b % 2 ^ p.pointers.bits)

/-- `a * b` on `u64`. -/
def u64Mul (p : Profile) (a b : Nat) : Res Nat :=
  if a * b < 2 ^ 64 then .ok (a * b)
  else if p.overflowChecks then .error .overflow
  else .ok ((a * b) % 2 ^ 64)

/-- `a + b` on `u32`. -/
def u32Add (p : Profile) (a b : Nat) : Res Nat :=
  if a + b < 2 ^ 32 then .ok (a + b)
  else if p.overflowChecks then .error .overflow
  else .ok ((a + b) % 2 ^ 32)

/-- `!x` on `u64`. -/
def u64Not (x : Nat) : Nat := 2 ^ 64 - 1 - x

/-- Number of trailing zero bits among the `fuel` lowest bits. -/
def tz : Nat → Nat → Nat
  | 0, _ => 0
  | fuel + 1, x => if x % 2 = 1 then 0 else 1 + tz fuel (x / 2)

/-- `x.trailing_zeros()` on `u64` (64 for zero). -/
def u64TrailingZeros (x : Nat) : Nat := tz 64 x

/-- The shift amount actually used by `1 << n` on a 64-bit type: an amount of 64 or
more panics under overflow checks and is masked otherwise. -/
def shiftAmount (p : Profile) (n : Nat) : Res Nat :=
  if n < 64 then .ok n
  else if p.overflowChecks then .error .overflow
  else .ok (n % 64)

/-- `1u64 << n`. -/
def u64Shl1 (p : Profile) (n : Nat) : Res Nat := do
  let n ← shiftAmount p n
  return 2 ^ n

/-- `1i64 << n`: shifting into the sign bit is not an overflow in Rust. -/
def i64Shl1 (p : Profile) (n : Nat) : Res Int := do
  let n ← shiftAmount p n
  return if n = 63 then -(2 ^ 63 : Int) else (2 ^ n : Int)

/-- Two's complement reinterpretation `x as i64` of a `u64`. -/
def asI64 (x : Nat) : Int := if x < 2 ^ 63 then (x : Int) else (x : Int) - 2 ^ 64

/-- Two's complement reinterpretation `x as u64` of an `i64`. -/
def asU64 (x : Int) : Nat := (x % 2 ^ 64).toNat

/-- Keep an exact result if it is an `i64`, otherwise overflow. -/
def i64Check (p : Profile) (x : Int) : Res Int :=
  if -(2 ^ 63 : Int) ≤ x ∧ x < 2 ^ 63 then .ok x
  else if p.overflowChecks then .error .overflow
  else .ok (asI64 (asU64 x))

/-- `a + b` on `i64`. -/
def i64Add (p : Profile) (a b : Int) : Res Int := i64Check p (a + b)

/-- `a * b` on `i64`. -/
def i64Mul (p : Profile) (a b : Int) : Res Int := i64Check p (a * b)

/-- `x.next_power_of_two()` on `u64`, following the core library: one less than the
next power of two, plus one, where the final addition may overflow. -/
def u64NextPowerOfTwo (p : Profile) (x : Nat) : Res Nat :=
  let oneLess := if x ≤ 1 then 0 else 2 ^ (Nat.log2 (x - 1) + 1) - 1
  u64Add p oneLess 1

/-- `assert!(b)`. -/
def rassert (b : Bool) : Res Unit := if b then .ok () else .error .assertion

/-- `debug_assert!(b)`. -/
def rdebugAssert (p : Profile) (b : Bool) : Res Unit :=
  if p.debugAssertions then (if b then .ok () else .error .debugAssertion) else .ok ()

/-- `Option::unwrap` / `Option::expect`. -/
def runwrap {α : Type} : Option α → Res α
  | some a => .ok a
  | none => .error .unwrapNone

/-! ### Stateful computations that may fail

A `&mut self` method returning `Result` is a function from the state to the result
*and* the state it leaves behind; the state is returned also when the call fails or
panics. -/

/-- Failure of a call: an `Err` value or a panic. -/
inductive Fail (ε : Type) where
  | err (e : ε)
  | panic (p : Panic)
deriving DecidableEq, Repr

/-- State-passing computations with failure; the state survives a failure. -/
def Exec (σ ε α : Type) := σ → Except ε α × σ

namespace Exec
variable {σ ε α β : Type}

def run (x : Exec σ ε α) (s : σ) : Except ε α × σ := x s

protected def pure (a : α) : Exec σ ε α := fun s => (.ok a, s)

protected def bind (x : Exec σ ε α) (f : α → Exec σ ε β) : Exec σ ε β := fun s =>
  match x s with
  | (.ok a, s') => f a s'
  | (.error e, s') => (.error e, s')

instance : Monad (Exec σ ε) where
  pure := Exec.pure
  bind := Exec.bind

/-- Read the state. -/
def get : Exec σ ε σ := fun s => (.ok s, s)

/-- Change the state. -/
def modify (f : σ → σ) : Exec σ ε Unit := fun s => (.ok (), f s)

/-- Fail, keeping the state. -/
def throw (e : ε) : Exec σ ε α := fun s => (.error e, s)

/-- Run a computation that may only panic. -/
def liftRes {σ ε : Type} (x : Res α) : Exec σ (Fail ε) α := fun s =>
  match x with
  | .ok a => (.ok a, s)
  | .error p => (.error (.panic p), s)

end Exec

/-! ### Bytes -/

/-- A byte string (`&[u8]`). -/
abbrev Bytes := List UInt8

/-- `[u8; 32]` (`src/common.rs:29`). -/
abbrev Bytes32 := { l : List UInt8 // l.length = 32 }

/-- A hash function from byte strings to 32-byte digests (the role of `sha2::Sha256`;
`update(a); update(b)` is hashing `a ++ b`). -/
abbrev HashFn := Bytes → Bytes32

end FuelMerkle
