import Verif.Spec.BinaryApi
import Verif.Spec.SumApi
import Verif.Spec.SparseApi

/-
Build profiles compared.
-/
namespace FuelMerkle

/-- `q` has all the checks of `p`: overflow checks and debug assertions. A debug build is
stricter than every build. -/
def Stricter (q p : Profile) : Prop :=
  (p.overflowChecks = true → q.overflowChecks = true) ∧ (p.debugAssertions = true → q.debugAssertions = true)

/-- The result of a call is a panic. -/
def Panicked {ε α : Type} (r : Except (Fail ε) α) : Prop := ∃ x, r = .error (.panic x)

/-- A call of the binary tree panicked. -/
def Binary.Out.Panicked {E : Type} : Binary.Out E → Prop
  | .push r => FuelMerkle.Panicked r
  | .root r => ∃ x, r = .error x
  | .prove r => FuelMerkle.Panicked r

/-- A call of the sum tree panicked. -/
def Sum.Out.Panicked {E : Type} : Sum.Out E → Prop
  | .push r => FuelMerkle.Panicked r
  | .root r => FuelMerkle.Panicked r

end FuelMerkle
