import Verif.Spec.BinaryApi
import Verif.Spec.SumApi

/-
Failures of the storage during one call of the binary or sum tree. Used in the statements of the
properties.
-/
namespace FuelMerkle

namespace Spec
variable {E : Type}

/-- The storage calls number `a` to `b - 1` succeed. -/
def Calm (sched : Nat → Option (Fault E)) (a b : Nat) : Prop := ∀ n, a ≤ n → n < b → sched n = none

/-- Of the storage calls number `a` to `b - 1` the last one, and only this, fails, with error `e`. -/
def LastFails (sched : Nat → Option (Fault E)) (a b : Nat) (e : E) : Prop :=
  a < b ∧ (∃ applied, sched (b - 1) = some ⟨e, applied⟩) ∧ Calm sched a (b - 1)

end Spec

namespace Binary
variable {E : Type}

/-- The tree over the same storage, which no longer fails. -/
def Tree.healed (t : Tree E) : Tree E := { t with storage := Binary.healed t.storage }

/-- The error or panic a call ends with. -/
def Out.failure : Out E → Option (Fail (Error E))
  | .push (.error e) => some e
  | .root (.error q) => some (.panic q)
  | .prove (.error e) => some e
  | _ => none

end Binary

namespace Sum
variable {E : Type}

/-- The tree over the same storage, which no longer fails. -/
def Tree.healed (t : Tree E) : Tree E := { t with storage := { t.storage with sched := fun _ => none } }

/-- The error or panic a call ends with. -/
def Out.failure : Out E → Option (Fail E)
  | .push (.error e) => some e
  | .root (.error e) => some e
  | _ => none

end Sum
end FuelMerkle
