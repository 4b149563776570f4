import Verif.Spec.ConcurrentBinary
import Verif.Spec.ConcurrentSum
import Verif.Spec.ConcurrentSparse

/-
A call of a binary tree comes to an end. Used in the statements of the properties.
-/
namespace FuelMerkle.Binary
variable {E : Type}

/-- The call came to an end. (`diverges` is what the model says of a loop that does not come to an end.) -/
def Out.Returns : Out E → Prop
  | .push r => r ≠ .error (.panic .diverges)
  | .root r => r ≠ .error .diverges
  | .prove r => r ≠ .error (.panic .diverges)

/-- The same for an action. -/
def Reply.Returns : Reply E → Prop
  | .new => True
  | .load r => r ≠ .error (.panic .diverges)
  | .call o => o.Returns

end FuelMerkle.Binary
