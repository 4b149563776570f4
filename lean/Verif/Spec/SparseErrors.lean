import Verif.Spec.SparseApi

/-
Where the errors of the sparse tree come from. Used in the statements of the properties.
-/
namespace FuelMerkle
namespace Sparse
variable {E : Type}

/-- The error reports a failure of the storage during its calls number `from` to `to - 1`: it is
`StorageError`, or `ChildError` around it, and carries the error of the storage. -/
def Reported (sched : Nat → Option (Fault E)) («from» to : Nat) (e : Error E) : Prop :=
  ∃ n f, «from» ≤ n ∧ n < to ∧ sched n = some f ∧ (e = .storageError f.err ∨ e = .childError (.error (.storageError f.err)))

end Sparse
end FuelMerkle
