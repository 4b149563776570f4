import Verif.Spec.BinaryLoaded

/-
What has to stay in the storage of a binary tree so that it can be continued.
-/
namespace FuelMerkle
namespace Binary
open Spec

/-- The records of the largest complete subtrees of the leaves `ds` are there: one for each binary
digit one of the number of leaves. Nothing is said about other keys. -/
def HasPeaks (H : HashFn) (ds : List Bytes) (m : Nat → Option Prim) : Prop :=
  ∀ x ∈ peaks 64 0 ds.length, m (topKey x) = some (topKey x, mth H (stretch ds x))

end Binary
end FuelMerkle
