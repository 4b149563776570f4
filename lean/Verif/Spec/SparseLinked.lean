import Verif.Spec.SparseMachine

/-
Storage in which no inner node misses a child. Used in the statements of the properties.
-/
namespace FuelMerkle
namespace Sparse
open Spec

/-- Wherever the storage has the record of an inner node, it has records under both child hashes in
it (the zero hash stands for an empty child and has no record). -/
def Linked (m : Bytes32 → Option Prim) : Prop :=
  ∀ x h l r, m x = some (h, 0x01, l, r) → (l ≠ zero32 → m l ≠ none) ∧ (r ≠ zero32 → m r ≠ none)

end Sparse
end FuelMerkle
