import Verif.Spec.SumMachine

/-
Storage of sum trees in which no node misses a child, and clients that start one tree after another
on it. Used in the statements of the properties.
-/
namespace FuelMerkle
namespace Sum
open Spec
variable {E : Type}

/-- Wherever the storage has a record with child keys, it has records under these keys. -/
def Linked (m : Bytes32 → Option Node) : Prop :=
  ∀ k n, m k = some n → (∀ l, n.leftChildKey = some l → m l ≠ none) ∧ (∀ r, n.rightChildKey = some r → m r ≠ none)

/-- The storage after some histories of calls, each on a new tree. -/
def lives (p : Profile) (H : HashFn) (zs : List (List Op)) (s : SStore E) : SStore E :=
  zs.foldl (fun s ops => (run p H ops (Tree.new s)).2.storage) s

end Sum
end FuelMerkle
