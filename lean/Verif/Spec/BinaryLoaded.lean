import Verif.Spec.BinaryMachine

/-
Opening a binary tree from its storage, for the machine of `Spec/BinaryMachine.lean`.
-/
namespace FuelMerkle
namespace Binary
open Spec
variable {E : Type}

/-- The leaves of a stretch, given by its first leaf and its length. -/
def stretch (ds : List Bytes) (x : Nat × Nat) : List Bytes := (ds.drop x.1).take x.2

/-- The key of a complete subtree, given by its first leaf and its number of leaves. -/
def topKey (x : Nat × Nat) : Nat := 2 * x.1 + x.2 - 1

/-- No key of a largest complete subtree of the leaves `ds` has a record of other leaves. The storage
may lack some, and anything may be stored under other keys. -/
def Believable (H : HashFn) (ds : List Bytes) (s : BStore E) : Prop :=
  ∀ x ∈ peaks 64 0 ds.length, s.map (topKey x) = none ∨ s.map (topKey x) = some (topKey x, mth H (stretch ds x))

/-- Open the tree of the leaves `ds`: read the records of the largest complete subtrees, from the left,
until a read fails or finds nothing. -/
def Machine.open (ds : List Bytes) (s : BStore E) : Except (Fail (Error E)) (Machine E) × BStore E :=
  match readHashes [] ((peaks 64 0 ds.length).map topKey) s with
  | (.ok _, s') => (.ok ⟨ds.length, ds, s'⟩, s')
  | (.error e, s') => (.error e, s')

end Binary
end FuelMerkle
