import Verif.Spec.SumWhole
import Verif.Spec.Shared

/-
Several sum trees open on one storage: a list of leaves for each tree, and one storage. Used in
the statements of the properties.
-/
namespace FuelMerkle
namespace Sum
open Spec
variable {E : Type}

/-- The leaves of each tree, and the storage they share. -/
structure Lists (E : Type) where
  storage : SStore E
  leaves : Nat → List Item

/-- A call on the tree number `x.1`: what the machine of one tree does (`Spec/SumMachine.lean`), with
the leaves of that tree and the common storage; the other trees are not touched. -/
def Lists.step (p : Profile) (H : HashFn) (x : Nat × Op) (c : Lists E) : Out E × Lists E :=
  let (o, m) := Machine.step p H x.2 ⟨c.leaves x.1, c.storage⟩
  (o, { storage := m.storage, leaves := fun j => if j = x.1 then m.leaves else c.leaves j })

/-- A sequence of calls. -/
def Lists.run (p : Profile) (H : HashFn) : List (Nat × Op) → Lists E → List (Out E) × Lists E
  | [], c => ([], c)
  | x :: xs, c =>
    let (o, c') := c.step p H x
    let (os, c'') := Lists.run p H xs c'
    (o :: os, c'')

end Sum
end FuelMerkle
