import Verif.Spec.BinaryApi

/-
Storage of a binary tree in which no inner node misses a child, and clients that open it at leaf
counts nobody has acknowledged. Used in the statements of the properties.
-/
namespace FuelMerkle
namespace Binary
open Spec
variable {E : Type}

/-- The storage key of the complete subtree number `k` of height `h`. -/
def subtreeKey (h k : Nat) : Nat := 2 ^ h * (2 * k + 1) - 1

/-- For the complete subtrees of a list of leaves the storage has nothing or the right record, and
where it has the record of an inner node it has those of both children. -/
structure Intact (H : HashFn) (ds : List Bytes) (m : Nat → Option Prim) : Prop where
  right : ∀ h k, (k + 1) * 2 ^ h ≤ ds.length → ∀ q, m (subtreeKey h k) = some q →
    q = (subtreeKey h k, mth H ((ds.drop (k * 2 ^ h)).take (2 ^ h)))
  whole : ∀ h k, (k + 1) * 2 ^ (h + 1) ≤ ds.length → m (subtreeKey (h + 1) k) ≠ none →
    m (subtreeKey h (2 * k)) ≠ none ∧ m (subtreeKey h (2 * k + 1)) ≠ none

/-- A client opens the tree at some leaf count, tries to push the leaves that come next in a given
list, so many of them, and ends at the first failure. -/
structure Visit where
  count : Nat
  pushes : Nat
deriving DecidableEq, Repr

/-- The storage after a visit. -/
def Visit.run (p : Profile) (H : HashFn) (ds : List Bytes) (v : Visit) (s : BStore E) : BStore E :=
  match Tree.load p s v.count with
  | (.error _, s') => s'
  | (.ok t, _) => (pushAll p H ((ds.drop v.count).take v.pushes) t).2.storage

/-- The storage after visits, one after the other. -/
def visits (p : Profile) (H : HashFn) (ds : List Bytes) (vs : List Visit) (s : BStore E) : BStore E :=
  vs.foldl (fun s v => v.run p H ds s) s

end Binary
end FuelMerkle
