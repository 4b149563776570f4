import Verif.Model.Linked

/-
A linked list of subtrees as a list. Used in the statements of the properties.
-/
namespace FuelMerkle
namespace Subtree
variable {T : Type}

/-- The nodes, first node first. -/
def toList : Subtree T → List T
  | .mk n none => [n]
  | .mk n (some s) => n :: s.toList

/-- The nodes of a possibly empty list. -/
def nodes : Option (Subtree T) → List T
  | none => []
  | some s => s.toList

end Subtree
end FuelMerkle
