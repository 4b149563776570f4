import Verif.Spec.Bits
import Verif.Model.PathUser

/-
What a path is, for any type of nodes.
-/
namespace FuelMerkle.Spec

/-- `xs` is the path from `root` in the directions `bit`, with the nodes beside it: it starts at the
root; each item after a node consists of the two children of that node, first the one in the
direction of the next bit; it ends at the first error, at the first node without children, or when
there are no more bits. -/
structure IsPath {T C : Type} (u : UserNode T C) (root : T) (bit : Nat → Option Bool) (xs : List (Except C T × Except C T)) : Prop where
  first : xs[0]? = some (.ok root, .ok root)
  step : ∀ i x, xs[i + 1]? = some x → ∃ n s b, xs[i]? = some (.ok n, s) ∧ u.isNode n = true ∧ bit i = some b ∧
    x = if b then (u.rightChild n, u.leftChild n) else (u.leftChild n, u.rightChild n)
  last : ∀ x, xs[xs.length - 1]? = some x → (∃ e s, x = (.error e, s)) ∨
    ∃ n s, x = (.ok n, s) ∧ (u.isNode n = false ∨ bit (xs.length - 1) = none)

end FuelMerkle.Spec
