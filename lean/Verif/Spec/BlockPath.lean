import Verif.Spec.Rfc6962

/-
The subtrees met on the way to a leaf number that need not exist, for a root that need not be
the root of a tree.
-/
namespace FuelMerkle.Spec

/-- The number of leaf numbers below the root of the tree over `r` leaves when that root is
drawn as the root of a complete tree: the least power of two that is at least `r`; no leaf
number for the empty tree. -/
def blockSize (r : Nat) : Nat := if r = 0 then 0 else 2 ^ ceilLog2 r

/-- The way from the root of the tree over the `r` leaves `a, …, a + r - 1` towards leaf
number `i`, as far as it goes: a subtree is on the way if `i` is one of the leaf numbers
below its root, whether that leaf exists or not. For `i < a + r` this is `shapePath`
(`blockPath_eq_shapePath`). -/
def blockPath (a r i : Nat) (side : Nat × Nat) : List ((Nat × Nat) × (Nat × Nat)) :=
  if a + blockSize r ≤ i then []
  else if h : 1 < r then
    have := split_spec h
    have : 0 < split r := by obtain ⟨⟨e, he⟩, _⟩ := this; rw [he]; exact Nat.two_pow_pos e
    ((a, r), side) ::
      if i < a + split r then blockPath a (split r) i (a + split r, r - split r)
      else blockPath (a + split r) (r - split r) i (a, split r)
  else [((a, r), side)]
termination_by r
decreasing_by all_goals omega

end FuelMerkle.Spec
