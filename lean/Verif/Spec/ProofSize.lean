import Verif.Spec.Rfc6962

/-
The length of an audit path, as Certificate Transparency clients compute it. Used in the
statements of the properties.
-/
namespace FuelMerkle.Spec

/-- Number of binary digits: `0` has none. -/
def bitLength (n : Nat) : Nat := if n = 0 then 0 else Nat.log2 n + 1

/-- The levels on which leaf `i` is not on the right edge of the tree of `n` leaves. -/
def innerLevels (i n : Nat) : Nat := bitLength (i ^^^ (n - 1))

/-- The length of the audit path of leaf `i` in the tree of `n` leaves: a sibling for each inner
level, and one for each subtree to the left along the right edge. -/
def pathLength (i n : Nat) : Nat := innerLevels i n + popcount (i >>> innerLevels i n)

end FuelMerkle.Spec
