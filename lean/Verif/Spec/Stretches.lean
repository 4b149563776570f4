import Verif.Model.Basic

/-
Which stretches of the leaves become subtrees of a tree that grows leaf by leaf.
-/
namespace FuelMerkle
namespace Spec

/-- The last `n` leaves. -/
def lastOf {α : Type} (ds : List α) (n : Nat) : List α := ds.drop (ds.length - n)

/-- The trees a push completes when it makes `n` leaves: over the last `2^h`, for all `2^h`
dividing `n`. -/
def pushSizes (n : Nat) : List Nat := (List.range 64).filterMap fun h => if n % 2 ^ h = 0 then some (2 ^ h) else none

/-- The trees `root` makes of the complete ones when there are `n` leaves: over the last `n % 2^(h+1)`,
for every bit `h` of `n` that is set, but not for the lowest of them. -/
def rootSizes (n : Nat) : List Nat :=
  (List.range 64).filterMap fun h => if n.testBit h = true ∧ n % 2 ^ h ≠ 0 then some (n % 2 ^ (h + 1)) else none

end Spec
end FuelMerkle
