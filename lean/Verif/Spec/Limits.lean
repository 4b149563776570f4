import Verif.Model.Basic

/-!
How many leaves a binary tree can have. Positions are computed in `i64`; with overflow checks
the right child of the position of height 63 is out of range, without them it comes out right.
-/
namespace FuelMerkle

/-- The largest height of a position whose children the build computes. -/
def Profile.topHeight (p : Profile) : Nat := if p.overflowChecks then 62 else 63

/-- The number of leaves that `load` and `prove` do not support any more: `2^62` in a build
with overflow checks, `2^63` in a build without. -/
def Profile.leafLimit (p : Profile) : Nat := if p.overflowChecks then 2 ^ 62 else 2 ^ 63

theorem Profile.topHeight_le (p : Profile) : p.topHeight ≤ 63 := by
  unfold Profile.topHeight; split <;> decide

theorem Profile.le_topHeight (p : Profile) : 62 ≤ p.topHeight := by
  unfold Profile.topHeight; split <;> decide

theorem Profile.leafLimit_eq (p : Profile) : p.leafLimit = 2 ^ p.topHeight := by
  unfold Profile.topHeight Profile.leafLimit; split <;> rfl

theorem Profile.leafLimit_le (p : Profile) : p.leafLimit ≤ 2 ^ 63 := by
  unfold Profile.leafLimit; split <;> omega

theorem Profile.le_leafLimit (p : Profile) : 2 ^ 62 ≤ p.leafLimit := by
  unfold Profile.leafLimit; split <;> omega

theorem Profile.lt_leafLimit (p : Profile) {n : Nat} (h : n < 2 ^ 62) : n < p.leafLimit :=
  Nat.lt_of_lt_of_le h p.le_leafLimit

end FuelMerkle
