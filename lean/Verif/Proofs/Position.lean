import Verif.Model.Position
import Verif.Spec.Limits
import Verif.Proofs.Exec
import Mathlib.Tactic.Ring
import Mathlib.Tactic.Push
import Mathlib.Algebra.Order.Ring.Nat

/-
Closed form of in-order positions and of the operations on them.
-/
set_option linter.unusedSimpArgs false
namespace FuelMerkle

/-- The in-order index of the `k`-th node of height `h`. -/
def ioIndex (h k : Nat) : Nat := 2 ^ (h + 1) * k + 2 ^ h - 1

/-- The `k`-th position of height `h`. -/
def posOf (h k : Nat) : Position := ⟨ioIndex h k⟩

theorem ioIndex_succ (h k : Nat) : ioIndex h k + 1 = 2 ^ h * (2 * k + 1) := by
  have := Nat.two_pow_pos h
  unfold ioIndex; rw [Nat.pow_succ]; 
  have : 2 ^ h * 2 * k + 2 ^ h = 2 ^ h * (2 * k + 1) := by ring
  omega

theorem ioIndex_zero_left (k : Nat) : ioIndex 0 k = 2 * k := by simp [ioIndex]

theorem ioIndex_injective {h k h' k' : Nat} (e : ioIndex h k = ioIndex h' k') :
    h = h' ∧ k = k' := by
  have e1 : 2 ^ h * (2 * k + 1) = 2 ^ h' * (2 * k' + 1) := by
    rw [← ioIndex_succ, ← ioIndex_succ, e]
  have key : ∀ {h k h' k' : Nat}, h < h' → 2 ^ h * (2 * k + 1) = 2 ^ h' * (2 * k' + 1) → False := by
    intro h k h' k' hl e
    obtain ⟨d, rfl⟩ := Nat.exists_eq_add_of_lt hl
    have : 2 ^ h * (2 * k + 1) = 2 ^ h * (2 * (2 ^ d * (2 * k' + 1))) := by
      rw [e]; ring
    have := Nat.eq_of_mul_eq_mul_left (Nat.two_pow_pos h) this
    omega
  rcases Nat.lt_trichotomy h h' with hl | rfl | hl
  · exact (key hl e1).elim
  · have := Nat.eq_of_mul_eq_mul_left (Nat.two_pow_pos h) e1
    exact ⟨rfl, by omega⟩
  · exact (key hl e1.symm).elim

theorem posOf_injective {h k h' k' : Nat} (e : posOf h k = posOf h' k') : h = h' ∧ k = k' :=
  ioIndex_injective (congrArg Position.index e)

theorem ioIndex_surjective (x : Nat) : ∃ h k, x = ioIndex h k := by
  have : ∀ y : Nat, 0 < y → ∃ h k, y = 2 ^ h * (2 * k + 1) := by
    intro y
    induction y using Nat.strongRecOn with
    | _ y ih =>
      intro hy
      rcases Nat.mod_two_eq_zero_or_one y with h0 | h1
      · obtain ⟨h, k, e⟩ := ih (y / 2) (by omega) (by omega)
        refine ⟨h + 1, k, ?_⟩
        have : y = 2 * (y / 2) := by omega
        rw [this, e]; ring
      · exact ⟨0, y / 2, by simp; omega⟩
  obtain ⟨h, k, e⟩ := this (x + 1) (by omega)
  refine ⟨h, k, ?_⟩
  have := ioIndex_succ h k
  omega

/-! ### Height -/

theorem tz_zero (f : Nat) : tz f 0 = f := by
  induction f with
  | zero => rfl
  | succ f ih => simp [tz, ih]; omega

theorem tz_mul (f h m : Nat) (hf : h < f) : tz f (2 ^ h * (2 * m + 1)) = h := by
  induction h generalizing f with
  | zero =>
    cases f with
    | zero => omega
    | succ f => simp [tz]
  | succ h ih =>
    cases f with
    | zero => omega
    | succ f =>
      have e : 2 ^ (h + 1) * (2 * m + 1) = 2 * (2 ^ h * (2 * m + 1)) := by ring
      rw [e, tz]
      have h1 : (2 * (2 ^ h * (2 * m + 1))) % 2 ≠ 1 := by omega
      have h2 : 2 * (2 ^ h * (2 * m + 1)) / 2 = 2 ^ h * (2 * m + 1) := by omega
      rw [if_neg h1, h2, ih f (by omega)]
      omega

theorem height_posOf {h k : Nat} (hb : ioIndex h k < 2 ^ 64) : (posOf h k).height = h := by
  unfold Position.height u64TrailingZeros u64Not Position.inOrderIndex posOf
  simp only
  have hs := ioIndex_succ h k
  have hle : 2 ^ h * (2 * k + 1) ≤ 2 ^ 64 := by omega
  have e : 2 ^ 64 - 1 - ioIndex h k = 2 ^ 64 - 2 ^ h * (2 * k + 1) := by omega
  rw [e]
  have hh : h ≤ 64 := by
    by_contra hc
    have : 2 ^ 65 ≤ 2 ^ h := Nat.pow_le_pow_right (by omega) (by omega)
    have : 2 ^ h ≤ 2 ^ h * (2 * k + 1) := Nat.le_mul_of_pos_right _ (by omega)
    omega
  rcases Nat.lt_or_eq_of_le hh with hl | rfl
  · obtain ⟨d, hd⟩ := Nat.exists_eq_add_of_lt hl
    have e2 : (2 : Nat) ^ 64 = 2 ^ h * (2 * 2 ^ d) := by rw [hd]; ring
    have hkd : 2 * k + 1 ≤ 2 * 2 ^ d := by
      rw [e2] at hle
      exact Nat.le_of_mul_le_mul_left hle (Nat.two_pow_pos h)
    have e3 : 2 ^ 64 - 2 ^ h * (2 * k + 1) = 2 ^ h * (2 * (2 ^ d - k - 1) + 1) := by
      rw [e2, ← Nat.mul_sub]
      congr 1
      omega
    rw [e3]
    exact tz_mul 64 h _ hl
  · have : k = 0 := by
      by_contra hc
      have : 2 ^ 64 * 3 ≤ 2 ^ 64 * (2 * k + 1) := Nat.mul_le_mul_left _ (by omega)
      omega
    subst this
    simp [tz_zero]

theorem isLeaf_posOf (h k : Nat) : (posOf h k).isLeaf = decide (h = 0) := by
  unfold Position.isLeaf posOf Position.inOrderIndex
  have hs := ioIndex_succ h k
  cases h with
  | zero => simp [ioIndex]
  | succ h =>
    have e : 2 ^ (h + 1) * (2 * k + 1) = 2 * (2 ^ h * (2 * k + 1)) := by ring
    simp; omega

theorem isNode_posOf (h k : Nat) : (posOf h k).isNode = decide (h ≠ 0) := by
  simp [Position.isNode, isLeaf_posOf]

/-! ### Orientation and direction -/

theorem ioIndex_div (h k : Nat) : ioIndex h k / 2 ^ (h + 1) = k := by
  have h1 := Nat.two_pow_pos h
  unfold ioIndex
  rw [Nat.add_sub_assoc (by omega), Nat.mul_add_div (by omega)]
  rw [Nat.div_eq_of_lt (by rw [Nat.pow_succ]; omega)]
  rfl

theorem and_two_pow_ne_zero (x i : Nat) : (x &&& 2 ^ i ≠ 0) ↔ x / 2 ^ i % 2 = 1 := by
  have hp := Nat.two_pow_pos i
  have key : x &&& 2 ^ i = if x.testBit i then 2 ^ i else 0 := by
    apply Nat.eq_of_testBit_eq
    intro j
    rw [Nat.testBit_and, Nat.testBit_two_pow]
    by_cases hj : i = j
    · subst hj
      cases hx : x.testBit i <;> simp
    · cases hx : x.testBit i <;> simp [hj]
  rw [key, Nat.testBit_eq_decide_div_mod_eq]
  by_cases h : x / 2 ^ i % 2 = 1 <;> simp [h]

theorem orientation_posOf (p : Profile) {h k : Nat} (hb : ioIndex h k < 2 ^ 64) (hh : h ≤ 62) :
    (posOf h k).orientation p = .ok (k % 2) := by
  unfold Position.orientation
  rw [height_posOf hb]
  simp only [u64Shl1, shiftAmount, if_pos (show h + 1 < 64 by omega), Res.ok_bind, Res.pure_eq]
  congr 1
  have : (posOf h k).inOrderIndex = ioIndex h k := rfl
  rw [this]
  have e := and_two_pow_ne_zero (ioIndex h k) (h + 1)
  rw [ioIndex_div] at e
  by_cases hc : k % 2 = 1
  · rw [if_pos (e.2 hc), hc]
  · rw [if_neg (fun x => hc (e.1 x))]; omega

theorem direction_posOf (p : Profile) {h k : Nat} (hb : ioIndex h k < 2 ^ 64) (hh : h ≤ 62) :
    (posOf h k).direction p = .ok (if k % 2 = 0 then 1 else -1) := by
  unfold Position.direction
  rw [orientation_posOf p hb hh]
  simp only [Res.ok_bind, Res.pure_eq]
  congr 1
  split <;> omega

/-! ### `i64` arithmetic on indices -/

theorem asU64_asI64_add (x y : Nat) (d : Int) (hy : y < 2 ^ 64) (e : (x : Int) + d = y) :
    asU64 (asI64 x + d) = y := by
  unfold asU64 asI64
  split <;> omega

theorem i64Check_ok (p : Profile) {x : Int} (h : -(2 ^ 63 : Int) ≤ x ∧ x < 2 ^ 63) :
    i64Check p x = .ok x := by rw [i64Check, if_pos h]

/-- Adding a signed offset to an index is exact when both ends lie in the same half of
the `u64` range. -/
theorem i64Add_index (p : Profile) {x y : Nat} {d : Int} (hx : x < 2 ^ 64) (hy : y < 2 ^ 64)
    (e : (x : Int) + d = y) (half : x / 2 ^ 63 = y / 2 ^ 63) :
    ∃ z, i64Add p (asI64 x) d = .ok z ∧ asU64 z = y := by
  refine ⟨asI64 x + d, ?_, asU64_asI64_add x y d hy e⟩
  apply i64Check_ok
  unfold asI64
  split <;> omega

theorem half_eq {h k x y : Nat} (hh : h ≤ 63) (hx : x / 2 ^ h = k) (hy : y / 2 ^ h = k) :
    x / 2 ^ 63 = y / 2 ^ 63 := by
  obtain ⟨d, hd⟩ := Nat.exists_eq_add_of_le hh
  rw [hd, Nat.pow_add, ← Nat.div_div_eq_div_mul, ← Nat.div_div_eq_div_mul, hx, hy]

theorem i64Shl1_ok (p : Profile) {n : Nat} (h : n ≤ 62) : i64Shl1 p n = .ok (2 ^ n : Int) := by
  simp [i64Shl1, shiftAmount, show n < 64 by omega, show n ≠ 63 by omega]

theorem two_pow_int_bound {n : Nat} (h : n ≤ 62) : (2 ^ n : Int) ≤ 2 ^ 62 := by
  have : (2 : Nat) ^ n ≤ 2 ^ 62 := Nat.pow_le_pow_right (by omega) h
  exact_mod_cast this

theorem two_pow_int_pos (n : Nat) : (0 : Int) < 2 ^ n := by
  have := Nat.two_pow_pos n
  exact_mod_cast this

theorem i64Mul_ok (p : Profile) {n : Nat} (h : n ≤ 62) (s : Int) (hs : s = 1 ∨ s = -1) :
    i64Mul p (2 ^ n) s = .ok (2 ^ n * s) := by
  apply i64Check_ok
  have h1 := two_pow_int_bound h
  have h2 := two_pow_int_pos n
  rcases hs with rfl | rfl
  · constructor <;> omega
  · constructor <;> omega

/-! ### Closed forms of the operations -/

theorem ioIndex_div_succ (h k : Nat) : ioIndex h k / 2 ^ (h + 2) = k / 2 := by
  rw [show h + 2 = (h + 1) + 1 by rfl, Nat.pow_succ 2 (h + 1), ← Nat.div_div_eq_div_mul,
    ioIndex_div]

theorem ioIndex_lt_iff {h N : Nat} (k : Nat) (hN : h < N) :
    ioIndex h k < 2 ^ N ↔ k < 2 ^ (N - 1 - h) := by
  have e : (2 : Nat) ^ N = 2 ^ (N - 1 - h) * 2 ^ (h + 1) := by
    rw [← Nat.pow_add]; congr 1; omega
  rw [e, ← Nat.div_lt_iff_lt_mul (Nat.two_pow_pos _), ioIndex_div]

theorem two_pow_cast (n : Nat) : ((2 ^ n : Nat) : Int) = 2 ^ n := by push_cast; rfl

/-- The sibling exchanges `2k` and `2k + 1`. -/
def sibIdx (k : Nat) : Nat := if k % 2 = 0 then k + 1 else k - 1

theorem sibling_posOf (p : Profile) {h k : Nat} (hb : ioIndex h k < 2 ^ 64) (hh : h ≤ 61) :
    (posOf h k).sibling p = .ok (posOf h (sibIdx k)) := by
  have hk2 : sibIdx k / 2 = k / 2 := by unfold sibIdx; split <;> omega
  have hb' : ioIndex h (sibIdx k) < 2 ^ 64 := by
    rw [ioIndex_lt_iff _ (by omega)] at hb ⊢
    rw [show 64 - 1 - h = (62 - h) + 1 by omega, Nat.pow_succ] at hb ⊢
    omega
  unfold Position.sibling
  rw [height_posOf hb, i64Shl1_ok p (by omega), direction_posOf p hb (by omega)]
  simp only [Res.ok_bind]
  rw [i64Mul_ok p (by omega) _ (by split <;> simp)]
  simp only [Res.ok_bind]
  have hpos := Nat.two_pow_pos h
  have hx : (posOf h k).inOrderIndex = ioIndex h k := rfl
  obtain ⟨z, hz, hz'⟩ := i64Add_index p (x := ioIndex h k) (y := ioIndex h (sibIdx k))
    (d := 2 ^ (h + 1) * (if k % 2 = 0 then 1 else -1)) hb hb' (by
      have e1 := ioIndex_succ h k
      have e2 := ioIndex_succ h (sibIdx k)
      rw [← two_pow_cast, Nat.pow_succ]
      unfold sibIdx at e2 ⊢
      split <;> rename_i hc
      · rw [if_pos hc] at e2
        have : 2 ^ h * (2 * (k + 1) + 1) = 2 ^ h * (2 * k + 1) + 2 ^ h * 2 := by ring
        simp only [mul_one, mul_neg]; omega
      · rw [if_neg hc] at e2
        obtain ⟨j, rfl⟩ : ∃ j, k = j + 1 := ⟨k - 1, by omega⟩
        have : 2 ^ h * (2 * (j + 1) + 1) = 2 ^ h * (2 * j + 1) + 2 ^ h * 2 := by ring
        simp only [Nat.add_sub_cancel] at *
        simp only [mul_one, mul_neg]; omega)
    (half_eq (h := h + 2) (by omega) (ioIndex_div_succ h k)
      ((ioIndex_div_succ h _).trans hk2))
  rw [hx, hz]
  simp only [Res.ok_bind, Res.pure_eq]
  rw [hz']; rfl

theorem parent_posOf (p : Profile) {h k : Nat} (hb : ioIndex h k < 2 ^ 64) (hh : h ≤ 61) :
    (posOf h k).parent p = .ok (posOf (h + 1) (k / 2)) := by
  have hb' : ioIndex (h + 1) (k / 2) < 2 ^ 64 := by
    rw [ioIndex_lt_iff _ (by omega)] at hb ⊢
    rw [show 64 - 1 - h = (62 - h) + 1 by omega, Nat.pow_succ] at hb
    rw [show 64 - 1 - (h + 1) = 62 - h by omega]
    omega
  unfold Position.parent
  rw [height_posOf hb, i64Shl1_ok p (by omega), direction_posOf p hb (by omega)]
  simp only [Res.ok_bind]
  rw [i64Mul_ok p (by omega) _ (by split <;> simp)]
  simp only [Res.ok_bind]
  have hpos := Nat.two_pow_pos h
  have hx : (posOf h k).inOrderIndex = ioIndex h k := rfl
  obtain ⟨z, hz, hz'⟩ := i64Add_index p (x := ioIndex h k) (y := ioIndex (h + 1) (k / 2))
    (d := 2 ^ h * (if k % 2 = 0 then 1 else -1)) hb hb' (by
      have e1 := ioIndex_succ h k
      have e2 := ioIndex_succ (h + 1) (k / 2)
      rw [← two_pow_cast]
      rw [Nat.pow_succ] at e2
      split <;> rename_i hc
      · have : 2 ^ h * 2 * (2 * (k / 2) + 1) = 2 ^ h * (2 * k + 1) + 2 ^ h := by
          have : k = 2 * (k / 2) := by omega
          generalize k / 2 = j at *
          subst this; ring
        simp only [mul_one, mul_neg]; omega
      · have : 2 ^ h * 2 * (2 * (k / 2) + 1) + 2 ^ h = 2 ^ h * (2 * k + 1) := by
          have : k = 2 * (k / 2) + 1 := by omega
          generalize k / 2 = j at *
          subst this; ring
        simp only [mul_one, mul_neg]; omega)
    (half_eq (h := h + 2) (by omega) (ioIndex_div_succ h k)
      (ioIndex_div (h + 1) _))
  rw [hx, hz]
  simp only [Res.ok_bind, Res.pure_eq]
  rw [hz']; rfl

theorem parent_posOf_even (p : Profile) {h k : Nat} (hb : ioIndex h (2 * k) < 2 ^ 64) (hh : h ≤ 62) :
    (posOf h (2 * k)).parent p = .ok (posOf (h + 1) k) := by
  rcases Nat.lt_or_ge h 62 with hlt | hge
  · rw [parent_posOf p hb (by omega)]
    congr 2; omega
  · have : h = 62 := by omega
    subst this
    rw [ioIndex_lt_iff _ (by omega)] at hb
    have : k = 0 := by omega
    subst this
    obtain ⟨a, b⟩ := p
    cases a <;> cases b <;> rfl

theorem ioIndex_child_div (h k j : Nat) (hj : j / 2 = k) :
    ioIndex h j / 2 ^ (h + 2) = k := by
  rw [ioIndex_div_succ, hj]

theorem child_aux (p : Profile) {h k : Nat} (hb : ioIndex (h + 1) k < 2 ^ 64) (hh : h ≤ 61)
    (j : Nat) (s : Int) (hs : (s = 1 ∧ j = 2 * k + 1) ∨ (s = -1 ∧ j = 2 * k)) :
    (posOf (h + 1) k).child p s = .ok (posOf h j) := by
  have hj : j / 2 = k := by omega
  have hb' : ioIndex h j < 2 ^ 64 := by
    rw [ioIndex_lt_iff _ (by omega)] at hb ⊢
    rw [show 64 - 1 - h = (62 - h) + 1 by omega, Nat.pow_succ]
    rw [show 64 - 1 - (h + 1) = 62 - h by omega] at hb
    omega
  unfold Position.child
  rw [isNode_posOf, height_posOf hb, Nat.add_sub_cancel, i64Shl1_ok p (by omega)]
  simp only [rassert, ne_eq, Nat.add_one_ne_zero, not_false_eq_true, decide_true, if_true, Res.ok_bind]
  rw [i64Mul_ok p (by omega) _ (by rcases hs with ⟨h, _⟩ | ⟨h, _⟩ <;> simp [h])]
  simp only [Res.ok_bind]
  have hpos := Nat.two_pow_pos h
  have hx : (posOf (h + 1) k).inOrderIndex = ioIndex (h + 1) k := rfl
  obtain ⟨z, hz, hz'⟩ := i64Add_index p (x := ioIndex (h + 1) k) (y := ioIndex h j)
    (d := 2 ^ h * s) hb hb' (by
      have e1 := ioIndex_succ h j
      have e2 := ioIndex_succ (h + 1) k
      rw [← two_pow_cast]
      rw [Nat.pow_succ] at e2
      rcases hs with ⟨rfl, rfl⟩ | ⟨rfl, rfl⟩
      · have : 2 ^ h * 2 * (2 * k + 1) + 2 ^ h = 2 ^ h * (2 * (2 * k + 1) + 1) := by ring
        simp only [mul_one, mul_neg]; omega
      · have : 2 ^ h * 2 * (2 * k + 1) = 2 ^ h * (2 * (2 * k) + 1) + 2 ^ h := by ring
        simp only [mul_one, mul_neg]; omega)
    (half_eq (h := h + 2) (by omega) (ioIndex_div (h + 1) k) (ioIndex_child_div h k j hj))
  rw [hx, hz]
  simp only [Res.ok_bind, Res.pure_eq]
  rw [hz']; rfl

theorem leftChild_posOf (p : Profile) {h k : Nat} (hb : ioIndex (h + 1) k < 2 ^ 64) (hh : h ≤ 61) :
    (posOf (h + 1) k).leftChild p = .ok (posOf h (2 * k)) :=
  child_aux p hb hh _ _ (Or.inr ⟨rfl, rfl⟩)

theorem rightChild_posOf (p : Profile) {h k : Nat} (hb : ioIndex (h + 1) k < 2 ^ 64) (hh : h ≤ 61) :
    (posOf (h + 1) k).rightChild p = .ok (posOf h (2 * k + 1)) :=
  child_aux p hb hh _ _ (Or.inl ⟨rfl, rfl⟩)

theorem child_top (p : Profile) {h k : Nat} (hb : ioIndex (h + 1) k < 2 ^ 64) (hh : h < p.topHeight) :
    (posOf (h + 1) k).leftChild p = .ok (posOf h (2 * k)) ∧
      (posOf (h + 1) k).rightChild p = .ok (posOf h (2 * k + 1)) := by
  rcases Nat.lt_or_ge h 62 with h' | h'
  · exact ⟨leftChild_posOf p hb (by omega), rightChild_posOf p hb (by omega)⟩
  · obtain ⟨a, b, w⟩ := p
    cases a
    · have hh : h < 63 := hh
      obtain rfl : h = 62 := by omega
      obtain rfl : k = 0 := by
        rw [ioIndex_lt_iff _ (by omega)] at hb
        simpa using hb
      cases b <;> cases w <;> exact ⟨by decide +kernel, by decide +kernel⟩
    · have hh : h < 62 := hh
      omega

theorem parent_top (p : Profile) {h k : Nat} (hb : ioIndex h k < 2 ^ 64) (hh : h < p.topHeight) :
    (posOf h k).parent p = .ok (posOf (h + 1) (k / 2)) ∧ (posOf h k).sibling p = .ok (posOf h (sibIdx k)) := by
  rcases Nat.lt_or_ge h 62 with h' | h'
  · exact ⟨parent_posOf p hb (by omega), sibling_posOf p hb (by omega)⟩
  · obtain ⟨a, b, w⟩ := p
    cases a
    · have hh : h < 63 := hh
      obtain rfl : h = 62 := by omega
      obtain rfl | rfl : k = 0 ∨ k = 1 := by
        rw [ioIndex_lt_iff _ (by omega)] at hb
        omega
      all_goals cases b <;> cases w <;> exact ⟨by decide +kernel, by decide +kernel⟩
    · have hh : h < 62 := hh
      omega

theorem fromLeafIndex_ok (p : Profile) {i : Nat} (hi : i < 2 ^ 63) :
    Position.fromLeafIndex p i = .ok (posOf 0 i) := by
  unfold Position.fromLeafIndex u64Mul posOf
  rw [if_pos (by omega), ioIndex_zero_left, Nat.mul_comm]
  rfl

theorem leafIndex_posOf (i : Nat) : (posOf 0 i).leafIndex = .ok i := by
  unfold Position.leafIndex
  rw [isLeaf_posOf]
  simp [rassert, posOf, Position.inOrderIndex, ioIndex_zero_left]

end FuelMerkle
