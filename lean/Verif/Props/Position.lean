import Verif.Proofs.BinaryRun

/-
Properties C18–C27: positions, paths and bit addressing.

A `u64` in-order index is a natural number below `2^64`. The perfect tree of height 63 has
`2^63` leaves at the even indices; its root has index `2^63 - 1`; `2^64 - 1` is not the
index of a node (its "height" is 64).
-/
namespace FuelMerkle.Props
open FuelMerkle.Spec

theorem exists_posOf (x : Position) (hx : x.index < 2 ^ 64) :
    ∃ h k, x = posOf h k ∧ ioIndex h k < 2 ^ 64 ∧ x.height = h := by
  obtain ⟨h, k, e⟩ := ioIndex_surjective x.index
  have hx' : x = posOf h k := by cases x; simp only at e; rw [e]; rfl
  refine ⟨h, k, hx', e ▸ hx, ?_⟩
  rw [hx']; exact height_posOf (e ▸ hx)

/-! ### C18 -/

/-- In-order traversal of the subtree at a position, using the child operations of the
code. -/
def inOrder (p : Profile) : (fuel : Nat) → Position → Res (List Position)
  | 0, _ => .error .diverges
  | fuel + 1, x =>
    if x.isNode then do
      let l ← x.leftChild p
      let r ← x.rightChild p
      let below ← inOrder p fuel l
      let above ← inOrder p fuel r
      return below ++ [x] ++ above
    else return [x]

theorem inOrder_posOf (p : Profile) (h : Nat) : ∀ f k, h < f → h ≤ 62 → ioIndex h k < 2 ^ 64 →
    inOrder p f (posOf h k) =
      .ok ((List.range (2 ^ (h + 1) - 1)).map fun j => ⟨2 ^ (h + 1) * k + j⟩) := by
  induction h with
  | zero =>
    intro f k hf _ _
    obtain ⟨f, rfl⟩ : ∃ f', f = f' + 1 := ⟨f - 1, by omega⟩
    rw [inOrder, isNode_posOf]
    simp [posOf, ioIndex_zero_left]
  | succ h ih =>
    intro f k hf hh hb
    obtain ⟨f, rfl⟩ : ∃ f', f = f' + 1 := ⟨f - 1, by omega⟩
    have hbl : ∀ j, j / 2 = k → ioIndex h j < 2 ^ 64 := by
      intro j hj
      rw [ioIndex_lt_iff _ (by omega)] at hb ⊢
      rw [show 64 - 1 - h = (62 - h) + 1 by omega, Nat.pow_succ]
      rw [show 64 - 1 - (h + 1) = 62 - h by omega] at hb
      omega
    rw [inOrder, isNode_posOf, if_pos (by simp), leftChild_posOf p hb (by omega), Res.ok_bind,
      rightChild_posOf p hb (by omega), Res.ok_bind, ih f _ (by omega) (by omega) (hbl _ (by omega)), Res.ok_bind,
      ih f _ (by omega) (by omega) (hbl _ (by omega)), Res.ok_bind, Res.pure_eq]
    congr 1
    have hp := Nat.two_pow_pos (h + 1)
    have e : (2 : Nat) ^ (h + 1 + 1) = 2 ^ (h + 1) + 2 ^ (h + 1) := by ring
    have e0 : 2 ^ (h + 1 + 1) * k = 2 ^ (h + 1) * (2 * k) := by ring
    have e1 : 2 ^ (h + 1) * (2 * k + 1) = 2 ^ (h + 1) * (2 * k) + 2 ^ (h + 1) := by ring
    have e2 : 2 ^ (h + 1 + 1) - 1 = (2 ^ (h + 1) - 1) + 1 + (2 ^ (h + 1) - 1) := by omega
    rw [e2, List.range_add, List.range_succ, List.map_append, List.map_append, e0]
    congr 1
    · congr 1
      simp only [List.map_cons, List.map_nil, posOf, ioIndex]
      congr 2
      rw [e0]; omega
    · rw [List.map_map]
      apply List.map_congr_left
      intro j _
      simp only [Function.comp]
      congr 1
      rw [e1]; omega

/-- The in-order traversal of the subtree at any position of height `h ≤ 62` lists the
`2^(h+1) - 1` consecutive indices centred at the position; and the height is the row: the
largest power of two dividing index + 1. Leaf `i` has index `2 i`. -/
theorem C18_in_order (p : Profile) (x : Position) (hx : x.index < 2 ^ 64) (hh : x.height ≤ 62) :
    inOrder p 64 x = .ok ((List.range (2 ^ (x.height + 1) - 1)).map fun j =>
      ⟨x.index - (2 ^ x.height - 1) + j⟩) ∧ 2 ^ x.height - 1 ≤ x.index := by
  obtain ⟨h, k, rfl, hb, e⟩ := exists_posOf x hx
  rw [e] at hh ⊢
  have hp := Nat.two_pow_pos h
  have e1 : (posOf h k).index - (2 ^ h - 1) = 2 ^ (h + 1) * k := by simp only [posOf, ioIndex]; omega
  refine ⟨?_, by simp only [posOf, ioIndex]; omega⟩
  rw [inOrder_posOf p h 64 k (by omega) hh hb, e1]

theorem C18_height (x : Position) (hx : x.index < 2 ^ 64) :
    2 ^ x.height ∣ x.index + 1 ∧ ¬ 2 ^ (x.height + 1) ∣ x.index + 1 ∧
      (x.height ≤ 62 ↔ x.index ≠ 2 ^ 63 - 1 ∧ x.index ≠ 2 ^ 64 - 1) := by
  obtain ⟨h, k, rfl, hb, e⟩ := exists_posOf x hx
  rw [e]
  have hs := ioIndex_succ h k
  have hp := Nat.two_pow_pos h
  refine ⟨⟨2 * k + 1, hs⟩, ?_, ?_⟩
  · rintro ⟨c, hc⟩
    have : 2 ^ h * (2 * k + 1) = 2 ^ h * (2 * c) := by
      rw [← hs]; simp only [posOf] at hc; rw [hc]; ring
    have := Nat.eq_of_mul_eq_mul_left hp this
    omega
  · simp only [posOf]
    constructor
    · intro hh
      constructor
      · intro he
        have : ioIndex h k = ioIndex 63 0 := by rw [he]; decide
        have := (ioIndex_injective this).1; omega
      · intro he
        have : ioIndex h k = ioIndex 64 0 := by rw [he]; decide
        have := (ioIndex_injective this).1; omega
    · rintro ⟨h1, h2⟩
      by_contra hc
      have hle : h ≤ 64 := by
        by_contra hc
        have : 2 ^ 65 ≤ 2 ^ h := Nat.pow_le_pow_right (by omega) (by omega)
        have : 2 ^ h ≤ 2 ^ h * (2 * k + 1) := Nat.le_mul_of_pos_right _ (by omega)
        omega
      have : h = 63 ∨ h = 64 := by omega
      rcases this with rfl | rfl
      · rw [ioIndex_lt_iff _ (by omega)] at hb
        have : k = 0 := by omega
        subst this; exact h1 (by decide)
      · have : k = 0 := by
          by_contra hc
          have : 2 ^ 64 * 3 ≤ 2 ^ 64 * (2 * k + 1) := Nat.mul_le_mul_left _ (by omega)
          omega
        subst this; exact h2 (by decide)

theorem C18_leaf (p : Profile) (i : Nat) (hi : i < 2 ^ 63) :
    Position.fromLeafIndex p i = .ok ⟨2 * i⟩ ∧ (⟨2 * i⟩ : Position).height = 0 := by
  have e : (⟨2 * i⟩ : Position) = posOf 0 i := by simp [posOf, ioIndex_zero_left]
  rw [e]
  exact ⟨fromLeafIndex_ok p hi, height_posOf (by rw [ioIndex_zero_left]; omega)⟩

example : (⟨2 ^ 63 + 2 ^ 61 - 1⟩ : Position).index < 2 ^ 64 ∧ (⟨2 ^ 63 + 2 ^ 61 - 1⟩ : Position).height ≤ 62 := by
  decide +kernel

/-! ### C19 -/

/-- The children of an internal position of height at most 62 are half the width away, one
lower, and have the position as parent. -/
theorem C19_parent_of_children (p : Profile) (x : Position) (hx : x.index < 2 ^ 64)
    (hn : x.isNode = true) (hh : x.height ≤ 62) :
    ∃ l r, x.leftChild p = .ok l ∧ x.rightChild p = .ok r ∧ l.parent p = .ok x ∧ r.parent p = .ok x ∧
      l.height + 1 = x.height ∧ r.height + 1 = x.height ∧
      l.index + 2 ^ (x.height - 1) = x.index ∧ r.index = x.index + 2 ^ (x.height - 1) ∧ r.index < 2 ^ 64 := by
  obtain ⟨h, k, rfl, hb, e⟩ := exists_posOf x hx
  rw [e] at hh ⊢
  rw [isNode_posOf] at hn
  obtain ⟨h, rfl⟩ : ∃ h', h = h' + 1 := ⟨h - 1, by simp at hn; omega⟩
  have hbl : ∀ j, j / 2 = k → ioIndex h j < 2 ^ 64 := by
    intro j hj
    rw [ioIndex_lt_iff _ (by omega)] at hb ⊢
    rw [show 64 - 1 - h = (62 - h) + 1 by omega, Nat.pow_succ]
    rw [show 64 - 1 - (h + 1) = 62 - h by omega] at hb
    omega
  have e1 := ioIndex_succ (h + 1) k
  have e2 := ioIndex_succ h (2 * k)
  have e3 := ioIndex_succ h (2 * k + 1)
  have e4 : 2 ^ (h + 1) * (2 * k + 1) = 2 ^ h * (2 * (2 * k) + 1) + 2 ^ h := by ring
  have e5 : 2 ^ h * (2 * (2 * k + 1) + 1) = 2 ^ (h + 1) * (2 * k + 1) + 2 ^ h := by ring
  refine ⟨posOf h (2 * k), posOf h (2 * k + 1), leftChild_posOf p hb (by omega), rightChild_posOf p hb (by omega),
    ?_, ?_, ?_, ?_, ?_, ?_, ?_⟩
  · rw [parent_posOf p (hbl _ (by omega)) (by omega)]; congr 2; omega
  · rw [parent_posOf p (hbl _ (by omega)) (by omega)]; congr 2; omega
  · rw [height_posOf (hbl _ (by omega))]
  · rw [height_posOf (hbl _ (by omega))]
  · simp only [posOf, Nat.add_sub_cancel]; omega
  · simp only [posOf, Nat.add_sub_cancel]; omega
  · exact hbl _ (by omega)

/-- Every position of height at most 61 is the left or the right child of its parent, and
the parent is one higher. -/
theorem C19_child_of_parent (p : Profile) (x : Position) (hx : x.index < 2 ^ 64) (hh : x.height ≤ 61) :
    ∃ y, x.parent p = .ok y ∧ y.index < 2 ^ 64 ∧ y.height = x.height + 1 ∧ y.isNode = true ∧
      (y.leftChild p = .ok x ∨ y.rightChild p = .ok x) := by
  obtain ⟨h, k, rfl, hb, e⟩ := exists_posOf x hx
  rw [e] at hh ⊢
  have hb' : ioIndex (h + 1) (k / 2) < 2 ^ 64 := by
    rw [ioIndex_lt_iff _ (by omega)] at hb ⊢
    rw [show 64 - 1 - h = (62 - h) + 1 by omega, Nat.pow_succ] at hb
    rw [show 64 - 1 - (h + 1) = 62 - h by omega]
    omega
  refine ⟨posOf (h + 1) (k / 2), parent_posOf p hb hh, hb', height_posOf hb', by simp [isNode_posOf], ?_⟩
  rw [leftChild_posOf p hb' (by omega), rightChild_posOf p hb' (by omega)]
  rcases Nat.mod_two_eq_zero_or_one k with h0 | h1
  · left; congr 2; omega
  · right; congr 2; omega

example : (⟨11⟩ : Position).isNode = true ∧ (⟨11⟩ : Position).height = 2 := by decide +kernel

/-! ### C20 -/

/-- Sibling is an involution without fixed point that keeps height and parent. -/
theorem C20_sibling (p : Profile) (x : Position) (hx : x.index < 2 ^ 64) (hh : x.height ≤ 61) :
    ∃ y, x.sibling p = .ok y ∧ y ≠ x ∧ y.index < 2 ^ 64 ∧ y.height = x.height ∧ y.sibling p = .ok x ∧
      y.parent p = x.parent p := by
  obtain ⟨h, k, rfl, hb, e⟩ := exists_posOf x hx
  rw [e] at hh ⊢
  have hb' : ioIndex h (sibIdx k) < 2 ^ 64 := by
    rw [ioIndex_lt_iff _ (by omega)] at hb ⊢
    rw [show 64 - 1 - h = (62 - h) + 1 by omega, Nat.pow_succ] at hb ⊢
    unfold sibIdx; split <;> omega
  refine ⟨posOf h (sibIdx k), sibling_posOf p hb hh, ?_, hb', height_posOf hb', ?_, ?_⟩
  · intro he
    have := (posOf_injective he).2
    unfold sibIdx at this; split at this <;> omega
  · rw [sibling_posOf p hb' hh]
    congr 2
    unfold sibIdx; split <;> split <;> omega
  · rw [parent_posOf p hb hh, parent_posOf p hb' hh]
    congr 2
    unfold sibIdx; split <;> omega

/-- The uncle is the sibling of the parent: the other node with the same grandparent. -/
theorem C20_uncle (p : Profile) (x : Position) (hx : x.index < 2 ^ 64) (hh : x.height ≤ 60) :
    ∃ y u, x.parent p = .ok y ∧ x.uncle p = .ok u ∧ y.sibling p = .ok u ∧ u ≠ y ∧
      u.height = x.height + 1 ∧ u.parent p = y.parent p := by
  obtain ⟨y, h1, h2, h3, _, _⟩ := C19_child_of_parent p x hx (by omega)
  obtain ⟨u, g1, g2, _, g4, _, g6⟩ := C20_sibling p y h2 (by omega)
  refine ⟨y, u, h1, ?_, g1, g2, by omega, g6⟩
  unfold Position.uncle
  rw [h1, Res.ok_bind, g1]

/-! ### C21 -/

theorem C21_leaf_index_round_trip (p : Profile) (i : Nat) (hi : i < 2 ^ 63) :
    ∃ x, Position.fromLeafIndex p i = .ok x ∧ x.isLeaf = true ∧ x.leafIndex = .ok i :=
  ⟨posOf 0 i, fromLeafIndex_ok p hi, by simp [isLeaf_posOf], leafIndex_posOf i⟩

/-- Leaves are the even indices, `is_node` is the negation, and `leaf_index` panics exactly
on internal nodes. -/
theorem C21_leaves (x : Position) :
    (x.isLeaf = true ↔ x.index % 2 = 0) ∧ x.isNode = !x.isLeaf ∧
    (x.isLeaf = true → x.leafIndex = .ok (x.index / 2)) ∧
    (x.isNode = true → x.leafIndex = .error .assertion) := by
  refine ⟨by simp [Position.isLeaf, Position.inOrderIndex], rfl, ?_, ?_⟩
  · intro h; simp [Position.leafIndex, h, rassert, Position.inOrderIndex]
  · intro h
    have : x.isLeaf = false := by simpa [Position.isNode] using h
    simp [Position.leafIndex, this, rassert]

/-- Beyond `2^63` leaves `from_leaf_index` overflows. -/
theorem C21_leaf_index_overflow (p : Profile) (hp : p.overflowChecks = true) (i : Nat) (hi : 2 ^ 63 ≤ i) :
    Position.fromLeafIndex p i = .error .overflow := by
  unfold Position.fromLeafIndex u64Mul
  rw [if_neg (by omega), if_pos hp]; rfl

/-! ### C22 -/

/-- The three indices at which moving up or sideways cannot be computed in `i64`. -/
def badIndices : List Nat := [2 ^ 63 - 1, 2 ^ 63 + 2 ^ 62 - 1, 2 ^ 64 - 1]

theorem cases_high (x : Position) (hx : x.index < 2 ^ 64) :
    x.height ≤ 61 ∨ x = ⟨2 ^ 62 - 1⟩ ∨ x = ⟨2 ^ 63 + 2 ^ 62 - 1⟩ ∨ x = ⟨2 ^ 63 - 1⟩ ∨ x = ⟨2 ^ 64 - 1⟩ := by
  rcases Nat.lt_or_ge 62 x.height with h | h
  · have := (C18_height x hx).2.2
    have : x.index = 2 ^ 63 - 1 ∨ x.index = 2 ^ 64 - 1 := by omega
    rcases this with h | h
    · right; right; right; left; cases x; simp only at h; rw [h]
    · right; right; right; right; cases x; simp only at h; rw [h]
  · obtain ⟨g, k, rfl, hb, e⟩ := exists_posOf x hx
    rw [e] at h ⊢
    rcases Nat.lt_or_ge g 62 with hl | hg
    · left; omega
    · have : g = 62 := by omega
      subst this
      rw [ioIndex_lt_iff _ (by omega)] at hb
      have : k = 0 ∨ k = 1 := by omega
      rcases this with rfl | rfl
      · right; left; decide
      · right; right; left; decide

theorem height_ne_bad {x : Position} (h : x.height ≤ 61) : x.index ∉ badIndices ∧ x.index ≠ 2 ^ 62 - 1 := by
  have key : ∀ n, x.index = n → (⟨n⟩ : Position).height ≤ 61 := by
    intro n hn; cases x; simp only at hn; rw [← hn]; exact h
  refine ⟨?_, ?_⟩
  · intro hm
    simp only [badIndices, List.mem_cons, List.not_mem_nil, or_false] at hm
    rcases hm with hm | hm | hm
    · exact absurd (key _ hm) (by decide +kernel)
    · exact absurd (key _ hm) (by decide +kernel)
    · exact absurd (key _ hm) (by decide +kernel)
  · intro hm; exact absurd (key _ hm) (by decide +kernel)

/-- With overflow checks, `parent` panics exactly at the three bad indices; elsewhere it
returns a position one higher of which the argument is a child. -/
theorem C22_parent (p : Profile) (hp : p.overflowChecks = true) (x : Position) (hx : x.index < 2 ^ 64) :
    (x.index ∈ badIndices → x.parent p = .error .overflow) ∧
    (x.index ∉ badIndices → ∃ y, x.parent p = .ok y ∧ y.height = x.height + 1 ∧
      (y.leftChild p = .ok x ∨ y.rightChild p = .ok x)) := by
  obtain ⟨a, b, w⟩ := p
  simp only at hp
  subst hp
  rcases cases_high x hx with h | rfl | rfl | rfl | rfl
  · refine ⟨fun hm => absurd hm (height_ne_bad h).1, fun _ => ?_⟩
    obtain ⟨y, h1, _, h3, _, h5⟩ := C19_child_of_parent ⟨true, b, w⟩ x hx h
    exact ⟨y, h1, h3, h5⟩
  · refine ⟨fun hm => absurd hm (by decide), fun _ => ⟨⟨2 ^ 63 - 1⟩, ?_, by decide +kernel, Or.inl ?_⟩⟩
    · cases b <;> cases w <;> decide +kernel
    · cases b <;> cases w <;> decide +kernel
  · exact ⟨fun _ => by cases b <;> cases w <;> decide +kernel, fun h => absurd (by decide) h⟩
  · exact ⟨fun _ => by cases b <;> cases w <;> decide +kernel, fun h => absurd (by decide) h⟩
  · exact ⟨fun _ => by cases b <;> cases w <;> decide +kernel, fun h => absurd (by decide) h⟩

/-- With overflow checks, `sibling` panics exactly at the same indices; elsewhere it returns
the other position of the same height next to it. -/
theorem C22_sibling (p : Profile) (hp : p.overflowChecks = true) (x : Position) (hx : x.index < 2 ^ 64) :
    (x.index ∈ badIndices → x.sibling p = .error .overflow) ∧
    (x.index ∉ badIndices → ∃ y, x.sibling p = .ok y ∧ y ≠ x ∧ y.height = x.height) := by
  obtain ⟨a, b, w⟩ := p
  simp only at hp
  subst hp
  rcases cases_high x hx with h | rfl | rfl | rfl | rfl
  · refine ⟨fun hm => absurd hm (height_ne_bad h).1, fun _ => ?_⟩
    obtain ⟨y, h1, h2, _, h4, _⟩ := C20_sibling ⟨true, b, w⟩ x hx h
    exact ⟨y, h1, h2, h4⟩
  · refine ⟨fun hm => absurd hm (by decide), fun _ =>
      ⟨⟨2 ^ 63 + 2 ^ 62 - 1⟩, ?_, by decide, by decide +kernel⟩⟩
    cases b <;> cases w <;> decide +kernel
  · exact ⟨fun _ => by cases b <;> cases w <;> decide +kernel, fun h => absurd (by decide) h⟩
  · exact ⟨fun _ => by cases b <;> cases w <;> decide +kernel, fun h => absurd (by decide) h⟩
  · exact ⟨fun _ => by cases b <;> cases w <;> decide +kernel, fun h => absurd (by decide) h⟩

/-- With overflow checks, taking children of an internal node panics exactly for the right
child of the top of the tree (index `2^63 - 1`) and both "children" of `2^64 - 1`. -/
theorem C22_children (p : Profile) (hp : p.overflowChecks = true) (x : Position) (hx : x.index < 2 ^ 64)
    (hn : x.isNode = true) :
    ((∃ l, x.leftChild p = .ok l ∧ l.parent p = .ok x) ↔ x.index ≠ 2 ^ 64 - 1) ∧
    ((∃ r, x.rightChild p = .ok r ∧ r.parent p = .ok x) ↔ x.index ≠ 2 ^ 64 - 1 ∧ x.index ≠ 2 ^ 63 - 1) ∧
    (x.index = 2 ^ 64 - 1 → x.leftChild p = .error .overflow) ∧
    (x.index = 2 ^ 64 - 1 ∨ x.index = 2 ^ 63 - 1 → x.rightChild p = .error .overflow) := by
  obtain ⟨a, b, w⟩ := p
  simp only at hp
  subst hp
  have hh := (C18_height x hx).2.2
  rcases Nat.lt_or_ge 62 x.height with h | h
  · have : x.index = 2 ^ 63 - 1 ∨ x.index = 2 ^ 64 - 1 := by omega
    rcases this with h | h
    · have : x = ⟨2 ^ 63 - 1⟩ := by cases x; simp only at h; rw [h]
      subst this
      have e1 : (⟨2 ^ 63 - 1⟩ : Position).leftChild ⟨true, b, w⟩ = .ok ⟨2 ^ 62 - 1⟩ := by cases b <;> cases w <;> decide +kernel
      have e2 : (⟨2 ^ 62 - 1⟩ : Position).parent ⟨true, b, w⟩ = .ok ⟨2 ^ 63 - 1⟩ := by cases b <;> cases w <;> decide +kernel
      have e3 : (⟨2 ^ 63 - 1⟩ : Position).rightChild ⟨true, b, w⟩ = .error .overflow := by cases b <;> cases w <;> decide +kernel
      refine ⟨⟨fun _ => by decide, fun _ => ⟨_, e1, e2⟩⟩, ⟨fun ⟨r, hr, _⟩ => ?_, fun h => absurd rfl h.2⟩,
        fun h => absurd h (by decide), fun _ => e3⟩
      rw [e3] at hr; cases hr
    · have : x = ⟨2 ^ 64 - 1⟩ := by cases x; simp only at h; rw [h]
      subst this
      have e1 : (⟨2 ^ 64 - 1⟩ : Position).leftChild ⟨true, b, w⟩ = .error .overflow := by cases b <;> cases w <;> decide +kernel
      have e3 : (⟨2 ^ 64 - 1⟩ : Position).rightChild ⟨true, b, w⟩ = .error .overflow := by cases b <;> cases w <;> decide +kernel
      refine ⟨⟨fun ⟨r, hr, _⟩ => ?_, fun h => absurd rfl h⟩, ⟨fun ⟨r, hr, _⟩ => ?_, fun h => absurd rfl h.1⟩,
        fun _ => e1, fun _ => e3⟩
      · rw [e1] at hr; cases hr
      · rw [e3] at hr; cases hr
  · obtain ⟨l, r, h1, h2, h3, h4, _⟩ := C19_parent_of_children ⟨true, b, w⟩ x hx hn h
    have := hh.1 h
    exact ⟨⟨fun _ => this.2, fun _ => ⟨l, h1, h3⟩⟩, ⟨fun _ => ⟨this.2, this.1⟩, fun _ => ⟨r, h2, h4⟩⟩,
      fun h => absurd h this.2, fun h => (h.elim this.2 this.1).elim⟩

/-- Without overflow checks the wrapped results at the nodes next to the top are still the
right ones. -/
theorem C22_wrapping (p : Profile) (hp : p.overflowChecks = false) :
    (⟨2 ^ 63 + 2 ^ 62 - 1⟩ : Position).parent p = .ok ⟨2 ^ 63 - 1⟩ ∧
    (⟨2 ^ 63 + 2 ^ 62 - 1⟩ : Position).sibling p = .ok ⟨2 ^ 62 - 1⟩ ∧
    (⟨2 ^ 63 - 1⟩ : Position).rightChild p = .ok ⟨2 ^ 63 + 2 ^ 62 - 1⟩ := by
  obtain ⟨a, b, w⟩ := p
  simp only at hp
  subst hp
  cases b <;> cases w <;> decide +kernel

/-- Consequence for paths: with overflow checks every path from the root position of a tree
of `2^62 ≤ n < 2^63` leaves panics (so `load` and `prove` do, see C11), while for `n < 2^62`
none does (C24). -/
theorem C22_path_panics_beyond (p : Profile) (hp : p.overflowChecks = true) (n i : Nat) (h1 : 2 ^ 62 ≤ n)
    (h2 : n < 2 ^ 63) (hi : i < 2 ^ 63) :
    ∃ root, Binary.rootPosition p n = .ok root ∧ root.pathList p ⟨2 * i⟩ n = .error .overflow := by
  have hc : ceilLog2 (n + 1) = 63 := ceilLog2_eq (g := 62) (by omega) (by omega)
  refine ⟨_, Binary.rootPosition_spec p h2, ?_⟩
  rw [hc]
  have e : (⟨2 * i⟩ : Position) = posOf 0 i := by simp [posOf, ioIndex_zero_left]
  rw [e]
  exact Binary.pathList_panic p hp (by omega) (by omega) hi

/-! ### C23 -/

/-- The items after the first one, from height `g` downwards. -/
def pathBelow (i : Nat) : Nat → List (Position × Position)
  | 0 => []
  | g + 1 => (posOf g (i / 2 ^ g), posOf g (sibIdx (i / 2 ^ g))) :: pathBelow i g

theorem collect_path (p : Profile) (g : Nat) : ∀ (i f : Nat) (s : Position), i < 2 ^ 63 → g ≤ p.topHeight → g + 1 < f →
    PathIter.collectPositions p f (pstate i g (some (posOf g (i / 2 ^ g), s))) =
      .ok ((posOf g (i / 2 ^ g), s) :: pathBelow i g) := by
  have htop := p.topHeight_le
  induction g with
  | zero =>
    intro i f s hi hg hf
    obtain ⟨f, rfl⟩ : ∃ f', f = f' + 2 := ⟨f - 2, by omega⟩
    rw [PathIter.collectPositions, pnext_leaf]
    simp only [Res.ok_bind]
    rw [PathIter.collectPositions, pnext_none]
    rfl
  | succ g ih =>
    intro i f s hi hg hf
    obtain ⟨f, rfl⟩ : ∃ f', f = f' + 1 := ⟨f - 1, by omega⟩
    have hb : ioIndex (g + 1) (i / 2 ^ (g + 1)) < 2 ^ 64 := by
      rw [ioIndex_lt_iff _ (by omega)]
      apply Nat.div_lt_of_lt_mul
      rw [← Nat.pow_add, show g + 1 + (64 - 1 - (g + 1)) = 63 by omega]
      exact hi
    rw [PathIter.collectPositions, pnext_node p s hi (by omega) hb]
    simp only [Res.ok_bind]
    have hd : i / 2 ^ (g + 1) = i / 2 ^ g / 2 := by rw [Nat.pow_succ, Nat.div_div_eq_div_mul]
    have hbit := Nat.testBit_eq_decide_div_mod_eq (x := i) (i := g)
    have : (if i.testBit g then (posOf g (2 * (i / 2 ^ (g + 1)) + 1), posOf g (2 * (i / 2 ^ (g + 1))))
          else (posOf g (2 * (i / 2 ^ (g + 1))), posOf g (2 * (i / 2 ^ (g + 1)) + 1))) =
        (posOf g (i / 2 ^ g), posOf g (sibIdx (i / 2 ^ g))) := by
      rw [hd, hbit]
      by_cases hc : i / 2 ^ g % 2 = 1
      · rw [if_pos (by simp [hc])]
        unfold sibIdx
        rw [if_neg (by omega)]
        congr 2 <;> omega
      · rw [if_neg (by simp [hc])]
        unfold sibIdx
        rw [if_pos (by omega)]
        congr 2 <;> omega
    rw [this, ih i f _ hi (by omega) (by omega)]
    rfl

theorem pathBelow_get (i g j : Nat) : (pathBelow i g)[j]? =
    if j < g then some (posOf (g - 1 - j) (i / 2 ^ (g - 1 - j)), posOf (g - 1 - j) (sibIdx (i / 2 ^ (g - 1 - j))))
    else none := by
  induction g generalizing j with
  | zero => simp [pathBelow]
  | succ g ih =>
    cases j with
    | zero => simp [pathBelow]
    | succ j =>
      rw [pathBelow, List.getElem?_cons_succ, ih]
      simp only [Nat.add_lt_add_iff_right]
      rw [show g + 1 - 1 - (j + 1) = g - 1 - j by omega]

/-- `root.as_path_iter(leaf)` for a leaf below `root` (height at most 62, or 63 in a
build without overflow checks): it starts with
`(root, root)`, each following item is a child of the previous path node paired with its
sibling, it has one item per level, and it ends at the leaf. -/
theorem C23_path_iteration (p : Profile) (root : Position) (hr : root.index < 2 ^ 64) (hh : root.height ≤ p.topHeight)
    (i : Nat) (h1 : root.index + 1 ≤ 2 * i + 2 ^ root.height) (h2 : 2 * i + 1 ≤ root.index + 2 ^ root.height) :
    ∃ items, asPathIterList p root ⟨2 * i⟩ = .ok items ∧ items.length = root.height + 1 ∧
      items[0]? = some (root, root) ∧
      (∀ (j : Nat) a sa b sb, items[j]? = some (a, sa) → items[j + 1]? = some (b, sb) →
        b.parent p = .ok a ∧ b.sibling p = .ok sb) ∧
      items.getLast?.map Prod.fst = some ⟨2 * i⟩ := by
  have htop := p.topHeight_le
  obtain ⟨h, k, rfl, hb, e⟩ := exists_posOf root hr
  rw [e] at hh h1 h2 ⊢
  have hp := Nat.two_pow_pos h
  have hs := ioIndex_succ h k
  simp only [posOf] at h1 h2
  have hki : i / 2 ^ h = k := by
    have : 2 ^ h * (2 * k + 1) = 2 * (2 ^ h * k) + 2 ^ h := by ring
    rw [Nat.div_eq_iff hp]
    have e2 : k * 2 ^ h = 2 ^ h * k := by ring
    omega
  have hi : i < 2 ^ 63 := by
    rw [ioIndex_lt_iff _ (by omega)] at hb
    rw [← hki] at hb
    have := Nat.lt_mul_of_div_lt hb hp
    rwa [← Nat.pow_add, show 64 - 1 - h + h = 63 by omega] at this
  have eleaf : (⟨2 * i⟩ : Position) = posOf 0 i := by simp [posOf, ioIndex_zero_left]
  have hbg : ∀ g, g ≤ h → ioIndex g (i / 2 ^ g) < 2 ^ 64 := by
    intro g hg
    rw [ioIndex_lt_iff _ (by omega)]
    apply Nat.div_lt_of_lt_mul
    rw [← Nat.pow_add, show g + (64 - 1 - g) = 63 by omega]
    exact hi
  have hall : ∀ j, ((posOf h k, posOf h k) :: pathBelow i h)[j]?.map Prod.fst =
      if j ≤ h then some (posOf (h - j) (i / 2 ^ (h - j))) else none := by
    intro j
    cases j with
    | zero => simp [hki]
    | succ j =>
      rw [List.getElem?_cons_succ, pathBelow_get]
      by_cases hj : j < h
      · rw [if_pos hj, if_pos (by omega), Option.map_some, show h - 1 - j = h - (j + 1) by omega]
      · rw [if_neg hj, if_neg (by omega)]; rfl
  have hlen : ∀ g, (pathBelow i g).length = g := by
    intro g
    induction g with
    | zero => rfl
    | succ g ih => simp [pathBelow, ih]
  refine ⟨(posOf h k, posOf h k) :: pathBelow i h, ?_, ?_, rfl, ?_, ?_⟩
  · unfold asPathIterList PathIter.new
    have : (positionNode p).lift (usizeSub p (positionNode p).keySizeInBits
        ((positionNode p).height (posOf h k))) = .ok (64 - h) := by
      simp only [positionNode, e, usizeSub, if_pos (show h ≤ 64 by omega)]
    rw [this, Res.ok_bind]
    have := collect_path p h i (PathIter.fuel (positionNode p)) (posOf h k) hi hh
      (by simp [PathIter.fuel, positionNode]; omega)
    rw [hki] at this
    simpa [pstate, eleaf] using this
  · simp [hlen]
  · intro j a sa b sb ha hb'
    have h3 := hall j
    rw [ha] at h3
    have hj : j < h := by
      rw [List.getElem?_cons_succ, pathBelow_get] at hb'
      by_contra hc
      rw [if_neg hc] at hb'; cases hb'
    rw [if_pos (by omega)] at h3
    have h3 : a = posOf (h - j) (i / 2 ^ (h - j)) := Option.some.inj h3
    rw [List.getElem?_cons_succ, pathBelow_get, if_pos hj] at hb'
    have h4 := Option.some.inj hb'
    obtain ⟨rfl, rfl⟩ := Prod.mk.inj h4
    constructor
    · rw [(parent_top p (hbg _ (by omega)) (by omega)).1, h3, Nat.div_div_eq_div_mul, ← Nat.pow_succ]
      simp only [Nat.succ_eq_add_one]
      rw [show h - 1 - j + 1 = h - j by omega]
    · exact (parent_top p (hbg _ (by omega)) (by omega)).2
  · rw [List.getLast?_eq_getElem?, List.length_cons, hlen, Nat.add_sub_cancel, hall, if_pos (Nat.le_refl _),
      Nat.sub_self, eleaf]
    simp

example : (⟨7⟩ : Position).height = 3 ∧ 7 + 1 ≤ 2 * 5 + 2 ^ 3 ∧ 2 * 5 + 1 ≤ 7 + 2 ^ 3 := by decide +kernel

/-! ### C24 -/

/-- The path of leaf `i` in a tree of a supported size, from the root position computed
by the code: the positions of the RFC 6962 subtrees on the way to the leaf, each with the
position of its sibling subtree (`Spec.shapePath`, `Spec.rangeIndex`); every yielded subtree
consists of leaves that exist. -/
theorem C24_position_path (p : Profile) (n i : Nat) (hn : n < p.leafLimit) (hi : i < n) :
    ∃ root, Binary.rootPosition p n = .ok root ∧
      root.pathList p ⟨2 * i⟩ n = .ok ((shapePath 0 n i (0, n)).map fun x =>
        (⟨rangeIndex x.1⟩, ⟨rangeIndex x.2⟩)) ∧
      ∀ x ∈ shapePath 0 n i (0, n), 0 < x.1.2 ∧ x.1.1 ≤ i ∧ i < x.1.1 + x.1.2 ∧ x.1.1 + x.1.2 ≤ n ∧
        0 < x.2.2 ∧ x.2.1 + x.2.2 ≤ n := by
  have hlim := p.leafLimit_le
  refine ⟨_, Binary.rootPosition_spec p (by omega), ?_, ?_⟩
  · have e : (⟨2 * i⟩ : Position) = posOf 0 i := by simp [posOf, ioIndex_zero_left]
    rw [e, pathList_eq p (Binary.ceilLog2_top p hn) (by omega) hi
      (by have := (ceilLog2_le_iff (n + 1) _).1 (Nat.le_refl _); omega)]
    rfl
  · have key : ∀ r a (s : Nat × Nat), a ≤ i → i < a + r → a + r ≤ n → 0 < s.2 → s.1 + s.2 ≤ n →
        ∀ x ∈ shapePath a r i s, 0 < x.1.2 ∧ x.1.1 ≤ i ∧ i < x.1.1 + x.1.2 ∧ x.1.1 + x.1.2 ≤ n ∧
        0 < x.2.2 ∧ x.2.1 + x.2.2 ≤ n := by
      intro r
      induction r using Nat.strongRecOn with
      | _ r ih =>
        intro a s h1 h2 h3 h4 h5 x hx
        rw [shapePath] at hx
        split at hx
        · next hr =>
          have hs := split_spec hr
          have hpos : 0 < split r := by obtain ⟨⟨e, he⟩, _⟩ := hs; rw [he]; exact Nat.two_pow_pos e
          rcases List.mem_cons.1 hx with rfl | hx
          · exact ⟨by simp only; omega, h1, h2, h3, h4, h5⟩
          · split at hx
            · exact ih (split r) (by omega) a _ h1 (by omega) (by omega) (by simp only; omega)
                (by simp only; omega) x hx
            · exact ih (r - split r) (by omega) (a + split r) _ (by omega) (by omega) (by omega)
                (by simp only; omega) (by simp only; omega) x hx
        · simp only [List.mem_singleton] at hx
          subst hx
          exact ⟨by simp only; omega, h1, h2, h3, h4, h5⟩
    exact key n 0 (0, n) (by omega) (by omega) (by omega) (by simp only; omega) (by simp)

example : shapePath 0 5 4 (0, 5) = [((0, 5), (0, 5)), ((4, 1), (0, 4))] ∧ rangeIndex (0, 5) = 7 ∧
    rangeIndex (4, 1) = 8 ∧ rangeIndex (0, 4) = 3 := by decide +kernel

/-! ### C25 -/

/-- The positions consulted by `load` for `n` leaves are the peaks given by the binary
digits of `n` (`Spec.peaks`). -/
theorem C25_peaks (p : Profile) (n : Nat) (hn : n < p.leafLimit) :
    Binary.peakPositions p n = .ok ((peaks 64 0 n).map fun x => ⟨2 * x.1 + x.2 - 1⟩) := by
  have hlim := p.leafLimit_le
  rw [Binary.peakPositions_spec p hn, Binary.peakRanges_eq (by omega)]
  congr 1
  apply List.map_congr_left
  have key : ∀ b a, ∀ x ∈ peaks b a n, rangeIndex x = 2 * x.1 + x.2 - 1 := by
    intro b
    induction b with
    | zero => intro a x hx; simp [peaks] at hx
    | succ b ih =>
      intro a x hx
      rw [peaks] at hx
      split at hx
      · rcases List.mem_cons.1 hx with rfl | hx
        · simp [rangeIndex, ceilLog2_two_pow]
        · exact ih _ _ hx
      · exact ih _ _ hx
  intro x hx
  simp only [rangePos]
  rw [key 64 0 x hx]

/-- The peaks cover the leaves `0, …, n - 1` in order without overlap, their sizes are
powers of two and strictly decrease. -/
theorem C25_peaks_cover (n : Nat) (hn : n < 2 ^ 64) :
    ((peaks 64 0 n).flatMap fun x => List.range' x.1 x.2) = List.range n ∧
    (peaks 64 0 n).Pairwise (fun x y => y.2 < x.2) ∧ ∀ x ∈ peaks 64 0 n, ∃ e, x.2 = 2 ^ e := by
  have h1 : ∀ b a, ((peaks b a n).flatMap fun x => List.range' x.1 x.2) = List.range' a (n % 2 ^ b) := by
    intro b
    induction b with
    | zero => intro a; simp [peaks, Nat.mod_one]
    | succ b ih =>
      intro a
      have e : n % 2 ^ (b + 1) = 2 ^ b * (n / 2 ^ b % 2) + n % 2 ^ b := by
        rw [Nat.pow_succ, Nat.mod_mul]; omega
      rw [peaks, Nat.testBit_eq_decide_div_mod_eq]
      by_cases hc : n / 2 ^ b % 2 = 1
      · rw [if_pos (by simp [hc]), List.flatMap_cons, ih, e, hc, Nat.mul_one, List.range'_append_1]
      · rw [if_neg (by simp [hc]), ih, e, show n / 2 ^ b % 2 = 0 by omega]; simp
  have h2 : ∀ b a, ∀ x ∈ peaks b a n, x.2 < 2 ^ b ∧ ∃ e, x.2 = 2 ^ e := by
    intro b
    induction b with
    | zero => intro a x hx; simp [peaks] at hx
    | succ b ih =>
      intro a x hx
      have hp := Nat.two_pow_pos b
      rw [peaks] at hx
      split at hx
      · rcases List.mem_cons.1 hx with rfl | hx
        · exact ⟨by simp only [Nat.pow_succ]; omega, b, rfl⟩
        · have := ih _ _ hx
          exact ⟨by rw [Nat.pow_succ]; omega, this.2⟩
      · have := ih _ _ hx
        exact ⟨by rw [Nat.pow_succ]; omega, this.2⟩
  have h3 : ∀ b a, (peaks b a n).Pairwise (fun x y => y.2 < x.2) := by
    intro b
    induction b with
    | zero => intro a; simp [peaks]
    | succ b ih =>
      intro a
      rw [peaks]
      split
      · exact List.Pairwise.cons (fun y hy => (h2 b _ y hy).1) (ih _)
      · exact ih _
  refine ⟨?_, h3 64 0, fun x hx => (h2 64 0 x hx).2⟩
  rw [h1, Nat.mod_eq_of_lt hn, List.range_eq_range']

example : peaks 64 0 13 = [(0, 8), (8, 4), (12, 1)] := by decide

/-! ### C26 -/

/-- `get_bit_at_index_from_msb(i)` is binary digit `8N - 1 - i` of the big-endian number
written by the bytes, and `None` beyond. -/
theorem C26_bit_addressing (bytes : List UInt8) (i : Nat) :
    (i < 8 * bytes.length → getBitAtIndexFromMsb bytes i =
      some (if (beNat bytes).testBit (8 * bytes.length - 1 - i) then ._1 else ._0)) ∧
    (8 * bytes.length ≤ i → getBitAtIndexFromMsb bytes i = none) := by
  rw [getBitAtIndexFromMsb_eq]
  constructor
  · intro hi
    rw [bitsOf_get_beNat bytes hi, Option.map_some]
    cases (beNat bytes).testBit (8 * bytes.length - 1 - i) <;> rfl
  · intro hi
    rw [List.getElem?_eq_none (by rw [bitsOf_length]; exact hi)]; rfl

example : getBitAtIndexFromMsb [0x80, 0x01] 15 = some ._1 ∧ getBitAtIndexFromMsb [0x80, 0x01] 16 = none := by
  decide +kernel

/-! ### C27 -/

theorem bitsOf_injective {a b : List UInt8} (h : bitsOf a = bitsOf b) : a = b := by
  have dec : ∀ n, n < 256 → (bitsOfByte (UInt8.ofNat n)).foldl (fun acc x => 2 * acc + if x then 1 else 0) 0 = n := by
    decide +kernel
  have inj : ∀ x y : UInt8, bitsOfByte x = bitsOfByte y → x = y := by
    intro x y hxy
    have h1 := dec x.toNat x.toNat_lt
    have h2 := dec y.toNat y.toNat_lt
    rw [UInt8.ofNat_toNat] at h1 h2
    rw [hxy, h2] at h1
    exact UInt8.toNat_inj.1 h1.symm
  induction a generalizing b with
  | nil =>
    cases b with
    | nil => rfl
    | cons y ys => have := congrArg List.length h; simp [bitsOf, bitsOfByte_length] at this; omega
  | cons x xs ih =>
    cases b with
    | nil => have := congrArg List.length h; simp [bitsOf, bitsOfByte_length] at this
    | cons y ys =>
      have h : bitsOfByte x ++ bitsOf xs = bitsOfByte y ++ bitsOf ys := h
      obtain ⟨h1, h2⟩ := List.append_inj h rfl
      rw [inj x y h1, ih h2]

/-- `common_prefix_count` of two arrays of equal length: it never panics, is symmetric, is
`8N` iff the arrays are equal, and otherwise is the number of the first bit in which they
differ. -/
theorem C27_common_prefix (a b : List UInt8) (hlen : a.length = b.length) :
    ∃ c, commonPrefixCount a b = .ok c ∧ commonPrefixCount b a = .ok c ∧ c ≤ 8 * a.length ∧
      (c = 8 * a.length ↔ a = b) ∧
      (∀ i, i < c → getBitAtIndexFromMsb a i = getBitAtIndexFromMsb b i) ∧
      (c < 8 * a.length → getBitAtIndexFromMsb a c ≠ getBitAtIndexFromMsb b c) := by
  have hla := bitsOf_length a
  have hlb := bitsOf_length b
  have hle := lcp_le_left (bitsOf a) (bitsOf b)
  refine ⟨lcp (bitsOf a) (bitsOf b), commonPrefixCount_eq a b hlen, ?_, by omega, ⟨?_, ?_⟩, ?_, ?_⟩
  · rw [commonPrefixCount_eq b a hlen.symm, lcp_comm]
  · intro hc
    apply bitsOf_injective
    apply List.ext_getElem?
    intro i
    by_cases hi : i < lcp (bitsOf a) (bitsOf b)
    · exact lcp_get _ _ hi
    · rw [List.getElem?_eq_none (by omega), List.getElem?_eq_none (by omega)]
  · intro h; subst h; rw [lcp_self, hla]
  · intro i hi
    rw [getBitAtIndexFromMsb_eq, getBitAtIndexFromMsb_eq, lcp_get _ _ hi]
  · intro hc
    rw [getBitAtIndexFromMsb_eq, getBitAtIndexFromMsb_eq]
    have := lcp_get_ne (bitsOf a) (bitsOf b) (by omega) (by omega)
    rw [List.getElem?_eq_getElem (by omega), List.getElem?_eq_getElem (by omega)] at this ⊢
    intro h
    apply this
    simp only [Option.map_some, Option.some.injEq, Bit.ofBool_inj] at h
    rw [h]

example : commonPrefixCount [0xF0, 0x00] [0xF1, 0x00] = .ok 7 := by decide +kernel

end FuelMerkle.Props
