import Verif.Proofs.PathEnds
import Verif.Props.Position

/-
C73: the path iterators over positions on every input. `Position`, `Position::path` and
`AsPathIterator` are public, so the root need not be the root of a tree, the leaf need not lie
below it or exist, and the leaf count is any `u64`.
-/
namespace FuelMerkle.Props
open Spec

/-- `Spec.blockPath` is `Spec.shapePath` when the leaf exists. -/
theorem blockPath_eq_shapePath (r : Nat) : ∀ (a i : Nat) (s : Nat × Nat), a ≤ i → i < a + r →
    blockPath a r i s = shapePath a r i s := by
  induction r using Nat.strongRecOn with
  | _ r ih =>
    intro a i s h1 h2
    have := le_blockSize r
    rw [blockPath, shapePath, if_neg (by omega)]
    split
    · next hr =>
      have hs := split_spec hr
      have hpos : 0 < split r := by obtain ⟨⟨e, he⟩, _⟩ := hs; rw [he]; exact Nat.two_pow_pos e
      dsimp only
      split
      · rw [ih (split r) (by omega) _ _ _ (by omega) (by omega)]
      · rw [ih (r - split r) (by omega) _ _ _ (by omega) (by omega)]
    · rfl

/-- Only the bits of the leaf number below the height of the root matter: a leaf that is not
below the root is treated as the leaf at the same place below it. Any root, any profile. -/
theorem C73_leaf_below_root (p : Profile) (root : Position) (i j : Nat) (hi : i < 2 ^ 63) (hj : j < 2 ^ 63)
    (e : i % 2 ^ root.height = j % 2 ^ root.height) :
    asPathIterList p root ⟨2 * i⟩ = asPathIterList p root ⟨2 * j⟩ ∧
    ∀ n, root.pathList p ⟨2 * i⟩ n = root.pathList p ⟨2 * j⟩ n := by
  have el : ∀ i, (⟨2 * i⟩ : Position) = posOf 0 i := by intro i; simp [posOf, ioIndex_zero_left]
  rw [el, el]
  exact ⟨asPathIterList_mod p root (by omega) (by omega) e,
    fun n => pathList_mod p root (by omega) (by omega) e n⟩

example : (⟨11⟩ : Position).height = 2 ∧ 1 % 2 ^ 2 = 5 % 2 ^ 2 ∧
    asPathIterList ⟨true, true, .w64⟩ ⟨11⟩ ⟨2 * 1⟩ = .ok [(⟨11⟩, ⟨11⟩), (⟨9⟩, ⟨13⟩), (⟨10⟩, ⟨8⟩)] ∧
    asPathIterList ⟨true, true, .w64⟩ ⟨11⟩ ⟨2 * 5⟩ = .ok [(⟨11⟩, ⟨11⟩), (⟨9⟩, ⟨13⟩), (⟨10⟩, ⟨8⟩)] := by
  decide +kernel

/-- The way towards a leaf number that does not exist is the beginning of the way to the last
leaf. -/
theorem blockPath_missing (r : Nat) : ∀ (a i : Nat) (s : Nat × Nat), a ≤ i → a + r ≤ i →
    ∃ k, blockPath a r i s = (shapePath a r (a + r - 1) s).take k := by
  induction r using Nat.strongRecOn with
  | _ r ih =>
    intro a i s h1 h2
    rw [blockPath]
    split
    · exact ⟨0, rfl⟩
    · next hb =>
      have hpos : 0 < r := blockSize_pos (by omega)
      rw [shapePath]
      split
      · next hr =>
        have hs := split_spec hr
        have hp : 0 < split r := by obtain ⟨⟨e, he⟩, _⟩ := hs; rw [he]; exact Nat.two_pow_pos e
        rw [if_neg (by omega)]
        dsimp only
        rw [if_neg (by omega)]
        obtain ⟨k, hk⟩ := ih (r - split r) (by omega) (a + split r) i (a, split r) (by omega) (by omega)
        refine ⟨k + 1, ?_⟩
        rw [hk, List.take_succ_cons, show a + split r + (r - split r) - 1 = a + r - 1 by omega]
      · exact ⟨1, rfl⟩

/-- The position path from any position of height at most 62 (63 without overflow checks), towards any leaf number below
it, for any leaf count up to `2^63`: it never panics, and it yields the subtrees of the part
of the tree that lies below the root, as far as they lie on the way to that leaf number. In
particular: the path of `Spec.shapePath` if the leaf exists, nothing if no leaf below the root
exists. -/
theorem C73_any_root (p : Profile) (root : Position) (hr : root.index < 2 ^ 64) (hh : root.height ≤ p.topHeight)
    (a : Nat) (ha : root.index + 1 = 2 * a + 2 ^ root.height)
    (i : Nat) (h1 : a ≤ i) (h2 : i < a + 2 ^ root.height) (n : Nat) (hn : 1 ≤ n) (hn2 : n ≤ 2 ^ 63) :
    let r := min (2 ^ root.height) (n - a)
    root.pathList p ⟨2 * i⟩ n = .ok ((blockPath a r i (a, r)).map fun x =>
        (⟨rangeIndex x.1⟩, ⟨rangeIndex x.2⟩)) ∧
      (i < n → root.pathList p ⟨2 * i⟩ n = .ok ((shapePath a r i (a, r)).map fun x =>
        (⟨rangeIndex x.1⟩, ⟨rangeIndex x.2⟩))) ∧
      (n ≤ a → root.pathList p ⟨2 * i⟩ n = .ok []) := by
  have htop := p.topHeight_le
  intro r
  obtain ⟨h, k, rfl, hb, e⟩ := exists_posOf root hr
  have er : r = min (2 ^ h) (n - a) := by rw [← e]
  rw [e] at hh ha h2
  have hp := Nat.two_pow_pos h
  have hs := ioIndex_succ h k
  simp only [posOf] at ha
  have e1 : 2 ^ h * (2 * k + 1) = 2 * (k * 2 ^ h) + 2 ^ h := by ring
  have eak : a = k * 2 ^ h := by omega
  have hki : i / 2 ^ h = k := div_of_range (r := 2 ^ h) (by omega) (by omega) (Nat.le_refl _)
  have hi : i < 2 ^ 63 := by
    rw [ioIndex_lt_iff _ (by omega)] at hb
    rw [← hki] at hb
    have := Nat.lt_mul_of_div_lt hb hp
    rwa [← Nat.pow_add, show 64 - 1 - h + h = 63 by omega] at this
  have el : (⟨2 * i⟩ : Position) = posOf 0 i := by simp [posOf, ioIndex_zero_left]
  have key := pathList_any p (n := n) (i := i) (g := h) hh hi hn hn2
  rw [hki, ← eak, ← er, ← el] at key
  refine ⟨key, fun hin => ?_, fun hna => ?_⟩
  · rw [key, blockPath_eq_shapePath r a i _ h1 (by omega)]
    rfl
  · have : r = 0 := by rw [er, Nat.sub_eq_zero_of_le hna, Nat.min_zero]
    rw [key, this, blockPath, if_pos (show a + blockSize 0 ≤ i from h1)]
    rfl

example : (⟨11⟩ : Position).index < 2 ^ 64 ∧ (⟨11⟩ : Position).height = 2 ∧ 11 + 1 = 2 * 4 + 2 ^ 2 ∧
    blockPath 4 (min (2 ^ 2) (7 - 4)) 6 (4, 3) = [((4, 3), (4, 3)), ((6, 1), (4, 2))] ∧
    blockPath 4 (min (2 ^ 2) (7 - 4)) 7 (4, 3) = [((4, 3), (4, 3))] ∧
    blockPath 4 (min (2 ^ 2) (6 - 4)) 7 (4, 2) = [] := by decide +kernel

/-- The path of a leaf that does not exist, from a root with leaves below it, is the beginning
of the path of the last leaf below the root. -/
theorem C73_missing_leaf (p : Profile) (root : Position) (hr : root.index < 2 ^ 64) (hh : root.height ≤ p.topHeight)
    (a : Nat) (ha : root.index + 1 = 2 * a + 2 ^ root.height) (n : Nat) (hn : a < n) (hn2 : n ≤ 2 ^ 63)
    (i : Nat) (h1 : n ≤ i) (h2 : i < a + 2 ^ root.height) :
    ∃ items k, root.pathList p ⟨2 * (n - 1)⟩ n = .ok items ∧ root.pathList p ⟨2 * i⟩ n = .ok (items.take k) := by
  have k1 := (C73_any_root p root hr hh a ha (n - 1) (by omega) (by omega) n (by omega) hn2).2.1 (by omega)
  have k2 := (C73_any_root p root hr hh a ha i (by omega) h2 n (by omega) hn2).1
  have er : min (2 ^ root.height) (n - a) = n - a := by omega
  rw [er] at k1 k2
  obtain ⟨k, hk⟩ := blockPath_missing (n - a) a i (a, n - a) (by omega) (by omega)
  rw [show a + (n - a) - 1 = n - 1 by omega] at hk
  rw [hk, List.map_take] at k2
  exact ⟨_, k, k1, k2⟩

example : (⟨11⟩ : Position).pathList ⟨true, true, .w64⟩ ⟨2 * 6⟩ 7 = .ok [(⟨11⟩, ⟨11⟩), (⟨12⟩, ⟨9⟩)] ∧
    (⟨11⟩ : Position).pathList ⟨true, true, .w64⟩ ⟨2 * 7⟩ 7 = .ok [(⟨11⟩, ⟨11⟩)] := by decide +kernel

/-- Leaf counts that `path` does not accept: with overflow checks 0 and everything above
`2^63` panics; without them the count is taken modulo `2^63`, 0 standing for `2^63`. -/
theorem C73_counts (p : Profile) (root leaf : Position) (n : Nat) (hn : n = 0 ∨ 2 ^ 63 < n) (hn2 : n < 2 ^ 64) :
    (p.overflowChecks = true → root.pathList p leaf n = .error .overflow) ∧
    (p.overflowChecks = false →
      root.pathList p leaf n = root.pathList p leaf (if n = 0 then 2 ^ 63 else n - 2 ^ 63)) := by
  constructor
  · intro hp
    unfold Position.pathList PositionPathIter.new
    rcases hn with rfl | hn
    · simp only [u64Sub, hp]; rfl
    · simp only [u64Sub, if_pos (show 1 ≤ n by omega), Res.ok_bind, Position.fromLeafIndex, u64Mul]
      rw [if_neg (by omega), hp]; rfl
  · intro hp
    have key : ∀ n m l l' R, u64Sub p n 1 = .ok l → Position.fromLeafIndex p l = .ok R →
        u64Sub p m 1 = .ok l' → Position.fromLeafIndex p l' = .ok R →
        root.pathList p leaf n = root.pathList p leaf m := by
      intro n m l l' R h1 h2 h3 h4
      unfold Position.pathList PositionPathIter.new
      rw [h1, h3]
      simp only [Res.ok_bind]
      rw [h2, h4]
    have hmod : ∀ l, 2 ^ 63 ≤ l → l < 2 ^ 64 → Position.fromLeafIndex p l = .ok (posOf 0 (l - 2 ^ 63)) := by
      intro l h1 h2
      simp only [Position.fromLeafIndex, u64Mul]
      rw [if_neg (by omega), hp]
      simp only [Bool.false_eq_true, if_false, Res.ok_bind, posOf, ioIndex_zero_left, Res.pure_eq]
      have : l * 2 % 2 ^ 64 = 2 * (l - 2 ^ 63) := by omega
      rw [this]
    rcases hn with rfl | hn
    · rw [if_pos rfl]
      refine key 0 (2 ^ 63) (2 ^ 64 - 1) (2 ^ 63 - 1) (posOf 0 (2 ^ 63 - 1)) ?_ ?_ ?_ ?_
      · simp only [u64Sub, hp]; rfl
      · exact hmod _ (by omega) (by omega)
      · unfold u64Sub; rw [if_pos (by omega)]
      · exact fromLeafIndex_ok p (by omega)
    · rw [if_neg (by omega)]
      refine key n (n - 2 ^ 63) (n - 1) (n - 2 ^ 63 - 1) (posOf 0 (n - 2 ^ 63 - 1)) ?_ ?_ ?_ ?_
      · unfold u64Sub; rw [if_pos (by omega)]
      · rw [hmod _ (by omega) (by omega)]
        rw [show n - 1 - 2 ^ 63 = n - 2 ^ 63 - 1 by omega]
      · unfold u64Sub; rw [if_pos (by omega)]
      · exact fromLeafIndex_ok p (by omega)

example : (⟨3⟩ : Position).pathList ⟨false, false, .w64⟩ ⟨0⟩ (2 ^ 63 + 3) =
    .ok [(⟨3⟩, ⟨3⟩), (⟨1⟩, ⟨4⟩), (⟨0⟩, ⟨2⟩)] := by decide +kernel

/-- A "leaf" argument that is not a leaf position: below a node the iterators panic with the
assertion of `leaf_index`; from a leaf there is nothing to choose, and the root alone is
yielded (by `path` only if it exists). -/
theorem C73_not_a_leaf (p : Profile) (root leaf : Position) (hl : leaf.isLeaf = false) (n : Nat) (hn : 1 ≤ n)
    (hn2 : n ≤ 2 ^ 63) :
    (root.isLeaf = false → asPathIterList p root leaf = .error .assertion ∧
      root.pathList p leaf n = .error .assertion) ∧
    (root.isLeaf = true → asPathIterList p root leaf = .ok [(root, root)] ∧
      root.pathList p leaf n = .ok (if root.index < 2 * n then [(root, root)] else [])) := by
  have hk : (positionNode p).leafKey leaf = .error .assertion := by
    simp only [positionNode, Position.leafIndex, rassert, hl]; rfl
  have hpl : root.pathList p leaf n = PositionPathIter.collect p (PathIter.fuel (positionNode p))
      ⟨posOf 0 (n - 1), none, ⟨leaf, some (.ok root, .ok root), 64 - root.height⟩⟩ := by
    unfold Position.pathList PositionPathIter.new PathIter.new
    rw [new_lift]
    simp only [u64Sub, if_pos hn, Res.ok_bind]
    rw [fromLeafIndex_ok p (by omega)]
    rfl
  have hal : asPathIterList p root leaf = PathIter.collectPositions p (PathIter.fuel (positionNode p))
      ⟨leaf, some (.ok root, .ok root), 64 - root.height⟩ := by
    unfold asPathIterList PathIter.new
    rw [new_lift]
    rfl
  have hnone : PathIter.next (positionNode p) ⟨leaf, none, 64 - root.height⟩ =
      .ok (none, ⟨leaf, none, 64 - root.height⟩) := rfl
  constructor
  · intro hr
    have hnext : PathIter.next (positionNode p) ⟨leaf, some (.ok root, .ok root), 64 - root.height⟩ =
        .error .assertion := by
      unfold PathIter.next
      dsimp only
      rw [if_pos (by simp [positionNode, Position.isNode, hr]), hk]
      rfl
    rw [hpl, hal]
    simp only [PathIter.fuel]
    rw [PathIter.collectPositions, PositionPathIter.collect]
    simp only [PathIter.fuel]
    rw [PositionPathIter.next, hnext]
    exact ⟨rfl, rfl⟩
  · intro hr
    have hnext : PathIter.next (positionNode p) ⟨leaf, some (.ok root, .ok root), 64 - root.height⟩ =
        .ok (some (.ok root, .ok root), ⟨leaf, none, 64 - root.height⟩) := by
      unfold PathIter.next
      dsimp only
      rw [if_neg (by simp [positionNode, Position.isNode, hr])]
      rfl
    rw [hpl, hal]
    simp only [PathIter.fuel]
    constructor
    · rw [PathIter.collectPositions, hnext, Res.ok_bind]
      dsimp only
      rw [PathIter.collectPositions, hnone]
      rfl
    · rw [PositionPathIter.collect]
      simp only [PathIter.fuel]
      rw [PositionPathIter.next, hnext, Res.ok_bind]
      dsimp only
      have hidx : (posOf 0 (n - 1)).inOrderIndex = 2 * (n - 1) := by
        simp [Position.inOrderIndex, posOf, ioIndex_zero_left]
      have heven : root.index % 2 = 0 := by simpa [Position.isLeaf, Position.inOrderIndex] using hr
      by_cases hv : root.index < 2 * n
      · have hle : root.inOrderIndex ≤ (posOf 0 (n - 1)).inOrderIndex := by
          rw [hidx, Position.inOrderIndex]; omega
        rw [if_pos hle, if_pos hv, PositionPathIter.descendLeft, if_neg (by omega)]
        simp only [Res.pure_eq, Res.ok_bind]
        rw [PositionPathIter.collect]
        simp only [PathIter.fuel]
        rw [PositionPathIter.next, hnone]
        rfl
      · have hle : ¬ root.inOrderIndex ≤ (posOf 0 (n - 1)).inOrderIndex := by
          rw [hidx, Position.inOrderIndex]; omega
        rw [if_neg hle, if_neg hv, PositionPathIter.next]
        simp only [Option.isNone_none, if_true]
        rw [hnone]
        rfl

example : (⟨5⟩ : Position).isLeaf = false ∧ (⟨3⟩ : Position).isLeaf = false ∧ (⟨4⟩ : Position).isLeaf = true := by
  decide

/-- Iteration ends: for every root (also the two top positions, whose children are not
representable), every leaf argument, every leaf count and every profile the iterators yield
finitely many items or panic. -/
theorem C73_ends (p : Profile) (root leaf : Position) (hr : root.index < 2 ^ 64) (n : Nat) :
    asPathIterList p root leaf ≠ .error .diverges ∧ root.pathList p leaf n ≠ .error .diverges :=
  ⟨asPathIterList_ends p root leaf hr, pathList_ends p root leaf n hr⟩

example : (⟨2 ^ 64 - 1⟩ : Position).index < 2 ^ 64 := by decide

end FuelMerkle.Props
