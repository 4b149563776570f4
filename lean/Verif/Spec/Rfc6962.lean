import Verif.Model.Basic

/-
Merkle trees of RFC 6962, section 2.1, written from the RFC and independently of the code:
the Merkle tree hash, audit paths, and the shape of the tree over `n` leaves.
-/
namespace FuelMerkle.Spec

/-- The largest power of two smaller than `n` (for `n > 1`); see `split_spec`. -/
def split (n : Nat) : Nat := 2 ^ Nat.log2 (n - 1)

theorem split_spec {n : Nat} (h : 1 < n) :
    (∃ e, split n = 2 ^ e) ∧ split n < n ∧ n ≤ 2 * split n := by
  have h1 : n - 1 ≠ 0 := by omega
  have h2 := (Nat.le_log2 (k := Nat.log2 (n - 1)) h1).1 (Nat.le_refl _)
  have h3 := (Nat.log2_lt (k := Nat.log2 (n - 1) + 1) h1).1 (by omega)
  rw [Nat.pow_succ] at h3
  refine ⟨⟨_, rfl⟩, ?_, ?_⟩ <;> unfold split <;> omega

/-- Merkle tree hash of a list of entries: `MTH({}) = H()`,
`MTH({d}) = H(0x00 || d)`, `MTH(D) = H(0x01 || MTH(D[0:k]) || MTH(D[k:n]))` with `k` the
largest power of two smaller than `n`. -/
def mth (H : HashFn) : List Bytes → Bytes32
  | [] => H []
  | [d] => H ([0x00] ++ d)
  | d :: d' :: ds =>
    let D := d :: d' :: ds
    let k := split D.length
    H ([0x01] ++ (mth H (D.take k)).val ++ (mth H (D.drop k)).val)
termination_by D => D.length
decreasing_by
  all_goals
    have := split_spec (n := (d :: d' :: ds).length) (by simp)
    obtain ⟨⟨e, he⟩, h2, _⟩ := this
    have := Nat.two_pow_pos e
    simp only [List.length_take, List.length_drop] at *
    omega

/-- Audit path of leaf `m` in the tree over `D`, from the leaf upwards:
`PATH(0, {d}) = {}`, `PATH(m, D) = PATH(m, D[0:k]) : MTH(D[k:n])` for `m < k`, and
`PATH(m, D) = PATH(m - k, D[k:n]) : MTH(D[0:k])` for `m ≥ k`. -/
def auditPath (H : HashFn) (m : Nat) : List Bytes → List Bytes32
  | [] => []
  | [_] => []
  | d :: d' :: ds =>
    let D := d :: d' :: ds
    let k := split D.length
    if m < k then auditPath H m (D.take k) ++ [mth H (D.drop k)]
    else auditPath H (m - k) (D.drop k) ++ [mth H (D.take k)]
termination_by D => D.length
decreasing_by
  all_goals
    have := split_spec (n := (d :: d' :: ds).length) (by simp)
    obtain ⟨⟨e, he⟩, h2, _⟩ := this
    have := Nat.two_pow_pos e
    simp only [List.length_take, List.length_drop] at *
    omega

/-- The subtrees met on the way from the root of the tree over the `r` leaves
`a, …, a + r - 1` to leaf `i`, each with its sibling subtree; a subtree is given by its first
leaf and its number of leaves. `side` is reported as the sibling of the first one. -/
def shapePath (a r i : Nat) (side : Nat × Nat) : List ((Nat × Nat) × (Nat × Nat)) :=
  if h : 1 < r then
    have := split_spec h
    have : 0 < split r := by obtain ⟨⟨e, he⟩, _⟩ := this; rw [he]; exact Nat.two_pow_pos e
    ((a, r), side) ::
      if i < a + split r then shapePath a (split r) i (a + split r, r - split r)
      else shapePath (a + split r) (r - split r) i (a, split r)
  else [((a, r), side)]
termination_by r
decreasing_by all_goals omega

/-- `⌈log₂ r⌉`: the height of the tree over `r` leaves. -/
def ceilLog2 (r : Nat) : Nat := if r ≤ 1 then 0 else Nat.log2 (r - 1) + 1

/-- In-order index of the root of the subtree over the leaves `a, …, a + r - 1` when leaf
`i` has index `2 * i`: it separates the first `2 ^ (ceilLog2 r - 1)` leaves from the rest. -/
def rangeIndex (ar : Nat × Nat) : Nat := 2 * ar.1 + 2 ^ ceilLog2 ar.2 - 1

/-- The peaks of the tree over `n < 2 ^ b` leaves, counting from leaf `a`: for each binary
digit of `n`, from the most significant one, a complete subtree of that size (given by its
first leaf and its number of leaves), laid out left to right. -/
def peaks : (b : Nat) → (a : Nat) → (n : Nat) → List (Nat × Nat)
  | 0, _, _ => []
  | b + 1, a, n => if n.testBit b then (a, 2 ^ b) :: peaks b (a + 2 ^ b) n else peaks b a n

/-- Number of ones in the binary expansion. -/
def popcount (n : Nat) : Nat := if h : n = 0 then 0 else n % 2 + popcount (n / 2)
termination_by n
decreasing_by omega

end FuelMerkle.Spec
