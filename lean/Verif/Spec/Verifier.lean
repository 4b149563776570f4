import Verif.Spec.Rfc6962

/-
What a verifier of audit paths hashes, and what the Merkle tree hash of a list hashes: the
messages among which a collision has to be found by whoever wants to fool the verifier.
Also which leaf a list of directions leads to. Written independently of the code.
-/
namespace FuelMerkle.Spec

/-- Two messages of the given lists collide. -/
def Collide (H : HashFn) (xs ys : List Bytes) : Prop :=
  ∃ x ∈ xs, ∃ y ∈ ys, x ≠ y ∧ H x = H y

/-- The message of a node: the sibling is on the left if `onLeft`. -/
def stepMsg (sum : Bytes32) (onLeft : Bool) (sibling : Bytes32) : Bytes :=
  if onLeft then [0x01] ++ sibling.val ++ sum.val else [0x01] ++ sum.val ++ sibling.val

/-- Hash upwards from `sum` with the given siblings. -/
def climb (H : HashFn) (sum : Bytes32) : List (Bool × Bytes32) → Bytes32
  | [] => sum
  | (b, x) :: l => climb H (H (stepMsg sum b x)) l

/-- The messages hashed by `climb`. -/
def climbMsgs (H : HashFn) (sum : Bytes32) : List (Bool × Bytes32) → List Bytes
  | [] => []
  | (b, x) :: l => stepMsg sum b x :: climbMsgs H (H (stepMsg sum b x)) l

/-- The messages hashed to compute `mth H D`. -/
def mthMsgs (H : HashFn) : List Bytes → List Bytes
  | [] => [[]]
  | [d] => [[0x00] ++ d]
  | d :: d' :: ds =>
    let D := d :: d' :: ds
    let k := split D.length
    ([0x01] ++ (mth H (D.take k)).val ++ (mth H (D.drop k)).val) ::
      (mthMsgs H (D.take k) ++ mthMsgs H (D.drop k))
termination_by D => D.length
decreasing_by
  all_goals
    have := split_spec (n := (d :: d' :: ds).length) (by simp)
    obtain ⟨⟨e, he⟩, h2, _⟩ := this
    have := Nat.two_pow_pos e
    simp only [List.length_take, List.length_drop] at *
    omega

/-- Largest `m ≤ b` such that the aligned block of `2 ^ m` leaves around leaf `i` lies within
the first `n` leaves. -/
def blockHeight (i n : Nat) : (b : Nat) → Nat
  | 0 => 0
  | b + 1 => if (i / 2 ^ (b + 1) + 1) * 2 ^ (b + 1) ≤ n then b + 1 else blockHeight i n b

/-- The `m` lowest binary digits of `i`, lowest first. -/
def lowBits (i m : Nat) : List Bool := (List.range m).map fun j => i / 2 ^ j % 2 == 1

/-- The directions that are forced for leaf `i` of `n`: inside the largest aligned complete
block the sibling is on the left where `i` has a one; then, if the block is not at the right
end, one sibling on the right. -/
def forcedSides (i n : Nat) : List Bool :=
  let m := blockHeight i n 64
  lowBits i m ++ if (i / 2 ^ m + 1) * 2 ^ m = n then [] else [false]

/-- The smallest aligned block around leaf `i` that does not lie within the first `n` leaves
ends at `2 ^ 64` or later: its end is not a `u64`. -/
def TopBlock (i n : Nat) : Prop :=
  2 ^ 64 ≤ (i / 2 ^ (blockHeight i n 64 + 1) + 1) * 2 ^ (blockHeight i n 64 + 1)

/-- The sides used for a path of `len` siblings: all further ones are on the left. -/
def sidesOf (i n len : Nat) : List Bool :=
  forcedSides i n ++ List.replicate (len - (forcedSides i n).length) true

/-- The leaf reached from the root of the tree over `n` leaves by a list of directions
(`true` = to the right), if it is a leaf. -/
def leafAt : List Bool → (n : Nat) → Option Nat
  | [], n => if n = 1 then some 0 else none
  | b :: D, n =>
    if n ≤ 1 then none
    else if b then (leafAt D (n - split n)).map (· + split n) else leafAt D (split n)

end FuelMerkle.Spec
