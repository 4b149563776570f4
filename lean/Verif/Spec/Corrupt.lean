import Verif.Spec.BinaryApi

/-
Binary trees opened on storage whose contents cannot be trusted: records that may hold any
hashes, the root that the hashes of the peaks determine, and what a history on such storage
may return. Used in the statements of the properties.
-/
namespace FuelMerkle
namespace Spec

/-- Every record names the key it is stored under. -/
def Filed (m : Nat → Option (Nat × Bytes32)) : Prop := ∀ k q, m k = some q → q.1 = k

/-- The root over hashes of peaks, given left to right: the last two are hashed first. -/
def bag (H : HashFn) : List Bytes32 → Bytes32
  | [] => H []
  | [h] => h
  | h :: h' :: hs => H ([0x01] ++ h.val ++ (bag H (h' :: hs)).val)

/-- The messages hashed to compute `bag H hs`. -/
def bagMsgs (H : HashFn) : List Bytes32 → List Bytes
  | [] => [[]]
  | [_] => []
  | h :: h' :: hs => ([0x01] ++ h.val ++ (bag H (h' :: hs)).val) :: bagMsgs H (h' :: hs)

/-- The records of the peaks of the tree over `n` leaves are all there and hold the hashes
`hs`, left to right. A complete subtree over the leaves `a, …, a + r - 1` is stored under the
in-order index of its root, `2 * a + r - 1`. -/
def PeaksHold (m : Nat → Option (Nat × Bytes32)) (n : Nat) (hs : List Bytes32) : Prop :=
  (peaks 64 0 n).map (fun x => (m (2 * x.1 + x.2 - 1)).map Prod.snd) = hs.map some

end Spec

namespace Binary
variable {E : Type}

/-- What a call may return, compared with what it should: the same; or, for a proof, an
error about a missing record; or a proof set of the right length for the right root. -/
inductive RightRoot : Out E → Out E → Prop where
  | same (o : Out E) : RightRoot o o
  | missing (k : Nat) (r : Bytes32) (xs : List Bytes32) :
      RightRoot (.prove (.error (.err (.loadError k)))) (.prove (.ok (r, xs)))
  | other (r : Bytes32) (xs ys : List Bytes32) : ys.length = xs.length →
      RightRoot (.prove (.ok (r, ys))) (.prove (.ok (r, xs)))

/-- The same for all calls of a history. -/
def RightRoots : List (Out E) → List (Out E) → Prop
  | [], [] => True
  | o :: os, w :: ws => RightRoot o w ∧ RightRoots os ws
  | _, _ => False

end Binary
end FuelMerkle
