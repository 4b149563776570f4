import Verif.Model.Sum
import Verif.Spec.SumTree

/-
Histories of calls of the sum tree API, and the list machine they are compared with.
-/
namespace FuelMerkle
namespace Sum
variable {E : Type}

/-- A call of the API. -/
inductive Op where
  | push (fee : Nat) (data : Bytes)
  | root
deriving DecidableEq, Repr

/-- What a call returns. -/
inductive Out (E : Type) where
  | push (r : Except (Fail E) Unit)
  | root (r : Except (Fail E) (Nat × Bytes32))

/-- One call on the tree. -/
def step (p : Profile) (H : HashFn) (op : Op) (t : Tree E) : Out E × Tree E :=
  match op with
  | .push fee d => let (r, t') := push p H fee d t; (.push r, t')
  | .root => let (r, t') := root p H t; (.root r, t')

/-- A sequence of calls on the tree. -/
def run (p : Profile) (H : HashFn) : List Op → Tree E → List (Out E) × Tree E
  | [], t => ([], t)
  | op :: ops, t =>
    let (o, t') := step p H op t
    let (os, t'') := run p H ops t'
    (o :: os, t'')

/-- Push a list of leaves, stopping at the first failure. -/
def pushAll (p : Profile) (H : HashFn) : List Spec.Item → TreeM E Unit
  | [] => pure ()
  | x :: ds => do
    push p H x.1 x.2
    pushAll p H ds

/-- The specification: the tree is the list of its leaves, and `root` reports the total fee
modulo `2^64` and the sum-tree hash. -/
def specStep (H : HashFn) (op : Op) (ds : List Spec.Item) : Out E × List Spec.Item :=
  match op with
  | .push fee d => (.push (.ok ()), ds ++ [(fee, d)])
  | .root => (.root (.ok (Spec.total ds % 2 ^ 64, if ds = [] then emptySum else Spec.sumHash H ds)), ds)

/-- The specification on a sequence of calls. -/
def specRun (H : HashFn) : List Op → List Spec.Item → List (Out E) × List Spec.Item
  | [], ds => ([], ds)
  | op :: ops, ds =>
    let (o, ds') := specStep H op ds
    let (os, ds'') := specRun H ops ds'
    (o :: os, ds'')

/-- The leaves pushed by a sequence of calls. -/
def pushed : List Op → List Spec.Item
  | [] => []
  | .push fee d :: ops => (fee, d) :: pushed ops
  | .root :: ops => pushed ops

/-- Follow the child keys through a storage from a key down to the leaves, left to right;
`none` if a record is missing or malformed or the depth exceeds the fuel. -/
def walk (m : Bytes32 → Option Node) : (fuel : Nat) → Bytes32 → Option (List (Nat × Bytes32))
  | 0, _ => none
  | fuel + 1, key =>
    match m key with
    | none => none
    | some n =>
      match n.leftChildKey, n.rightChildKey with
      | none, none => some [(n.fee, n.hash)]
      | some l, some r => do
        let a ← walk m fuel l
        let b ← walk m fuel r
        return a ++ b
      | _, _ => none

end Sum
end FuelMerkle
