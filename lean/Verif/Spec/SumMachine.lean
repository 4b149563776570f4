import Verif.Spec.SumApi
import Verif.Spec.Stretches

/-
A machine for the sum tree: what every call returns and does to the storage, whatever the
storage does, in terms of the leaves alone.
-/
namespace FuelMerkle
namespace Sum
open Spec
variable {E : Type}

/-- The record of the tree over some leaves (at least one). -/
def recordOf (H : HashFn) (ds : List Item) : Node :=
  { height := if ds.length ≤ 1 then 0 else Nat.log2 (ds.length - 1) + 1
    hash := sumHash H ds
    fee := total ds % 2 ^ 64
    leftChildKey := if ds.length ≤ 1 then none else some (sumHash H (ds.take (split ds.length)))
    rightChildKey := if ds.length ≤ 1 then none else some (sumHash H (ds.drop (split ds.length))) }

/-- Write the records of these trees one after the other, until the fee of one does not fit into 64
bits and overflow checks are on, or a write fails. -/
def writeAll (p : Profile) (H : HashFn) : List (List Item) → SStore E → Except (Fail E) Unit × SStore E
  | [], s => (.ok (), s)
  | ds :: rest, s =>
    if p.overflowChecks = true ∧ 2 ^ 64 ≤ total ds then (.error (.panic .overflow), s)
    else
      let written : SStore E := { s with clock := s.clock + 1, map := Store.upd s.map (sumHash H ds) (some (recordOf H ds)) }
      match s.sched s.clock with
      | none => writeAll p H rest written
      | some f => (.error (.err f.err), if f.applied then written else { s with clock := s.clock + 1 })

/-- The leaves of the tree, and the storage. -/
structure Machine (E : Type) where
  leaves : List Item
  storage : SStore E

/-- One call. A push writes the records of the trees it completes; if it fails after the first write,
all leaves are lost from the tree. `root` writes the records of the trees it makes. -/
def Machine.step (p : Profile) (H : HashFn) (op : Op) (c : Machine E) : Out E × Machine E :=
  match op with
  | .push fee d =>
    let ds := c.leaves ++ [(fee, d)]
    match writeAll p H ((pushSizes ds.length).map (lastOf ds)) c.storage with
    | (.ok (), s) => (.push (.ok ()), ⟨ds, s⟩)
    | (.error e, s) => (.push (.error e), ⟨if c.storage.sched c.storage.clock = none then [] else c.leaves, s⟩)
  | .root =>
    match writeAll p H ((rootSizes c.leaves.length).map (lastOf c.leaves)) c.storage with
    | (.ok (), s) => (.root (.ok (total c.leaves % 2 ^ 64, if c.leaves = [] then emptySum else sumHash H c.leaves)), ⟨c.leaves, s⟩)
    | (.error e, s) => (.root (.error e), ⟨c.leaves, s⟩)

/-- A sequence of calls. -/
def Machine.run (p : Profile) (H : HashFn) : List Op → Machine E → List (Out E) × Machine E
  | [], c => ([], c)
  | op :: ops, c =>
    let (o, c') := c.step p H op
    let (os, c'') := Machine.run p H ops c'
    (o :: os, c'')

/-- The trees whose records the calls write, in order, when nothing fails. -/
def writes : List Op → List Item → List (List Item)
  | [], _ => []
  | .push fee d :: ops, ds => (pushSizes (ds.length + 1)).map (lastOf (ds ++ [(fee, d)])) ++ writes ops (ds ++ [(fee, d)])
  | .root :: ops, ds => (rootSizes ds.length).map (lastOf ds) ++ writes ops ds

end Sum
end FuelMerkle
