import Verif.Spec.BinaryApi
import Verif.Spec.Stretches

/-
A machine for the binary tree: what every call returns and does to the storage, whatever the
storage does, in terms of leaves alone.
-/
namespace FuelMerkle
namespace Binary
open Spec
variable {E : Type}

/-- The key of the tree over `r` leaves from leaf `i` on: the index of the ancestor of leaf `i` whose
height is that of the tree. -/
def keyOf (i r : Nat) : Nat := 2 ^ (ceilLog2 r + 1) * (i / 2 ^ ceilLog2 r) + 2 ^ ceilLog2 r - 1

/-- The key and the hash of the tree over the last `r` of the leaves `ds`, when `n` leaves have been
counted. -/
def treeOf (H : HashFn) (n : Nat) (ds : List Bytes) (r : Nat) : Nat × Bytes32 := (keyOf (n - r) r, mth H (lastOf ds r))

/-- Write these keys and hashes, until a write fails. -/
def writeTrees : List (Nat × Bytes32) → BStore E → Except (Fail (Error E)) Unit × BStore E
  | [], s => (.ok (), s)
  | x :: rest, s =>
    let written : BStore E := { s with clock := s.clock + 1, map := Store.upd s.map x.1 (some x) }
    match s.sched s.clock with
    | none => writeTrees rest written
    | some f => (.error (.err (.storageError f.err)), if f.applied then written else { s with clock := s.clock + 1 })

/-- Read the hashes under these keys, those at hand being preferred, until a read fails or finds nothing. -/
def readHashes (hand : List (Nat × Bytes32)) : List Nat → BStore E → Except (Fail (Error E)) (List Bytes32) × BStore E
  | [], s => (.ok [], s)
  | k :: rest, s =>
    let read : BStore E := { s with clock := s.clock + 1 }
    match s.sched s.clock with
    | some f => (.error (.err (.storageError f.err)), read)
    | none =>
      match (hand.lookup k).or ((s.map k).map Prod.snd) with
      | none => (.error (.err (.loadError k)), read)
      | some h =>
        match readHashes hand rest read with
        | (.ok hs, s') => (.ok (h :: hs), s')
        | (.error e, s') => (.error e, s')

/-- The keys of the subtrees beside the path from leaf `i` to the root of a tree of `n` leaves, from
the leaf up. -/
def sideKeys (n i : Nat) : List Nat := (((shapePath 0 n i (0, n)).map Prod.snd).reverse.dropLast).map rangeIndex

/-- The number of leaves the tree says it has, the leaves it works with, and the storage. -/
structure Machine (E : Type) where
  count : Nat
  leaves : List Bytes
  storage : BStore E

/-- One call. A push writes the trees it completes; if it fails after the first write, all leaves are
lost, but the count is not reset. -/
def Machine.step (H : HashFn) (op : Op) (c : Machine E) : Out E × Machine E :=
  match op with
  | .push d =>
    let ds := c.leaves ++ [d]
    match writeTrees ((pushSizes ds.length).map (treeOf H (c.count + 1) ds)) c.storage with
    | (.ok (), s) => (.push (.ok ()), ⟨c.count + 1, ds, s⟩)
    | (.error e, s) => (.push (.error e), ⟨c.count, if c.storage.sched c.storage.clock = none then [] else c.leaves, s⟩)
  | .root => (.root (.ok (if c.leaves = [] then emptySum else mth H c.leaves)), c)
  | .prove i =>
    if c.count ≤ i then (.prove (.error (.err (.invalidProofIndex i))), c)
    else
      let read : BStore E := { c.storage with clock := c.storage.clock + 1 }
      match c.storage.sched c.storage.clock with
      | some f => (.prove (.error (.err (.storageError f.err))), { c with storage := read })
      | none =>
        match c.storage.map (2 * i) with
        | none => (.prove (.error (.err (.loadError i))), { c with storage := read })
        | some q =>
          if c.leaves = [] then (.prove (.error (.panic .unwrapNone)), { c with storage := read })
          else
            match readHashes ((rootSizes c.leaves.length).map (treeOf H c.count c.leaves)).reverse (sideKeys c.count i) read with
            | (.ok hs, s) => (.prove (.ok (mth H c.leaves, q.2 :: hs)), { c with storage := s })
            | (.error e, s) => (.prove (.error e), { c with storage := s })

/-- A sequence of calls. -/
def Machine.run (H : HashFn) : List Op → Machine E → List (Out E) × Machine E
  | [], c => ([], c)
  | op :: ops, c =>
    let (o, c') := c.step H op
    let (os, c'') := Machine.run H ops c'
    (o :: os, c'')

/-- The leaves pushed by a sequence of calls. -/
def pushes : List Op → List Bytes
  | [] => []
  | .push d :: ops => d :: pushes ops
  | _ :: ops => pushes ops

end Binary
end FuelMerkle
