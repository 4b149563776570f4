import Verif.Spec.SparseContents

/-
The calls of the sparse tree as storage calls: which records are read, removed and written, in which
order, and what comes back when one of these calls fails. Everything is computed from the map, and no
node is ever built. Used in the statements of the properties.
-/
namespace FuelMerkle
namespace Sparse
open Spec
variable {E : Type}

/-- The entries left on the way down along the bits of `k`, with the number of bits used up, until
at most one entry is left. -/
def levelsFrom (k : Bytes32) {V : Type} : (fuel d : Nat) → Entries V → List (Nat × Entries V)
  | 0, d, es => [(d, es)]
  | fuel + 1, d, es =>
    if es.length ≤ 1 then [(d, es)]
    else (d, es) :: levelsFrom k fuel (d + 1) (es.filter fun x => keyBit x.1 d == keyBit k d)

/-- The way down from the root of the tree of a map. -/
def levels (H : HashFn) (k : Bytes32) (kv : Entries Bytes) : List (Nat × Entries Bytes32) := levelsFrom k 256 0 (digests H kv)

/-- The levels at which the tree branches. -/
def branches (H : HashFn) (k : Bytes32) (kv : Entries Bytes) : List (Nat × Entries Bytes32) :=
  (levels H k kv).filter fun x => 2 ≤ x.2.length

/-- The hash of the tree over entries that agree on their first `d` bits. -/
def hashAt (H : HashFn) (d : Nat) (es : Entries Bytes32) : Bytes32 := smt H (256 - d) d es

/-- The hashes met on the way down, the root first. -/
def wayHashes (H : HashFn) (k : Bytes32) (kv : Entries Bytes) : List Bytes32 := (levels H k kv).map fun x => hashAt H x.1 x.2

/-- The hashes of the two parts at every branch, that of the part with `k` first. -/
def wayPairs (H : HashFn) (k : Bytes32) (kv : Entries Bytes) : List (Bytes32 × Bytes32) :=
  (branches H k kv).map fun x =>
    (hashAt H (x.1 + 1) (x.2.filter fun y => keyBit y.1 x.1 == keyBit k x.1), hashAt H (x.1 + 1) (x.2.filter fun y => keyBit y.1 x.1 != keyBit k x.1))

/-- The records of the branches on the way down, each with the hash it is filed under. -/
def wayRecords (H : HashFn) (k : Bytes32) (kv : Entries Bytes) : List (Bytes32 × Prim) :=
  (branches H k kv).map fun x =>
    (hashAt H x.1 x.2, (256 - x.1, 0x01, hashAt H (x.1 + 1) (x.2.filter fun y => !keyBit y.1 x.1), hashAt H (x.1 + 1) (x.2.filter fun y => keyBit y.1 x.1)))

/-! ### Storage calls -/

/-- Look for the record under a hash; the zero hash stands for nothing and is not looked for. -/
def seek (x : Bytes32) (s : SpStore E) : Option (CErr E) × SpStore E :=
  if x = zero32 then (none, s)
  else match Store.get x s with
    | (.error e, s') => (some (.error (.storageError e)), s')
    | (.ok none, s') => (some (.childNotFound x), s')
    | (.ok (some _), s') => (none, s')

/-- Look for two records, one after the other, whatever comes back for the first. -/
def seekBoth (x : Bytes32 × Bytes32) (s : SpStore E) : (Option (CErr E) × Option (CErr E)) × SpStore E :=
  (((seek x.1 s).1, (seek x.2 (seek x.1 s).2).1), (seek x.2 (seek x.1 s).2).2)

/-- Look for pairs of records on the way down. A failure at the first record of a pair ends it. A
failure at the second one ends it one pair later. -/
def seekAll : List (Bytes32 × Bytes32) → SpStore E → Option (CErr E) × SpStore E
  | [], s => (none, s)
  | x :: xs, s =>
    match seekBoth x s with
    | ((some e, _), s') => (some e, s')
    | ((none, some e), s') =>
      match xs with
      | [] => (some e, s')
      | y :: _ => (some e, (seekBoth y s').2)
    | ((none, none), s') => seekAll xs s'

/-- Write records, up to the first failure. -/
def putAll : List (Bytes32 × Prim) → SpStore E → Option E × SpStore E
  | [], s => (none, s)
  | x :: xs, s =>
    match Store.insert x.1 x.2 s with
    | (.error e, s') => (some e, s')
    | (.ok _, s') => putAll xs s'

/-- Remove records, up to the first failure. -/
def dropAll : List Bytes32 → SpStore E → Option E × SpStore E
  | [], s => (none, s)
  | x :: xs, s =>
    match Store.remove x s with
    | (.error e, s') => (some e, s')
    | (.ok _, s') => dropAll xs s'

/-! ### The machine -/

/-- A map and the storage of its tree. -/
structure Machine (E : Type) where
  kv : Entries Bytes
  storage : SpStore E

/-- The map after a call that does not fail. -/
def Op.target (op : Op) (m : Machine E) : Entries Bytes :=
  match op.data with
  | some d => m.kv.put op.key d
  | none =>
    if (m.storage.map op.key).isSome then
      match met op.key m.kv with
      | some k' => m.kv.erase k'
      | none => m.kv
    else m.kv

/-- The end of every call that changes the tree: the branches on the way of the key in the new map are
written, the lowest first. If that succeeds the new map takes the place of the old one. -/
def finish (H : HashFn) (k : Bytes32) (old new : Entries Bytes) (s : SpStore E) : Except (Fail (Error E)) Unit × Machine E :=
  match putAll (wayRecords H k new).reverse s with
  | (some e, s') => (.error (.err (.storageError e)), ⟨old, s'⟩)
  | (none, s') => (.ok (), ⟨new, s'⟩)

/-- One call. Storing: the leaf record is written under its hash and under the key, the old way of
the key is read, the new way is written. Removing, if the tree is not empty: the record of the key is
read; if there is one, the way of the key is read, then removed from the bottom to the root, and
the new way is written. -/
def Op.onMachine (H : HashFn) (op : Op) (m : Machine E) : Except (Fail (Error E)) Unit × Machine E :=
  match op.data with
  | some d =>
    match putAll [(H (smtLeafMsg op.key (H d)), (0, 0x00, op.key, H d)), (op.key, (0, 0x00, op.key, H d))] m.storage with
    | (some e, s) => (.error (.err (.storageError e)), ⟨m.kv, s⟩)
    | (none, s) =>
      match seekAll (wayPairs H op.key m.kv) s with
      | (some e, s) => (.error (.err (.childError e)), ⟨m.kv, s⟩)
      | (none, s) => finish H op.key m.kv (op.target m) s
  | none =>
    if m.kv = [] then (.ok (), m)
    else match Store.get op.key m.storage with
      | (.error e, s) => (.error (.err (.storageError e)), ⟨m.kv, s⟩)
      | (.ok none, s) => (.ok (), ⟨m.kv, s⟩)
      | (.ok (some _), s) =>
        match seekAll (wayPairs H op.key m.kv) s with
        | (some e, s) => (.error (.err (.childError e)), ⟨m.kv, s⟩)
        | (none, s) =>
          match dropAll (wayHashes H op.key m.kv).reverse s with
          | (some e, s) => (.error (.err (.storageError e)), ⟨m.kv, s⟩)
          | (none, s) => finish H op.key m.kv (op.target m) s

/-- A history of calls, going on after failures. -/
def runMachine (H : HashFn) : List Op → Machine E → List (Except (Fail (Error E)) Unit) × Machine E
  | [], m => ([], m)
  | op :: ops, m => ((op.onMachine H m).1 :: (runMachine H ops (op.onMachine H m).2).1, (runMachine H ops (op.onMachine H m).2).2)

/-- The maps a history goes through or tries to reach. -/
def triedMaps (H : HashFn) : List Op → Machine E → List (Entries Bytes)
  | [], m => [m.kv]
  | op :: ops, m => m.kv :: op.target m :: triedMaps H ops (op.onMachine H m).2

end Sparse
end FuelMerkle
