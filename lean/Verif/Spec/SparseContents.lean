import Verif.Spec.SparseCorrupt

/-
What the storage of a sparse tree holds after calls, computed from the map only. Used in the
statements of the properties.
-/
namespace FuelMerkle
namespace Sparse
open Spec

/-- The record among `qs` that belongs under `x`. -/
def recordAt (H : HashFn) (qs : List Prim) (x : Bytes32) : Option Prim := qs.find? fun q => H (recordMsg q) = x

/-- The contents with the records `qs` added, each under its hash. -/
def withRecords (H : HashFn) (qs : List Prim) (m : Bytes32 → Option Prim) : Bytes32 → Option Prim :=
  fun x => (recordAt H qs x).or (m x)

/-- The contents without what is under the hashes of the records `qs`. -/
def withoutRecords (H : HashFn) (qs : List Prim) (m : Bytes32 → Option Prim) : Bytes32 → Option Prim :=
  fun x => if (recordAt H qs x).isSome then none else m x

/-- A map and the contents of the storage of its tree. -/
structure Image where
  kv : Entries Bytes
  held : Bytes32 → Option Prim

/-- What a call does to the map and to the contents. Storing a value adds the records of the new
tree and the leaf record of the key under the key itself. A removal that finds a key on the path
removes the records of the old tree that are not in the new one; if it finds none, it removes what is
under the zero key; if the tree is empty or the key has no record, it does nothing. -/
def Op.onImage (H : HashFn) (op : Op) (s : Image) : Image :=
  match op.data with
  | some d => ⟨s.kv.put op.key d, fun x =>
      if x = op.key then some (0, 0x00, op.key, H d) else withRecords H (recordsOf H (s.kv.put op.key d)) s.held x⟩
  | none =>
    if s.kv = [] ∨ s.held op.key = none then s
    else match met op.key s.kv with
      | some k' => ⟨s.kv.erase k', withRecords H (recordsOf H (s.kv.erase k')) (withoutRecords H (recordsOf H s.kv) s.held)⟩
      | none => ⟨s.kv, fun x => if x = zero32 then none else s.held x⟩

/-- The map and contents after a history. -/
def imageFrom (H : HashFn) (s : Image) (ops : List Op) : Image := ops.foldl (fun s op => op.onImage H s) s

/-- The maps a history goes through. -/
def mapsThrough (H : HashFn) : Image → List Op → List (Entries Bytes)
  | s, [] => [s.kv]
  | s, op :: ops => s.kv :: mapsThrough H (op.onImage H s) ops

/-- The storage holds every record of the tree of the map. -/
def Complete (H : HashFn) (s : Image) : Prop := ∀ q ∈ recordsOf H s.kv, s.held (H (recordMsg q)) = some q

end Sparse
end FuelMerkle
