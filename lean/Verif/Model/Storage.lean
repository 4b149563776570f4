import Verif.Model.Basic

/-
Storage: the `StorageInspect`/`StorageMutate` traits of `fuel-storage` as used through
`/repo/src/storage.rs`, and `StorageMap` of `/repo/src/common/storage_map.rs`.
-/
namespace FuelMerkle

/-- A failure injected by the environment into one storage call. `applied` says whether
the write of the failing call nevertheless reached the storage. -/
structure Fault (E : Type) where
  err : E
  applied : Bool

/-- A user-supplied storage: a key/value map, plus the decision of the environment for
each future call (`sched t` is the fate of call number `t`), plus the number of calls
made so far. Models any implementor of `StorageMutate` whose successful calls behave
like a map (trait re-exported at `src/storage.rs:5`). -/
structure Store (K V E : Type) where
  map : K → Option V
  sched : Nat → Option (Fault E)
  clock : Nat

namespace Store
variable {K V E : Type} [DecidableEq K]

/-- Map update. -/
def upd (m : K → Option V) (k : K) (v : Option V) : K → Option V :=
  fun k' => if k' = k then v else m k'

/-- `StorageInspect::get` (`src/common/storage_map.rs:33-37` for the fault-free case). -/
def get (k : K) (s : Store K V E) : Except E (Option V) × Store K V E :=
  let s' := { s with clock := s.clock + 1 }
  match s.sched s.clock with
  | some f => (.error f.err, s')
  | none => (.ok (s.map k), s')

/-- `StorageInspect::contains_key` (`src/common/storage_map.rs:39-42`). -/
def containsKey (k : K) (s : Store K V E) : Except E Bool × Store K V E :=
  let s' := { s with clock := s.clock + 1 }
  match s.sched s.clock with
  | some f => (.error f.err, s')
  | none => (.ok (s.map k).isSome, s')

/-- `StorageMutate::insert` (`src/common/storage_map.rs:52-61`: remove the previous
value, insert the new one, return the previous one). -/
def insert (k : K) (v : V) (s : Store K V E) : Except E (Option V) × Store K V E :=
  match s.sched s.clock with
  | some f =>
    (.error f.err,
      { s with clock := s.clock + 1, map := if f.applied then upd s.map k (some v) else s.map })
  | none =>
    let previous := s.map k
    let removed := upd s.map k none
    (.ok previous, { s with clock := s.clock + 1, map := upd removed k (some v) })

/-- `StorageMutate::remove` (`src/common/storage_map.rs:63-66`). -/
def remove (k : K) (s : Store K V E) : Except E (Option V) × Store K V E :=
  match s.sched s.clock with
  | some f =>
    (.error f.err,
      { s with clock := s.clock + 1, map := if f.applied then upd s.map k none else s.map })
  | none => (.ok (s.map k), { s with clock := s.clock + 1, map := upd s.map k none })

/-- `StorageMap::new` (`src/common/storage_map.rs:18-22`): empty, and its error type is
`Infallible`, i.e. no call ever fails. -/
def empty : Store K V E := { map := fun _ => none, sched := fun _ => none, clock := 0 }

/-- No call of this storage fails. -/
def Reliable (s : Store K V E) : Prop := ∀ t, s.sched t = none

end Store
end FuelMerkle
