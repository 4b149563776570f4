import Verif.Spec.Concurrent
import Verif.Spec.BinaryDesk

/-
Several processes at work on one storage at the same time, each with its own binary trees, over any lists of leaves.
Used in the statements of the properties.
-/
namespace FuelMerkle.Binary.Any
open Spec
variable {S E : Type}

/-- A call on the tree number `x.1` of a process. -/
def Bench.call (B : Backend S Nat Prim E) (p : Profile) (H : HashFn) (x : Nat × Op) (c : Bench S) : Out E × Bench S :=
  let (o, t) := step B p H x.2 { storage := c.storage, head := c.head x.1, leavesCount := c.count x.1 }
  (o, { storage := t.storage, head := fun j => if j = x.1 then t.head else c.head j,
        count := fun j => if j = x.1 then t.leavesCount else c.count j })

/-- A sequence of calls: all replies, and what is left. -/
def Bench.calls (B : Backend S Nat Prim E) (p : Profile) (H : HashFn) : List (Nat × Op) → Bench S → List (Out E) × Bench S
  | [], c => ([], c)
  | x :: xs, c =>
    let (o, c') := c.call B p H x
    let (os, c'') := Bench.calls B p H xs c'
    (o :: os, c'')

/-- A process with its own trees, new at first, making these calls on them one after the other. -/
def caller (cut : E) (p : Profile) (H : HashFn) (xs : List (Nat × Op)) (t : Tape Nat Prim E) : Tape Nat Prim E :=
  (Bench.calls (tape cut) p H xs (.start t)).2.storage

/-- What the calls returned, as far as they have returned: not the call in which the process waits for the storage. -/
def Bench.told (cut : E) (p : Profile) (H : HashFn) : List (Nat × Op) → Bench (Tape Nat Prim E) → List (Out E)
  | [], _ => []
  | x :: xs, c =>
    if (c.call (tape cut) p H x).2.storage.waiting = none then
      (c.call (tape cut) p H x).1 :: Bench.told cut p H xs (c.call (tape cut) p H x).2
    else []

/-- What the calls of a process returned that was given these answers by the storage. -/
def told (cut : E) (p : Profile) (H : HashFn) (xs : List (Nat × Op)) (answered : List (Answered Nat Prim E)) : List (Out E) :=
  Bench.told cut p H xs (.start ⟨answered, none⟩)

/-- The processes after some turns. -/
def crowd (B : Backend S Nat Prim E) (cut : E) (p : Profile) (H : HashFn) (s : S) (xs : Nat → List (Nat × Op)) (schedule : List Nat) :
    Office S Nat Prim E :=
  (Office.start s).turns B (fun i => caller cut p H (xs i)) schedule

/-- A record that the process had written was not there when it asked for it. -/
def Lost (answered : List (Answered Nat Prim E)) (k : Nat) : Prop :=
  ∃ before v r between after, answered = before ++ (.insert k v, .ok r) :: (between ++ (.get k, .ok none) :: after)

/-- The reply is what the leaves of the tree say, but for the hashes of a proof; or a storage call of this process is to
blame. -/
def Fair (H : HashFn) (answered : List (Answered Nat Prim E)) (ds : List Bytes) : Op → Out E → Prop
  | .push _, .push r => r = .ok () ∨ ∃ k v e, r = .error (.err (.storageError e)) ∧ (.insert k v, .error e) ∈ answered
  | .root, .root r => r = .ok (if ds = [] then emptySum else mth H ds)
  | .prove i, .prove r =>
    if i < ds.length then
      (∃ set, r = .ok (mth H ds, set) ∧ set.length = (auditPath H i ds).length + 1) ∨
        (∃ k e, r = .error (.err (.storageError e)) ∧ (.get k, .error e) ∈ answered) ∨
        ∃ n k, r = .error (.err (.loadError n)) ∧ Lost answered k
    else r = .error (.err (.invalidProofIndex i))
  | _, _ => False

/-- The reply is what the leaves of the tree say, but for the hashes of a proof. -/
def Plain (H : HashFn) (ds : List Bytes) : Op → Out E → Prop
  | .push _, .push r => r = .ok ()
  | .root, .root r => r = .ok (if ds = [] then emptySum else mth H ds)
  | .prove i, .prove r =>
    if i < ds.length then ∃ set, r = .ok (mth H ds, set) ∧ set.length = (auditPath H i ds).length + 1
    else r = .error (.err (.invalidProofIndex i))
  | _, _ => False

end FuelMerkle.Binary.Any
