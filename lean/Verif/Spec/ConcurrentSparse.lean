import Verif.Spec.Concurrent
import Verif.Spec.AnyStorageStale
import Verif.Spec.SparseMany

/-
Several processes at work on one storage at the same time, each with its own sparse trees. Used in the statements of the
properties.
-/
namespace FuelMerkle.Sparse.Any
open Spec
variable {S E : Type}

/-- A process with its own trees, handling these requests one after the other. -/
def worker (cut : E) (p : Profile) (H : HashFn) (rs : List Request) (t : Tape Bytes32 Prim E) : Tape Bytes32 Prim E :=
  ((Bench.start t).handleAll (tape cut) p H rs).2.storage

/-- The requests a process has begun: those before it waits for the storage, and the one in which it waits. -/
def Watch.begun (cut : E) (p : Profile) (H : HashFn) : List Sparse.Request → Watch (Tape Bytes32 Prim E) → List Sparse.Request
  | [], _ => []
  | r :: rs, c => if c.bench.storage.waiting = none then r :: Watch.begun cut p H rs (c.handle (tape cut) p H r).2 else []

/-- A process that was given these answers, and has not yet made the next call. -/
def Watch.given (answered : List (Answered Bytes32 Prim E)) : Watch (Tape Bytes32 Prim E) := .start ⟨answered, none⟩

/-- The processes after some turns. -/
def crew (B : Backend S Bytes32 Prim E) (cut : E) (p : Profile) (H : HashFn) (s : S) (rs : Nat → List Sparse.Request) (schedule : List Nat) :
    Office S Bytes32 Prim E :=
  (Office.start s).turns B (fun i => worker cut p H ((rs i).map (Sparse.Request.asked H))) schedule

/-- The maps that the begun requests of process `i` lead to or try to lead to. -/
def crewAims (B : Backend S Bytes32 Prim E) (cut : E) (p : Profile) (H : HashFn) (s : S) (rs : Nat → List Sparse.Request) (schedule : List Nat) (i : Nat) :
    List (Entries Bytes) :=
  let c := Watch.given ((crew B cut p H s rs schedule).answered i)
  c.aims (tape cut) p H (c.begun cut p H (rs i))

end FuelMerkle.Sparse.Any
