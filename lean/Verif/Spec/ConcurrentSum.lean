import Verif.Spec.Concurrent
import Verif.Spec.SumDesk

/-
Several processes at work on one storage at the same time, each with its own sum trees. Used in the statements of the
properties.
-/
namespace FuelMerkle.Sum.Any
open Spec
variable {S E : Type}

/-- A process with its own trees, making these calls on them one after the other. -/
def worker (cut : E) (p : Profile) (H : HashFn) (xs : List (Nat × Op)) (t : Tape Bytes32 Node E) : Tape Bytes32 Node E :=
  (Desk.run (tape cut) p H xs (.start t)).2.storage

/-- What the calls returned, as far as they have returned: not the call in which the process waits for the storage. -/
def Desk.told (cut : E) (p : Profile) (H : HashFn) : List (Nat × Op) → Desk (Tape Bytes32 Node E) → List (Out E)
  | [], _ => []
  | x :: xs, c =>
    if (c.step (tape cut) p H x).2.storage.waiting = none then
      (c.step (tape cut) p H x).1 :: Desk.told cut p H xs (c.step (tape cut) p H x).2
    else []

/-- What the calls of a process returned that was given these answers by the storage. -/
def told (cut : E) (p : Profile) (H : HashFn) (xs : List (Nat × Op)) (answered : List (Answered Bytes32 Node E)) : List (Out E) :=
  Desk.told cut p H xs (.start ⟨answered, none⟩)

/-- The processes after some turns. -/
def crew (B : Backend S Bytes32 Node E) (cut : E) (p : Profile) (H : HashFn) (s : S) (xs : Nat → List (Nat × Op)) (schedule : List Nat) :
    Office S Bytes32 Node E :=
  (Office.start s).turns B (fun i => worker cut p H (xs i)) schedule

/-- An empty map of one's own, on which exactly those calls fail that failed here. -/
def fate (answered : List (Answered Bytes32 Node E)) : SStore E where
  map := fun _ => none
  sched := fun n =>
    match answered[n]? with
    | some (_, .error e) => some ⟨e, false⟩
    | _ => none
  clock := 0

end FuelMerkle.Sum.Any
