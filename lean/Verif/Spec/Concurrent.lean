import Verif.Spec.AnyStorageAppend

/-
Several processes at work on one storage at the same time, each with its own trees, their storage calls mixed in any
order. Used in the statements of the properties.
-/
namespace FuelMerkle
variable {S K V E : Type} [DecidableEq K] [DecidableEq V]

/-- One call of a method of the storage. -/
inductive MethodCall (K V : Type) where
  | get (k : K)
  | insert (k : K) (v : V)
  | remove (k : K)
deriving DecidableEq

/-- A call, and what it returned. -/
abbrev Answered (K V E : Type) := MethodCall K V × Except E (Option V)

omit [DecidableEq K] [DecidableEq V] in
/-- The call on a storage. -/
def Backend.perform (B : Backend S K V E) : MethodCall K V → S → Except E (Option V) × S
  | .get k => B.get k
  | .insert k v => B.insert k v
  | .remove k => B.remove k

/-- The storage as one process sees it: the calls that were answered up to now, and the call it is waiting for, if it
is. -/
structure Tape (K V E : Type) where
  answered : List (Answered K V E)
  waiting : Option (MethodCall K V)

/-- A call of the process: it has been answered, or it is the one that the process waits for. What a program would do
after that does not matter; it is told `cut`, so that it comes to an end. -/
def Tape.ask (cut : E) (c : MethodCall K V) (t : Tape K V E) : Except E (Option V) × Tape K V E :=
  match t.waiting, t.answered with
  | some _, _ => (.error cut, t)
  | none, [] => (.error cut, { t with waiting := some c })
  | none, (c', a) :: rest => if c' = c then (a, { t with answered := rest }) else (.error cut, { t with waiting := some c })

/-- The storage as one process sees it, as an implementation. -/
def tape (cut : E) : Backend (Tape K V E) K V E where
  get k := Tape.ask cut (.get k)
  insert k v := Tape.ask cut (.insert k v)
  remove k := Tape.ask cut (.remove k)

omit [DecidableEq K] [DecidableEq V] in
/-- The next call of a process after these were answered, or `none` if it has come to its end. The process is given by
what its program does on the storage it sees. -/
def nextCall (process : Tape K V E → Tape K V E) (answered : List (Answered K V E)) : Option (MethodCall K V) :=
  (process ⟨answered, none⟩).waiting

/-- A storage and the calls of each process that were answered. -/
structure Office (S K V E : Type) where
  storage : S
  answered : Nat → List (Answered K V E)

omit [DecidableEq K] [DecidableEq V] in
/-- At the start no process has made a call. -/
def Office.start (s : S) : Office S K V E := ⟨s, fun _ => []⟩

omit [DecidableEq K] [DecidableEq V] in
/-- It is the turn of process `i`: its next call is made. -/
def Office.turn (B : Backend S K V E) (process : Nat → Tape K V E → Tape K V E) (i : Nat) (o : Office S K V E) : Office S K V E :=
  match nextCall (process i) (o.answered i) with
  | none => o
  | some c =>
    let (a, s) := B.perform c o.storage
    ⟨s, fun j => if j = i then o.answered i ++ [(c, a)] else o.answered j⟩

omit [DecidableEq K] [DecidableEq V] in
/-- A schedule: whose turn it is, one after the other. -/
def Office.turns (B : Backend S K V E) (process : Nat → Tape K V E → Tape K V E) : List Nat → Office S K V E → Office S K V E
  | [], o => o
  | i :: is, o => Office.turns B process is (o.turn B process i)

namespace Binary.Any

/-- A process with its own trees over the list of leaves, doing what is wished. -/
def worker (cut : E) (p : Profile) (H : HashFn) (L : List Bytes) (ws : List Wish) (t : Tape Nat Prim E) : Tape Nat Prim E :=
  ((Watch.start t).after (tape cut) p H L ws).bench.storage

end Binary.Any
end FuelMerkle
