import Verif.Spec.ConcurrentBinary
import Verif.Spec.ConcurrentSum
import Verif.Spec.ConcurrentSparseLive

/-
Processes that share a storage and are given their requests one by one, at any moment. Used in the statements of the
properties.
-/
namespace FuelMerkle
variable {S K V E R : Type}

/-- What happens next: somebody gives process `i` a request, or it is the turn of process `i`. Who gives a request may
have seen all answers that any process has given up to now. -/
inductive Happening (R : Type) where
  | request (i : Nat) (r : R)
  | turn (i : Nat)

/-- The storage with the calls of each process that were answered, and the requests that each process was given. -/
structure Hall (S K V E R : Type) where
  office : Office S K V E
  requests : Nat → List R

/-- At the start no process was given a request. -/
def Hall.start (s : S) : Hall S K V E R := ⟨.start s, fun _ => []⟩

/-- One thing happens. A request is put at the end of the list of process `i`. A turn is one storage call; if process `i`
has done all it was asked for, nothing happens. `process rs` is the process that was given the requests `rs`. -/
def Hall.next (B : Backend S K V E) (process : List R → Tape K V E → Tape K V E) (x : Hall S K V E R) : Happening R → Hall S K V E R
  | .request i r => { x with requests := fun j => if j = i then x.requests i ++ [r] else x.requests j }
  | .turn i => { x with office := x.office.turn B (fun j => process (x.requests j)) i }

/-- One thing after the other. -/
def Hall.after (B : Backend S K V E) (process : List R → Tape K V E → Tape K V E) (hs : List (Happening R)) (x : Hall S K V E R) : Hall S K V E R :=
  hs.foldl (Hall.next B process) x

/-- The turns among what happens. -/
def turnsIn (hs : List (Happening R)) : List Nat := hs.filterMap fun
  | .turn i => some i
  | _ => none

namespace Sparse.Any
open Spec

/-- The storage, the answered calls and the requests, after all this happened. -/
def hall (B : Backend S Bytes32 Prim E) (cut : E) (p : Profile) (H : HashFn) (s : S) (hs : List (Happening Sparse.Request)) :
    Hall S Bytes32 Prim E Sparse.Request :=
  (Hall.start s).after B (fun rs => worker cut p H (rs.map (Sparse.Request.asked H))) hs

/-- The maps that the begun requests of process `i` lead to or try to lead to. -/
def hallAims (B : Backend S Bytes32 Prim E) (cut : E) (p : Profile) (H : HashFn) (s : S) (hs : List (Happening Sparse.Request)) (i : Nat) :
    List (Entries Bytes) :=
  let x := hall B cut p H s hs
  let c := Watch.given (x.office.answered i)
  c.aims (tape cut) p H (c.begun cut p H (x.requests i))

/-- The answers to the requests, as far as they have been answered: not to the one for which the process waits for the
storage. -/
def Watch.told (cut : E) (p : Profile) (H : HashFn) : List Sparse.Request → Watch (Tape Bytes32 Prim E) → List (Answer E)
  | [], _ => []
  | r :: rs, c =>
    if (c.handle (tape cut) p H r).2.bench.storage.waiting = none then
      (c.handle (tape cut) p H r).1 :: Watch.told cut p H rs (c.handle (tape cut) p H r).2
    else []

end Sparse.Any

namespace Binary.Any
open Spec

/-- The storage, the answered calls and the wishes, after all this happened; all trees are over one list of leaves. -/
def hall (B : Backend S Nat Prim E) (cut : E) (p : Profile) (H : HashFn) (L : List Bytes) (s : S) (hs : List (Happening Wish)) :
    Hall S Nat Prim E Wish :=
  (Hall.start s).after B (worker cut p H L) hs

/-- What was done for the wishes, as far as it is done: not for the one for which the process waits for the storage. -/
def Watch.told (cut : E) (p : Profile) (H : HashFn) (L : List Bytes) : List Wish → Watch (Tape Nat Prim E) → List (Option (Action × Reply E))
  | [], _ => []
  | w :: ws, c =>
    if (c.grant (tape cut) p H L w).2.bench.storage.waiting = none then
      (c.grant (tape cut) p H L w).1 :: Watch.told cut p H L ws (c.grant (tape cut) p H L w).2
    else []

/-- The same with trees over any lists. -/
def callHall (B : Backend S Nat Prim E) (cut : E) (p : Profile) (H : HashFn) (s : S) (hs : List (Happening (Nat × Op))) :
    Hall S Nat Prim E (Nat × Op) :=
  (Hall.start s).after B (caller cut p H) hs

end Binary.Any

namespace Sum.Any
open Spec

/-- The storage, the answered calls and the calls asked for, after all this happened. -/
def hall (B : Backend S Bytes32 Node E) (cut : E) (p : Profile) (H : HashFn) (s : S) (hs : List (Happening (Nat × Op))) :
    Hall S Bytes32 Node E (Nat × Op) :=
  (Hall.start s).after B (worker cut p H) hs

end Sum.Any
end FuelMerkle
