import Verif.Spec.AnyStorage
import Verif.Spec.SparseCorrupt

/-
Storage that never makes things up, but may forget, remember again, and go back in time at any moment. Used in
the statements of the properties.
-/
namespace FuelMerkle
variable {S K V E : Type}

/-- The implementation never makes up a record: `seen s` are the records it may return in state `s` or later
without being given them again. A `get` that returns a record returns one of them, under its key. No call adds
to them, but for an `insert`, successful or not, which may add the record it was given. Nothing else is asked
for: a record may be there at one call, gone at the next one and there again at a third one, an older record
may come back after a newer one, a removed record may still be returned. -/
structure NoInvention (B : Backend S K V E) (seen : S → K → V → Prop) : Prop where
  found : ∀ {k s v s'}, B.get k s = (.ok (some v), s') → seen s k v
  get : ∀ {k s x v}, seen (B.get k s).2 x v → seen s x v
  insert : ∀ {k w s x v}, seen (B.insert k w s).2 x v → seen s x v ∨ (x = k ∧ v = w)
  remove : ∀ {k s x v}, seen (B.remove k s).2 x v → seen s x v

/-- The implementation would return some record under the key now. -/
def Backend.has (B : Backend S K V E) (k : K) (s : S) : Bool :=
  match (B.get k s).1 with
  | .ok (some _) => true
  | _ => false

namespace Sparse
open Spec

/-- The error says that a storage call failed, or that a record was not there. -/
def Error.FromStorage : Error E → Prop
  | .storageError _ => True
  | .loadError _ => True
  | .childError (.childNotFound _) => True
  | .childError (.error (.storageError _)) => True
  | _ => False

/-- The answer is no panic, and no error but one that comes from the storage. -/
def Answer.Fair : Answer E → Prop
  | .done (.error (.err e)) => e.FromStorage
  | .done (.error (.panic _)) => False
  | _ => True

/-- The request as the program sees it: `load` is given the root of the map. -/
def Request.asked (H : HashFn) : Request → Any.Request
  | .new i => .new i
  | .load i kv => .load i (rootOf H kv)
  | .call i op => .call i op
  | .root i => .root i

namespace Any

/-- Trees on a storage, and the map each of them should have. -/
structure Watch (S : Type) where
  bench : Bench S
  kv : Nat → Entries Bytes

/-- All trees are new. -/
def Watch.start (s : S) : Watch S := ⟨Bench.start s, fun _ => []⟩

variable (B : Backend S Bytes32 Prim E)

/-- The map that the tree `i` should have after a request that gave this answer: a new tree has the empty map;
one that was loaded has the map it was loaded for; a call that succeeds changes the map. Only for a removal it
matters what the storage returned, at the one moment when the key was looked up. -/
def Watch.expect (r : Sparse.Request) (o : Answer E) (c : Watch S) : Nat → Entries Bytes :=
  match r, o with
  | .new i, _ => fun j => if j = i then [] else c.kv j
  | .load i kv, .done (.ok _) => fun j => if j = i then kv else c.kv j
  | .call i op, .done r => fun j => if j = i then (⟨op, B.has op.key c.bench.storage, r⟩ : Event E).effect (c.kv i) else c.kv j
  | _, _ => c.kv

/-- One request. -/
def Watch.handle (p : Profile) (H : HashFn) (r : Sparse.Request) (c : Watch S) : Answer E × Watch S :=
  let (o, b) := c.bench.handle B p H (r.asked H)
  (o, ⟨b, c.expect B r o⟩)

/-- A sequence of requests: all answers, and what is left. -/
def Watch.handleAll (p : Profile) (H : HashFn) : List Sparse.Request → Watch S → List (Answer E) × Watch S
  | [], c => ([], c)
  | r :: rs, c =>
    let (o, c') := c.handle B p H r
    let (os, c'') := Watch.handleAll p H rs c'
    (o :: os, c'')

/-- The map a request leads to, if there is one and if it succeeds. -/
def Watch.aim (r : Sparse.Request) (c : Watch S) : List (Entries Bytes) :=
  match r with
  | .new _ => []
  | .load _ kv => [kv]
  | .call i op => [(⟨op, B.has op.key c.bench.storage, .ok ()⟩ : Event E).attempt (c.kv i)]
  | .root _ => []

/-- The maps the requests lead to or try to lead to. -/
def Watch.aims (p : Profile) (H : HashFn) : List Sparse.Request → Watch S → List (Entries Bytes)
  | [], _ => []
  | r :: rs, c => c.aim B r ++ Watch.aims p H rs (c.handle B p H r).2

/-- The answer is right: it is fair, and if the root was asked for, it is the root of the map of the tree. -/
def Watch.Right (H : HashFn) (r : Sparse.Request) (o : Answer E) (c : Watch S) : Prop :=
  o.Fair ∧ ∀ i, r = .root i → o = .root (rootOf H (c.kv i))

/-- All answers to a sequence of requests are right, each at its time. -/
def Watch.AllRight (p : Profile) (H : HashFn) : List Sparse.Request → Watch S → Prop
  | [], _ => True
  | r :: rs, c => c.Right H r (c.handle B p H r).1 ∧ Watch.AllRight p H rs (c.handle B p H r).2

end Any
end Sparse
end FuelMerkle
