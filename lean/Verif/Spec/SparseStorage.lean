import Verif.Spec.SparseApi

/-
What may be found in the storage of a sparse tree, said about records only. Used in the
statements of the properties.
-/
namespace FuelMerkle
namespace Sparse
open Spec
variable {E : Type}

/-- The record `(height, byte, lo, hi)` may be found under `x`: it is a leaf filed under its key;
or it is a leaf or a node filed under its hash; or it has no contents and is filed under zero. -/
def FiledUnder (H : HashFn) (x : Bytes32) : Prim → Prop
  | (_, byte, lo, hi) =>
    (byte = 0 ∧ x = lo) ∨
      ((byte = 0 ∨ byte = 1) ∧ (lo ≠ zero32 ∨ hi ≠ zero32) ∧ x = H ([byte] ++ lo.val ++ hi.val)) ∨
      ((byte = 0 ∨ byte = 1) ∧ lo = zero32 ∧ hi = zero32 ∧ x = zero32)

/-- Every record is filed under its own hash or its own key. -/
def Filed (H : HashFn) (s : SpStore E) : Prop := ∀ x q, s.map x = some q → FiledUnder H x q

/-! ### Sessions

The storage outlives the trees opened on it. A session opens a tree, new or by loading a root,
and makes some calls. -/

/-- A session: the root it loads (or `none` for a new tree), the fates of its storage calls, and
its calls. A crash is a session whose storage calls all fail from some moment on. -/
structure Session (E : Type) where
  opens : Option Bytes32
  faults : Nat → Option (Fault E)
  calls : List Op

/-- A call as it was made: what it was and what it returned, the map before, and root and map
after it. -/
structure Ack (E : Type) where
  event : Event E
  before : Entries Bytes
  root : Bytes32
  after : Entries Bytes

/-- What happened so far. -/
structure Log (E : Type) where
  store : SpStore E
  acks : List (Ack E)

/-- The map a root was reported for, if it was. -/
def Log.mapAt (g : Log E) (r : Bytes32) : Option (Entries Bytes) := (g.acks.find? fun a => a.root = r).map Ack.after

/-- The calls of a session. -/
def follow (p : Profile) (H : HashFn) : List Op → Entries Bytes → Tree E → List (Ack E) × SpStore E
  | [], _, t => ([], t.storage)
  | op :: ops, kv, t =>
    let (r, t') := op.run p H t
    let e : Event E := ⟨op, (t.storage.map op.key).isSome, r⟩
    let (acks, s) := follow p H ops (e.effect kv) t'
    (⟨e, kv, t'.root H, e.effect kv⟩ :: acks, s)

/-- The storage at the start of a session. -/
def Session.start (z : Session E) (s : SpStore E) : SpStore E := { s with sched := fun n => z.faults (n - s.clock) }

/-- The tree a session opens, with the map it should have. -/
def Session.tree (z : Session E) (g : Log E) : Except (Fail (Error E)) (Entries Bytes × Tree E) × SpStore E :=
  match z.opens with
  | none => (.ok ([], Tree.new (z.start g.store)), z.start g.store)
  | some r =>
    match Tree.load (z.start g.store) r with
    | (.ok t, s) => (.ok ((g.mapAt r).getD [], t), s)
    | (.error e, s) => (.error e, s)

/-- A session. If it cannot open its tree it makes no calls. -/
def Session.run (p : Profile) (H : HashFn) (z : Session E) (g : Log E) : Log E :=
  match z.tree g with
  | (.ok (kv, t), _) => ⟨(follow p H z.calls kv t).2, g.acks ++ (follow p H z.calls kv t).1⟩
  | (.error _, s) => ⟨s, g.acks⟩

/-- A sequence of sessions. -/
def sessions (p : Profile) (H : HashFn) (zs : List (Session E)) (g : Log E) : Log E := zs.foldl (fun g z => z.run p H g) g

/-- The session opens a new tree or a tree reported before that is not empty. -/
def Session.Known (z : Session E) (g : Log E) : Prop := ∀ r, z.opens = some r → r ≠ zero32 ∧ ∃ a ∈ g.acks, a.root = r

/-- Every session does. -/
def AllKnown (p : Profile) (H : HashFn) : List (Session E) → Log E → Prop
  | [], _ => True
  | z :: zs, g => z.Known g ∧ AllKnown p H zs (z.run p H g)

/-- The messages hashed for the trees the calls led to or tried to lead to. -/
def Log.msgs (H : HashFn) (g : Log E) : List Bytes := g.acks.flatMap fun a => msgsOf H (a.event.attempt a.before)

/-- The calls made. -/
def Log.ops (g : Log E) : List Op := g.acks.map fun a => a.event.op

end Sparse
end FuelMerkle
