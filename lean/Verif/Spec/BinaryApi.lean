import Verif.Model.Binary
import Verif.Spec.Rfc6962

/-
Histories of calls of the binary Merkle tree API, and the list machine they are compared
with. Used in the statements of the properties.
-/
namespace FuelMerkle
namespace Binary
variable {E : Type}

/-- A call of the API. -/
inductive Op where
  | push (data : Bytes)
  | root
  | prove (index : Nat)
deriving DecidableEq, Repr

/-- What a call returns. -/
inductive Out (E : Type) where
  | push (r : Except (Fail (Error E)) Unit)
  | root (r : Res Bytes32)
  | prove (r : Except (Fail (Error E)) (Bytes32 × List Bytes32))

/-- One call on the tree. -/
def step (p : Profile) (H : HashFn) (op : Op) (t : Tree E) : Out E × Tree E :=
  match op with
  | .push d => let (r, t') := push p H d t; (.push r, t')
  | .root => (.root (t.root p H), t)
  | .prove i => let (r, t') := prove p H i t; (.prove r, t')

/-- A sequence of calls on the tree. -/
def run (p : Profile) (H : HashFn) : List Op → Tree E → List (Out E) × Tree E
  | [], t => ([], t)
  | op :: ops, t =>
    let (o, t') := step p H op t
    let (os, t'') := run p H ops t'
    (o :: os, t'')

/-- Push a list of leaves, stopping at the first failure. -/
def pushAll (p : Profile) (H : HashFn) : List Bytes → TreeM E Unit
  | [] => pure ()
  | d :: ds => do
    push p H d
    pushAll p H ds

/-- The specification: the tree is just the list of its leaves. -/
def specStep (H : HashFn) (op : Op) (ds : List Bytes) : Out E × List Bytes :=
  match op with
  | .push d => (.push (.ok ()), ds ++ [d])
  | .root => (.root (.ok (if ds = [] then emptySum else Spec.mth H ds)), ds)
  | .prove i =>
    (.prove (match ds[i]? with
      | some d => .ok (Spec.mth H ds, leafSum H d :: Spec.auditPath H i ds)
      | none => .error (.err (.invalidProofIndex i))), ds)

/-- The specification on a sequence of calls. -/
def specRun (H : HashFn) : List Op → List Bytes → List (Out E) × List Bytes
  | [], ds => ([], ds)
  | op :: ops, ds =>
    let (o, ds') := specStep H op ds
    let (os, ds'') := specRun H ops ds'
    (o :: os, ds'')

/-- Number of pushes in a sequence of calls. -/
def pushCount : List Op → Nat
  | [] => 0
  | .push _ :: ops => pushCount ops + 1
  | _ :: ops => pushCount ops

/-- Indices used in `prove` calls are `u64` values other than `u64::MAX`. -/
def indicesOk : List Op → Prop
  | [] => True
  | .prove i :: ops => i + 1 < 2 ^ 64 ∧ indicesOk ops
  | _ :: ops => indicesOk ops

/-! ### A client that survives storage failures -/

/-- Events in the life of a client: it pushes onto its open tree, its process is killed, or
it opens the tree again with the number of leaves whose pushes have been acknowledged. -/
inductive Event where
  | push (data : Bytes)
  | crash
  | reopen
deriving DecidableEq, Repr

/-- The client's state: the storage, the open tree if there is one, and the leaves whose
pushes returned `Ok`. -/
structure Client (E : Type) where
  storage : BStore E
  tree : Option (Tree E)
  acked : List Bytes

/-- A failed push makes the client drop the tree object; only the storage survives. -/
def Client.step (p : Profile) (H : HashFn) (ev : Event) (c : Client E) : Client E :=
  match ev, c.tree with
  | .push d, some t =>
    match Binary.push p H d t with
    | (.ok _, t') => { storage := t'.storage, tree := some t', acked := c.acked ++ [d] }
    | (.error _, t') => { storage := t'.storage, tree := none, acked := c.acked }
  | .push _, none => c
  | .crash, _ => { c with tree := none }
  | .reopen, _ =>
    match Tree.load p c.storage c.acked.length with
    | (.ok t, s) => { storage := s, tree := some t, acked := c.acked }
    | (.error _, s) => { storage := s, tree := none, acked := c.acked }

/-- The client after a list of events. -/
def Client.run (p : Profile) (H : HashFn) : List Event → Client E → Client E
  | [], c => c
  | ev :: evs, c => Client.run p H evs (c.step p H ev)

/-- A client that has just created a new tree. -/
def Client.start (s : BStore E) : Client E := { storage := s, tree := some (Tree.new s), acked := [] }

/-- The same storage, no longer failing. -/
def healed (s : BStore E) : BStore E := { s with sched := fun _ => none }

end Binary
end FuelMerkle
