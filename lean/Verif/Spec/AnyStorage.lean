import Verif.Model.AnyStorage
import Verif.Spec.BinaryTops
import Verif.Spec.Shared
import Verif.Spec.SparseMany

/-
Storage implementations that behave like maps, and clients of trees on any storage. Used in the
statements of the properties.
-/
namespace FuelMerkle
variable {S K V E : Type} [DecidableEq K]

/-- In the states `ok`, the implementation behaves like a map, `view s` being what it holds in state `s`: a
successful `get` returns what is there, successful writes change what is there for their key only; a call that
fails has changed nothing, or has done what it was asked for. Nothing is said about the previous values that
writes return. -/
structure MapLike (B : Backend S K V E) (ok : S → Prop) (view : S → K → Option V) : Prop where
  get_ok : ∀ {k s v s'}, ok s → B.get k s = (.ok v, s') → ok s' ∧ v = view s k ∧ view s' = view s
  get_error : ∀ {k s e s'}, ok s → B.get k s = (.error e, s') → ok s' ∧ view s' = view s
  insert_ok : ∀ {k v s r s'}, ok s → B.insert k v s = (.ok r, s') → ok s' ∧ ∀ x, view s' x = if x = k then some v else view s x
  insert_error : ∀ {k v s e s'}, ok s → B.insert k v s = (.error e, s') →
    ok s' ∧ (view s' = view s ∨ ∀ x, view s' x = if x = k then some v else view s x)
  remove_ok : ∀ {k s r s'}, ok s → B.remove k s = (.ok r, s') → ok s' ∧ ∀ x, view s' x = if x = k then none else view s x
  remove_error : ∀ {k s e s'}, ok s → B.remove k s = (.error e, s') →
    ok s' ∧ (view s' = view s ∨ ∀ x, view s' x = if x = k then none else view s x)

omit [DecidableEq K] in
/-- In the states `ok`, no call fails. -/
def NeverFails (B : Backend S K V E) (ok : S → Prop) : Prop :=
  ∀ s, ok s → (∀ k e s', B.get k s ≠ (.error e, s')) ∧ (∀ k v e s', B.insert k v s ≠ (.error e, s')) ∧
    ∀ k e s', B.remove k s ≠ (.error e, s')

omit [DecidableEq K] in
/-- No write fails. -/
def WritesWork (B : Backend S K V E) : Prop := ∀ k v s e s', B.insert k v s ≠ (.error e, s')

omit [DecidableEq K] in
/-- The implementation counts its calls: `calls s` is the number of calls made before the state `s`. -/
structure CountsCalls (B : Backend S K V E) (calls : S → Nat) : Prop where
  get : ∀ k s, calls (B.get k s).2 = calls s + 1
  insert : ∀ k v s, calls (B.insert k v s).2 = calls s + 1
  remove : ∀ k s, calls (B.remove k s).2 = calls s + 1

omit [DecidableEq K] in
/-- Any implementation, with a counter. -/
def Backend.counted (B : Backend S K V E) : Backend (S × Nat) K V E where
  get k s := ((B.get k s.1).1, (B.get k s.1).2, s.2 + 1)
  insert k v s := ((B.insert k v s.1).1, (B.insert k v s.1).2, s.2 + 1)
  remove k s := ((B.remove k s.1).1, (B.remove k s.1).2, s.2 + 1)

namespace Binary.Any

/-- Actions that do not read from the storage. -/
def NoReads : Action → Prop
  | .new _ => True
  | .call _ (.push _) => True
  | .call _ .root => True
  | _ => False

/-- A storage and what is in memory for each of the trees on it. -/
structure Bench (S : Type) where
  storage : S
  head : Nat → List Node
  count : Nat → Nat

/-- All trees are new. -/
def Bench.start (s : S) : Bench S := { storage := s, head := fun _ => (Tree.new s).head, count := fun _ => (Tree.new s).leavesCount }

variable (B : Backend S Nat Prim E)

/-- One call on a tree. -/
def step (p : Profile) (H : HashFn) (op : Op) (t : Tree S) : Out E × Tree S :=
  match op with
  | .push d => let (r, t') := push B p H d t; (.push r, t')
  | .root => (.root (t.root p H), t)
  | .prove i => let (r, t') := prove B p H i t; (.prove r, t')

/-- One action, as `Binary.Bench.act` in `Spec/BinaryTops.lean`. -/
def Bench.act (p : Profile) (H : HashFn) (a : Action) (c : Bench S) : Reply E × Bench S :=
  match a with
  | .new i => (.new, { c with head := fun j => if j = i then (Tree.new c.storage).head else c.head j,
                              count := fun j => if j = i then (Tree.new c.storage).leavesCount else c.count j })
  | .load i n =>
    match Tree.load B p c.storage n with
    | (.ok t, s) => (.load (.ok ()), { storage := s, head := fun j => if j = i then t.head else c.head j,
                                       count := fun j => if j = i then t.leavesCount else c.count j })
    | (.error e, s) => (.load (.error e), { c with storage := s })
  | .call i op =>
    let (o, t) := step B p H op { storage := c.storage, head := c.head i, leavesCount := c.count i }
    (.call o, { storage := t.storage, head := fun j => if j = i then t.head else c.head j,
                count := fun j => if j = i then t.leavesCount else c.count j })

/-- A sequence of actions: all replies, and what is left. -/
def Bench.acts (p : Profile) (H : HashFn) : List Action → Bench S → List (Reply E) × Bench S
  | [], c => ([], c)
  | a :: as, c =>
    let (o, c') := c.act B p H a
    let (os, c'') := Bench.acts p H as c'
    (o :: os, c'')

/-- Pushing a list of leaves, stopping at the first failure. -/
def pushAll (p : Profile) (H : HashFn) : List Bytes → TreeM S E Unit
  | [] => pure ()
  | d :: ds => do
    push B p H d
    pushAll p H ds

end Binary.Any

namespace Sum.Any

/-- A storage and what is in memory for each of the trees on it. -/
structure Desk (S : Type) where
  storage : S
  head : Nat → List Node

/-- All trees are empty. -/
def Desk.start (s : S) : Desk S := { storage := s, head := fun _ => (Tree.new s).head }

variable (B : Backend S Bytes32 Node E)

/-- One call on a tree. -/
def step (p : Profile) (H : HashFn) (op : Op) (t : Tree S) : Out E × Tree S :=
  match op with
  | .push fee d => let (r, t') := push B p H fee d t; (.push r, t')
  | .root => let (r, t') := root B p H t; (.root r, t')

/-- Call `x.2` on the tree number `x.1`. -/
def Desk.step (p : Profile) (H : HashFn) (x : Nat × Op) (c : Desk S) : Out E × Desk S :=
  let (o, t) := Any.step B p H x.2 { storage := c.storage, head := c.head x.1 }
  (o, { storage := t.storage, head := fun j => if j = x.1 then t.head else c.head j })

/-- A sequence of calls on several trees. -/
def Desk.run (p : Profile) (H : HashFn) : List (Nat × Op) → Desk S → List (Out E) × Desk S
  | [], c => ([], c)
  | x :: xs, c =>
    let (o, c') := c.step B p H x
    let (os, c'') := Desk.run p H xs c'
    (o :: os, c'')

/-- Pushing a list of leaves, stopping at the first failure. -/
def pushAll (p : Profile) (H : HashFn) : List Spec.Item → TreeM S E Unit
  | [] => pure ()
  | x :: ds => do
    push B p H x.1 x.2
    pushAll p H ds

end Sum.Any

namespace Sparse.Any

/-- A storage and what is in memory for each of the trees on it: the root node. -/
structure Bench (S : Type) where
  storage : S
  node : Nat → Node

/-- All trees are new. -/
def Bench.start (s : S) : Bench S := ⟨s, fun _ => (Tree.new s).rootNode⟩

/-- What a client can ask for: a new tree in place of the tree `i`, one loaded at any root, a call on it, or
its root. -/
inductive Request where
  | new (i : Nat)
  | load (i : Nat) (root : Bytes32)
  | call (i : Nat) (op : Op)
  | root (i : Nat)

variable (B : Backend S Bytes32 Prim E)

/-- One call on a tree. -/
def run (p : Profile) (H : HashFn) : Op → TreeM S E Unit
  | .update k d => update B p H k d
  | .delete k => delete B p H k

/-- One request. A failed `load` leaves the tree number `i` as it was. -/
def Bench.handle (p : Profile) (H : HashFn) (r : Request) (c : Bench S) : Answer E × Bench S :=
  match r with
  | .new i => (.done (.ok ()), ⟨c.storage, fun j => if j = i then (Tree.new c.storage).rootNode else c.node j⟩)
  | .load i root =>
    match Tree.load B c.storage root with
    | (.ok t, s) => (.done (.ok ()), ⟨s, fun j => if j = i then t.rootNode else c.node j⟩)
    | (.error e, s) => (.done (.error e), { c with storage := s })
  | .call i op =>
    let (r, t) := run B p H op ⟨c.node i, c.storage⟩
    (.done r, ⟨t.storage, fun j => if j = i then t.rootNode else c.node j⟩)
  | .root i => (.root ((⟨c.node i, c.storage⟩ : Tree S).root H), c)

/-- A sequence of requests: all answers, and what is left. -/
def Bench.handleAll (p : Profile) (H : HashFn) : List Request → Bench S → List (Answer E) × Bench S
  | [], c => ([], c)
  | r :: rs, c =>
    let (o, c') := c.handle B p H r
    let (os, c'') := Bench.handleAll p H rs c'
    (o :: os, c'')

/-- A history of calls on one tree, stopping at the first failure. -/
def runAll (p : Profile) (H : HashFn) : List Op → TreeM S E Unit
  | [] => pure ()
  | op :: ops => do
    run B p H op
    runAll p H ops

end Sparse.Any

/-- The same requests to trees on a map with failures (`Model/Sparse.lean`). -/
def Sparse.Bench.serve (p : Profile) (H : HashFn) (r : Sparse.Any.Request) (c : Sparse.Bench E) : Sparse.Answer E × Sparse.Bench E :=
  match r with
  | .new i => (.done (.ok ()), c.set i (Sparse.Tree.new c.storage).rootNode c.storage)
  | .load i root =>
    match Sparse.Tree.load c.storage root with
    | (.ok t, s) => (.done (.ok ()), c.set i t.rootNode s)
    | (.error e, s) => (.done (.error e), { c with storage := s })
  | .call i op => (.done (op.run p H (c.tree i)).1, c.set i (op.run p H (c.tree i)).2.rootNode (op.run p H (c.tree i)).2.storage)
  | .root i => (.root ((c.tree i).root H), c)

/-- A sequence of requests. -/
def Sparse.Bench.serveAll (p : Profile) (H : HashFn) : List Sparse.Any.Request → Sparse.Bench E → List (Sparse.Answer E) × Sparse.Bench E
  | [], c => ([], c)
  | r :: rs, c =>
    let (o, c') := c.serve p H r
    let (os, c'') := Sparse.Bench.serveAll p H rs c'
    (o :: os, c'')

end FuelMerkle
