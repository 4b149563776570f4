import Verif.Model.Linked
import Verif.Spec.BinaryApi
import Verif.Spec.SumApi
import Verif.Spec.MapApi

/-
Histories of calls on the trees with linked lists, and of calls on a storage used through the
interface without errors.
-/
namespace FuelMerkle

namespace BinaryLinked
open Binary
variable {E : Type}

/-- One call on the tree. -/
def step (p : Profile) (H : HashFn) (op : Op) (t : LTree E) : Out E × LTree E :=
  match op with
  | .push d => let (r, t') := push p H d t; (.push r, t')
  | .root => (.root (t.root p H), t)
  | .prove i => let (r, t') := prove p H i t; (.prove r, t')

/-- A sequence of calls on the tree. -/
def run (p : Profile) (H : HashFn) : List Op → LTree E → List (Out E) × LTree E
  | [], t => ([], t)
  | op :: ops, t =>
    let (o, t') := step p H op t
    let (os, t'') := run p H ops t'
    (o :: os, t'')

end BinaryLinked

namespace SumLinked
open Sum
variable {E : Type}

/-- One call on the tree. -/
def step (p : Profile) (H : HashFn) (op : Op) (t : LTree E) : Out E × LTree E :=
  match op with
  | .push fee d => let (r, t') := push p H fee d t; (.push r, t')
  | .root => let (r, t') := root p H t; (.root r, t')

/-- A sequence of calls on the tree. -/
def run (p : Profile) (H : HashFn) : List Op → LTree E → List (Out E) × LTree E
  | [], t => ([], t)
  | op :: ops, t =>
    let (o, t') := step p H op t
    let (os, t'') := run p H ops t'
    (o :: os, t'')

end SumLinked

namespace Spec
variable {K V : Type} [DecidableEq K]

/-- What a call through the interface without errors returns. -/
inductive PlainOut (V : Type) where
  | value (r : Option V)
  | present (r : Bool)
deriving DecidableEq

/-- One call through the interface without errors; it may panic. -/
def plainStep (op : MapOp K V) (s : Store K V Empty) : Res (PlainOut V × Store K V Empty) :=
  match op with
  | .insert k v => do let (r, s) ← Infallible.insert k v s; return (.value r, s)
  | .remove k => do let (r, s) ← Infallible.remove k s; return (.value r, s)
  | .get k => do let (r, s) ← Infallible.get k s; return (.value r, s)
  | .containsKey k => do let (r, s) ← Infallible.containsKey k s; return (.present r, s)

/-- A sequence of calls through the interface without errors. -/
def plainRun : List (MapOp K V) → Store K V Empty → Res (List (PlainOut V) × Store K V Empty)
  | [], s => return ([], s)
  | op :: ops, s => do
    let (o, s) ← plainStep op s
    let (os, s) ← plainRun ops s
    return (o :: os, s)

/-- What a call must return after a history (latest call first). -/
def plainExpect (hist : List (MapOp K V)) : MapOp K V → PlainOut V
  | .insert k _ => .value (latest k hist)
  | .remove k => .value (latest k hist)
  | .get k => .value (latest k hist)
  | .containsKey k => .present (latest k hist).isSome

/-- What a sequence of calls must return after a history (latest call first). -/
def plainExpectAll : List (MapOp K V) → List (MapOp K V) → List (PlainOut V)
  | _, [] => []
  | hist, op :: ops => plainExpect hist op :: plainExpectAll (op :: hist) ops

end Spec
end FuelMerkle
