import Verif.Spec.SparseContents

/-
Several open sparse trees on one storage. An open tree is what the client holds in memory, its
root node; every call works on the one storage that all of them share.
-/
namespace FuelMerkle
namespace Sparse
open Spec
variable {E : Type}

/-- The storage, the root nodes of the open trees, and the map each of them stands for. -/
structure Desk (E : Type) where
  storage : SpStore E
  node : Nat → Node
  kv : Nat → Entries Bytes

/-- The open tree number `i` with the storage as it is now. -/
def Desk.tree (c : Desk E) (i : Nat) : Tree E := ⟨c.node i, c.storage⟩

/-- What a client can do: call `update` or `delete` on a tree, or replace the tree `i` by one
loaded at the root the tree `j` reports. -/
inductive Act where
  | call (i : Nat) (op : Op)
  | load (i j : Nat)

/-- One action and its result. The map of a tree changes with the calls that succeed. -/
def Desk.step (p : Profile) (H : HashFn) (a : Act) (c : Desk E) : Except (Fail (Error E)) Unit × Desk E :=
  match a with
  | .call i op =>
    let (r, t) := op.run p H (c.tree i)
    (r, { storage := t.storage
          node := fun j => if j = i then t.rootNode else c.node j
          kv := fun j => if j = i then (⟨op, (c.storage.map op.key).isSome, r⟩ : Event E).effect (c.kv i) else c.kv j })
  | .load i j =>
    match Tree.load c.storage ((c.tree j).root H) with
    | (.ok t, _) => (.ok (), { storage := t.storage
                               node := fun k => if k = i then t.rootNode else c.node k
                               kv := fun k => if k = i then c.kv j else c.kv k })
    | (.error e, s) => (.error e, { c with storage := s })

/-- A sequence of actions, going on after failures: the results, with what there is after each. -/
def Desk.run (p : Profile) (H : HashFn) : List Act → Desk E → List (Except (Fail (Error E)) Unit × Desk E)
  | [], _ => []
  | a :: as, c => c.step p H a :: Desk.run p H as (c.step p H a).2

/-- The map an action leads to if it succeeds. -/
def Desk.attempt (a : Act) (c : Desk E) : Entries Bytes :=
  match a with
  | .call i op => (⟨op, (c.storage.map op.key).isSome, .ok ()⟩ : Event E).attempt (c.kv i)
  | .load _ j => c.kv j

/-- The maps the actions lead to or try to lead to. -/
def Desk.maps (p : Profile) (H : HashFn) : List Act → Desk E → List (Entries Bytes)
  | [], _ => []
  | a :: as, c => c.attempt a :: Desk.maps p H as (c.step p H a).2

/-- The calls among the actions. -/
def calls (as : List Act) : List Op := as.filterMap fun
  | .call _ op => some op
  | .load _ _ => none

/-- Trees are loaded at roots of maps that are not empty. -/
def Desk.Loads (p : Profile) (H : HashFn) : List Act → Desk E → Prop
  | [], _ => True
  | a :: as, c => (∀ i j, a = .load i j → c.kv j ≠ []) ∧ Desk.Loads p H as (c.step p H a).2

/-- The maps of the trees and the contents of the storage, without any program. -/
structure Board where
  kv : Nat → Entries Bytes
  held : Bytes32 → Option Prim

/-- What an action that succeeds does to the maps and the contents. -/
def Board.step (H : HashFn) (a : Act) (b : Board) : Board :=
  match a with
  | .call i op =>
    let s := op.onImage H ⟨b.kv i, b.held⟩
    ⟨fun j => if j = i then s.kv else b.kv j, s.held⟩
  | .load i j => ⟨fun k => if k = i then b.kv j else b.kv k, b.held⟩

/-- The maps and the contents after each of the actions. -/
def Board.run (H : HashFn) : List Act → Board → List Board
  | [], _ => []
  | a :: as, b => b.step H a :: Board.run H as (b.step H a)

/-- The map an action puts in place. -/
def Board.made (H : HashFn) (a : Act) (b : Board) : Entries Bytes :=
  match a with
  | .call i _ => (b.step H a).kv i
  | .load i _ => (b.step H a).kv i

/-- The maps the actions put in place. -/
def Board.maps (H : HashFn) : List Act → Board → List (Entries Bytes)
  | [], _ => []
  | a :: as, b => b.made H a :: Board.maps H as (b.step H a)

/-- Trees are loaded at roots of maps that are not empty, and no removal takes out of one tree an
entry, that is a key with the hash of its data, that another tree has too. -/
def Board.Considerate (H : HashFn) : List Act → Board → Prop
  | [], _ => True
  | a :: as, b =>
    (match a with
     | .call i op => op.data = none → b.held op.key ≠ none → ∀ k d, met op.key (b.kv i) = some k → (k, d) ∈ b.kv i →
        ∀ j, j ≠ i → (k, H d) ∉ digests H (b.kv j)
     | .load _ j => b.kv j ≠ []) ∧ Board.Considerate H as (b.step H a)

/-- What the desk looks like from outside. -/
def Desk.board (c : Desk E) : Board := ⟨c.kv, c.storage.map⟩

/-- All trees are new. -/
def Desk.start (s : SpStore E) : Desk E := ⟨s, fun _ => (Tree.new s).rootNode, fun _ => []⟩

end Sparse
end FuelMerkle
