import Verif.Spec.BinaryApi
import Verif.Spec.SumApi

/-
Several open trees on one storage. An open tree is what the client holds in memory; every call
works on the one storage that all of them share.
-/
namespace FuelMerkle

namespace Binary
variable {E : Type}

/-- What a client of several binary trees can do with the tree called `i`. -/
inductive Act where
  | new (i : Nat)
  | load (i m : Nat)
  | close (i : Nat)
  | push (i : Nat) (d : Bytes)
  | root (i : Nat)
  | prove (i k : Nat)
deriving DecidableEq, Repr

/-- The storage, the open trees, the list each of them stands for, and the largest number of
leaves any push has been acknowledged for. -/
structure Desk (E : Type) where
  storage : BStore E
  handle : Nat → Option (Tree E)
  list : Nat → List Bytes
  top : Nat

/-- An open tree together with the storage as it is now. -/
def Desk.at (c : Desk E) (t : Tree E) : Tree E := { t with storage := c.storage }

/-- One action. A tree whose `push` failed is closed. `L` is the list all clients agree on: it
says what a loaded tree stands for. -/
def Desk.step (p : Profile) (H : HashFn) (L : List Bytes) (a : Act) (c : Desk E) : Desk E :=
  match a with
  | .new i => { c with handle := fun j => if j = i then some (Tree.new c.storage) else c.handle j
                       list := fun j => if j = i then [] else c.list j }
  | .load i m =>
    match Tree.load p c.storage m with
    | (.ok t, s) => { c with storage := s
                             handle := fun j => if j = i then some t else c.handle j
                             list := fun j => if j = i then L.take m else c.list j }
    | (.error _, s) => { c with storage := s, handle := fun j => if j = i then none else c.handle j }
  | .close i => { c with handle := fun j => if j = i then none else c.handle j }
  | .push i d =>
    match c.handle i with
    | none => c
    | some t =>
      match Binary.push p H d (c.at t) with
      | (.ok _, t') => { storage := t'.storage
                         handle := fun j => if j = i then some t' else c.handle j
                         list := fun j => if j = i then c.list i ++ [d] else c.list j
                         top := max c.top ((c.list i).length + 1) }
      | (.error _, t') => { c with storage := t'.storage
                                   handle := fun j => if j = i then none else c.handle j }
  | .root _ => c
  | .prove i k =>
    match c.handle i with
    | none => c
    | some t =>
      let (_, t') := Binary.prove p H k (c.at t)
      { c with storage := t'.storage, handle := fun j => if j = i then some t' else c.handle j }

/-- A list of actions. -/
def Desk.run (p : Profile) (H : HashFn) (L : List Bytes) : List Act → Desk E → Desk E
  | [], c => c
  | a :: as, c => Desk.run p H L as (c.step p H L a)

/-- The clients agree on `L`: a push continues a beginning of `L`, and a tree is loaded with a
number of leaves that has been acknowledged before. -/
def Desk.Legal (L : List Bytes) (a : Act) (c : Desk E) : Prop :=
  match a with
  | .push i d => c.handle i ≠ none → (c.list i ++ [d]) <+: L
  | .load _ m => m ≤ c.top
  | _ => True

/-- Every action of the list is legal when its turn comes. -/
def Desk.LegalRun (p : Profile) (H : HashFn) (L : List Bytes) : List Act → Desk E → Prop
  | [], _ => True
  | a :: as, c => c.Legal L a ∧ Desk.LegalRun p H L as (c.step p H L a)

/-- No tree is open. -/
def Desk.start (s : BStore E) : Desk E := { storage := s, handle := fun _ => none, list := fun _ => [], top := 0 }

end Binary

namespace Sum
variable {E : Type}

/-- A storage and the open sum trees on it (the subtree lists they hold in memory). -/
structure Desk (E : Type) where
  storage : SStore E
  head : Nat → List Node

/-- Call `op` on the tree number `i`. -/
def Desk.step (p : Profile) (H : HashFn) (x : Nat × Op) (c : Desk E) : Out E × Desk E :=
  let (o, t) := Sum.step p H x.2 { storage := c.storage, head := c.head x.1 }
  (o, { storage := t.storage, head := fun j => if j = x.1 then t.head else c.head j })

/-- A sequence of calls on several trees. -/
def Desk.run (p : Profile) (H : HashFn) : List (Nat × Op) → Desk E → List (Out E) × Desk E
  | [], c => ([], c)
  | x :: xs, c =>
    let (o, c') := c.step p H x
    let (os, c'') := Desk.run p H xs c'
    (o :: os, c'')

/-- The specification: every tree is a list of its own. -/
def deskSpec (H : HashFn) : List (Nat × Op) → (Nat → List Spec.Item) → List (Out E)
  | [], _ => []
  | x :: xs, ls =>
    let (o, ds) := specStep (E := E) H x.2 (ls x.1)
    o :: deskSpec H xs (fun j => if j = x.1 then ds else ls j)

/-- The calls made on the tree `i`. -/
def callsOn (i : Nat) (xs : List (Nat × Op)) : List Op := (xs.filter fun x => x.1 = i).map Prod.snd

/-- The leaves pushed onto the tree `i`. -/
def leavesOf (i : Nat) (xs : List (Nat × Op)) : List Spec.Item := pushed (callsOn i xs)

/-- All trees are empty. -/
def Desk.start (s : SStore E) : Desk E := { storage := s, head := fun _ => (Tree.new s).head }

/-- The messages hashed for all trees of a history. -/
def deskMsgs (H : HashFn) (xs : List (Nat × Op)) : List Bytes :=
  (xs.map Prod.fst).flatMap fun i => Spec.prefixMsgs H (leavesOf i xs)

end Sum
end FuelMerkle
