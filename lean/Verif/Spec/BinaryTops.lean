import Verif.Spec.BinaryLoaded
import Verif.Spec.BinaryDesk
import Verif.Spec.Limits

/-
Any number of binary trees on one storage with any contents, opened, loaded and used in any order: what
every call returns and does to the storage, in terms of the sizes and hashes of subtrees. Used in the
statements of the properties.
-/
namespace FuelMerkle
namespace Binary
open Spec
variable {E : Type}

/-- What is done: a tree is made new, loaded, or called. -/
inductive Action where
  | new (i : Nat)
  | load (i n : Nat)
  | call (i : Nat) (op : Op)

/-- What comes back. -/
inductive Reply (E : Type) where
  | new
  | load (r : Except (Fail (Error E)) Unit)
  | call (o : Out E)

/-- One action on a storage and the trees on it. A failed `load` leaves the tree number `i` as it was. -/
def Bench.act (p : Profile) (H : HashFn) (a : Action) (c : Bench E) : Reply E × Bench E :=
  match a with
  | .new i => (.new, { c with head := fun j => if j = i then (Tree.new c.storage).head else c.head j,
                              count := fun j => if j = i then (Tree.new c.storage).leavesCount else c.count j })
  | .load i n =>
    match Tree.load p c.storage n with
    | (.ok t, s) => (.load (.ok ()), { storage := s, head := fun j => if j = i then t.head else c.head j,
                                       count := fun j => if j = i then t.leavesCount else c.count j })
    | (.error e, s) => (.load (.error e), { c with storage := s })
  | .call i op => match c.step p H (i, op) with | (o, c') => (.call o, c')

/-- A sequence of actions: all replies, and what is left. -/
def Bench.acts (p : Profile) (H : HashFn) : List Action → Bench E → List (Reply E) × Bench E
  | [], c => ([], c)
  | a :: as, c =>
    let (o, c') := c.act p H a
    let (os, c'') := Bench.acts p H as c'
    (o :: os, c'')

/-- The hash of two subtrees side by side, with their number of leaves. -/
def beside (H : HashFn) (x y : Nat × Bytes32) : Nat × Bytes32 := (x.1 + y.1, H ([0x01] ++ x.2.val ++ y.2.val))

/-- A subtree to the right of others (nearest first), and what it becomes when it is joined with them as
long as they are equally large: all the subtrees made, in order. -/
def grown (H : HashFn) : Nat × Bytes32 → List (Nat × Bytes32) → List (Nat × Bytes32)
  | x, [] => [x]
  | x, y :: l => if y.1 = x.1 then x :: grown H (beside H y x) l else [x]

/-- The subtrees that are there afterwards. -/
def grownTops (H : HashFn) : Nat × Bytes32 → List (Nat × Bytes32) → List (Nat × Bytes32)
  | x, [] => [x]
  | x, y :: l => if y.1 = x.1 then grownTops H (beside H y x) l else x :: y :: l

/-- A subtree joined with all others from the right to the left: all the subtrees made, without the first. -/
def joined (H : HashFn) : Nat × Bytes32 → List (Nat × Bytes32) → List (Nat × Bytes32)
  | _, [] => []
  | x, y :: l => beside H y x :: joined H (beside H y x) l

/-- The hash of all subtrees together. -/
def topHash (H : HashFn) : List (Nat × Bytes32) → Bytes32
  | [] => emptySum
  | x :: l => ((joined H x l).getLast?.getD x).2

/-- The subtrees that `topHash` makes. -/
def madeTops (H : HashFn) : List (Nat × Bytes32) → List (Nat × Bytes32)
  | [] => []
  | x :: l => joined H x l

/-- The key under which a subtree of the last leaves is stored when `n` leaves have been counted, and its hash. -/
def keyed (n : Nat) (x : Nat × Bytes32) : Nat × Bytes32 := (keyOf (n - x.1) x.1, x.2)

/-- The storage, and of each tree the number of leaves it counts and the subtrees it works with: their sizes
and hashes, the one on the right first. -/
structure Tops (E : Type) where
  storage : BStore E
  tops : Nat → List (Nat × Bytes32)
  count : Nat → Nat

/-- All trees are new. -/
def Tops.start (s : BStore E) : Tops E := { storage := s, tops := fun _ => [], count := fun _ => 0 }

/-- Change the tree `i` and the storage. -/
def Tops.set (c : Tops E) (i : Nat) (s : BStore E) (l : List (Nat × Bytes32)) (n : Nat) : Tops E :=
  { storage := s, tops := fun j => if j = i then l else c.tops j, count := fun j => if j = i then n else c.count j }

/-- One action. -/
def Tops.act (H : HashFn) (a : Action) (c : Tops E) : Reply E × Tops E :=
  match a with
  | .new i => (.new, c.set i c.storage [] 0)
  | .load i n =>
    match readHashes [] ((peaks 64 0 n).map topKey) c.storage with
    | (.ok hs, s) => (.load (.ok ()), c.set i s (((peaks 64 0 n).map Prod.snd).zip hs).reverse n)
    | (.error e, s) => (.load (.error e), { c with storage := s })
  | .call i (.push d) =>
    match writeTrees ((grown H (1, H ([0x00] ++ d)) (c.tops i)).map (keyed (c.count i + 1))) c.storage with
    | (.ok (), s) => (.call (.push (.ok ())), c.set i s (grownTops H (1, H ([0x00] ++ d)) (c.tops i)) (c.count i + 1))
    | (.error e, s) => (.call (.push (.error e)), c.set i s (if c.storage.sched c.storage.clock = none then [] else c.tops i) (c.count i))
  | .call i .root => (.call (.root (.ok (topHash H (c.tops i)))), c)
  | .call i (.prove k) =>
    if c.count i ≤ k then (.call (.prove (.error (.err (.invalidProofIndex k)))), c)
    else
      let read : BStore E := { c.storage with clock := c.storage.clock + 1 }
      match c.storage.sched c.storage.clock with
      | some f => (.call (.prove (.error (.err (.storageError f.err)))), { c with storage := read })
      | none =>
        match c.storage.map (2 * k) with
        | none => (.call (.prove (.error (.err (.loadError k)))), { c with storage := read })
        | some q =>
          if c.tops i = [] then (.call (.prove (.error (.panic .unwrapNone))), { c with storage := read })
          else
            match readHashes ((madeTops H (c.tops i)).map (keyed (c.count i))).reverse (sideKeys (c.count i) k) read with
            | (.ok hs, s) => (.call (.prove (.ok (topHash H (c.tops i), q.2 :: hs))), { c with storage := s })
            | (.error e, s) => (.call (.prove (.error e)), { c with storage := s })

/-- A sequence of actions. -/
def Tops.acts (H : HashFn) : List Action → Tops E → List (Reply E) × Tops E
  | [], c => ([], c)
  | a :: as, c =>
    let (o, c') := c.act H a
    let (os, c'') := Tops.acts H as c'
    (o :: os, c'')

/-- The number of pushes. -/
def pushesIn : List Action → Nat
  | [] => 0
  | .call _ (.push _) :: as => pushesIn as + 1
  | _ :: as => pushesIn as

/-- Every count that is loaded leaves room for the pushes that follow, and proofs are asked for indices
other than the largest. -/
def actsOk (p : Profile) : List Action → Prop
  | [] => True
  | .load _ n :: as => n + pushesIn as < p.leafLimit ∧ actsOk p as
  | .call _ (.prove k) :: as => k + 1 < 2 ^ 64 ∧ actsOk p as
  | _ :: as => actsOk p as

/-- The reply is a panic. -/
def Reply.Panics : Reply E → Prop
  | .new => False
  | .load r => ∃ q, r = .error (.panic q)
  | .call (.push r) => ∃ q, r = .error (.panic q)
  | .call (.root r) => ∃ q, r = .error q
  | .call (.prove r) => ∃ q, r = .error (.panic q)

/-- Whether the last push on the tree `i` failed, since the tree was made new or loaded (`b`: whether it had
failed before). -/
def pushFailed (i : Nat) : Bool → List (Action × Reply E) → Bool
  | b, [] => b
  | b, (.new j, _) :: xs => pushFailed i (if j = i then false else b) xs
  | b, (.load j _, .load (.ok _)) :: xs => pushFailed i (if j = i then false else b) xs
  | b, (.call j (.push _), .call (.push (.ok _))) :: xs => pushFailed i (if j = i then false else b) xs
  | b, (.call j (.push _), .call (.push (.error _))) :: xs => pushFailed i (if j = i then true else b) xs
  | b, _ :: xs => pushFailed i b xs

/-- A push or a root succeeded, or a tree was made new; a `load` succeeded or found a record missing; a proof
was given, or refused because the index is out of range or a record is missing. -/
def Reply.Fair : Reply E → Prop
  | .new => True
  | .load r => r = .ok () ∨ ∃ k, r = .error (.err (.loadError k))
  | .call (.push r) => r = .ok ()
  | .call (.root r) => ∃ h, r = .ok h
  | .call (.prove r) => (∃ x, r = .ok x) ∨ (∃ k, r = .error (.err (.loadError k))) ∨ ∃ k, r = .error (.err (.invalidProofIndex k))

end Binary
end FuelMerkle
