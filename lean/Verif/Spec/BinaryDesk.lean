import Verif.Spec.BinaryMachine

/-
Several binary trees open on one storage, with any lists of leaves. Used in the statements of the
properties.
-/
namespace FuelMerkle
namespace Binary
open Spec
variable {E : Type}

/-- A storage and the open trees on it (what each holds in memory). -/
structure Bench (E : Type) where
  storage : BStore E
  head : Nat → List Node
  count : Nat → Nat

/-- All trees are new. -/
def Bench.start (s : BStore E) : Bench E := { storage := s, head := fun _ => (Tree.new s).head, count := fun _ => (Tree.new s).leavesCount }

/-- Call `x.2` on the tree number `x.1`. -/
def Bench.step (p : Profile) (H : HashFn) (x : Nat × Op) (c : Bench E) : Out E × Bench E :=
  let (o, t) := Binary.step p H x.2 { storage := c.storage, head := c.head x.1, leavesCount := c.count x.1 }
  (o, { storage := t.storage, head := fun j => if j = x.1 then t.head else c.head j,
        count := fun j => if j = x.1 then t.leavesCount else c.count j })

/-- A sequence of calls on several trees. -/
def Bench.run (p : Profile) (H : HashFn) : List (Nat × Op) → Bench E → List (Out E) × Bench E
  | [], c => ([], c)
  | x :: xs, c =>
    let (o, c') := c.step p H x
    let (os, c'') := Bench.run p H xs c'
    (o :: os, c'')

/-- The leaf count and the leaves of each tree, and the storage they share. -/
structure Lists (E : Type) where
  storage : BStore E
  leaves : Nat → List Bytes
  count : Nat → Nat

/-- A call on the tree number `x.1`: what the machine of one tree does (`Spec/BinaryMachine.lean`), with
the leaves of that tree and the common storage. -/
def Lists.step (H : HashFn) (x : Nat × Op) (c : Lists E) : Out E × Lists E :=
  let (o, m) := Machine.step H x.2 ⟨c.count x.1, c.leaves x.1, c.storage⟩
  (o, { storage := m.storage, leaves := fun j => if j = x.1 then m.leaves else c.leaves j,
        count := fun j => if j = x.1 then m.count else c.count j })

/-- A sequence of calls. -/
def Lists.run (H : HashFn) : List (Nat × Op) → Lists E → List (Out E) × Lists E
  | [], c => ([], c)
  | x :: xs, c =>
    let (o, c') := c.step H x
    let (os, c'') := Lists.run H xs c'
    (o :: os, c'')

/-- The calls made on the tree `i`. -/
def callsTo (i : Nat) (xs : List (Nat × Op)) : List Op := (xs.filter fun x => x.1 = i).map Prod.snd

/-- The leaves pushed onto the tree `i`. -/
def leavesTo (i : Nat) (xs : List (Nat × Op)) : List Bytes := pushes (callsTo i xs)

/-- The keys and hashes the calls write, in order, when nothing fails and the trees begin with the
leaves `ls`. -/
def benchWrites (H : HashFn) : List (Nat × Op) → (Nat → List Bytes) → List (Nat × Bytes32)
  | [], _ => []
  | (i, .push d) :: xs, ls => (pushSizes ((ls i).length + 1)).map (treeOf H ((ls i).length + 1) (ls i ++ [d])) ++
      benchWrites H xs (fun j => if j = i then ls i ++ [d] else ls j)
  | _ :: xs, ls => benchWrites H xs ls

/-- The leaf that was pushed last as number `k` (from 0) of its tree, when the trees begin with so many leaves. -/
def lastAt (k : Nat) : List (Nat × Op) → (Nat → Nat) → Option Bytes
  | [], _ => none
  | (i, .push d) :: xs, n => (lastAt k xs fun j => if j = i then n i + 1 else n j).or (if n i = k then some d else none)
  | _ :: xs, n => lastAt k xs n

end Binary
end FuelMerkle
