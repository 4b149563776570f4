import Verif.Spec.AnyStorageStale
import Verif.Spec.BinaryWhole

/-
Binary trees over one list of leaves, on storage that never makes things up but may forget and go back in time.
Used in the statements of the properties.
-/
namespace FuelMerkle
variable {S E : Type}
namespace Binary.Any
open Spec

/-- Every record the storage can return under the key of a complete subtree of these leaves is the right one. -/
def Trusted (H : HashFn) (L : List Bytes) (seen : S → Nat → Prim → Prop) (s : S) : Prop :=
  ∀ h k, (k + 1) * 2 ^ h ≤ L.length → ∀ q, seen s (subtreeKey h k) q →
    q = (subtreeKey h k, mth H ((L.drop (k * 2 ^ h)).take (2 ^ h)))

/-- What the users of the trees want: a new tree in place of the tree `i`, one loaded at a leaf count, the next leaf
of the list pushed, the root, a proof. -/
inductive Wish where
  | new (i : Nat)
  | load (i n : Nat)
  | push (i : Nat)
  | root (i : Nat)
  | prove (i k : Nat)

/-- Trees on a storage, and the number of leaves each of them should have. A tree is given up (`none`) when a push
on it fails, until it is made new or loaded. -/
structure Watch (S : Type) where
  bench : Bench S
  count : Nat → Option Nat

/-- All trees are new. -/
def Watch.start (s : S) : Watch S := ⟨Bench.start s, fun _ => some 0⟩

/-- What is done for a wish: nothing is asked of a tree that was given up, and nothing is pushed after the last leaf
of the list. -/
def Watch.asked (L : List Bytes) (c : Watch S) : Wish → Option Action
  | .new i => some (.new i)
  | .load i n => some (.load i n)
  | .push i =>
    match c.count i with
    | some n => L[n]?.map fun d => .call i (.push d)
    | none => none
  | .root i => (c.count i).map fun _ => .call i .root
  | .prove i k => (c.count i).map fun _ => .call i (.prove k)

/-- The counts after an action with this reply. -/
def Watch.expect (a : Action) (o : Reply E) (c : Watch S) : Nat → Option Nat :=
  match a, o with
  | .new i, _ => fun j => if j = i then some 0 else c.count j
  | .load i n, .load (.ok _) => fun j => if j = i then some n else c.count j
  | .call i (.push _), .call (.push (.ok _)) => fun j => if j = i then (c.count i).map (· + 1) else c.count j
  | .call i (.push _), _ => fun j => if j = i then none else c.count j
  | _, _ => c.count

/-- The error says that a storage call failed, or that a record was not there. -/
def FromStorage : Fail (Error E) → Prop
  | .err (.storageError _) => True
  | .err (.loadError _) => True
  | _ => False

/-- The reply is right, given the list of leaves and the counts before: a `load` or a push does what it should or
reports an error of the storage; a root is that of the first leaves, as many as the tree has; a proof of a leaf that
the tree has is the right one, or there is an error of the storage; a proof of another leaf is refused. -/
def Watch.Right (H : HashFn) (L : List Bytes) (c : Watch S) : Action → Reply E → Prop
  | .new _, o => o = .new
  | .load _ _, o => o = .load (.ok ()) ∨ ∃ e, o = .load (.error e) ∧ FromStorage e
  | .call _ (.push _), o => o = .call (.push (.ok ())) ∨ ∃ e, o = .call (.push (.error (.err (.storageError e))))
  | .call i .root, o => ∃ n, c.count i = some n ∧ o = .call (.root (.ok (if n = 0 then emptySum else mth H (L.take n))))
  | .call i (.prove k), o => ∃ n, c.count i = some n ∧
      if k < n then
        o = .call (.prove (.ok (mth H (L.take n), H ([0x00] ++ L[k]?.getD []) :: auditPath H k (L.take n)))) ∨
          ∃ e, o = .call (.prove (.error e)) ∧ FromStorage e
      else o = .call (.prove (.error (.err (.invalidProofIndex k))))

variable (B : Backend S Nat Prim E)

/-- One wish: what is done for it and the reply, if something is done; and what is left. -/
def Watch.grant (p : Profile) (H : HashFn) (L : List Bytes) (w : Wish) (c : Watch S) : Option (Action × Reply E) × Watch S :=
  match c.asked L w with
  | none => (none, c)
  | some a =>
    let (o, b) := c.bench.act B p H a
    (some (a, o), ⟨b, c.expect a o⟩)

/-- What is left after a sequence of wishes. -/
def Watch.after (p : Profile) (H : HashFn) (L : List Bytes) : List Wish → Watch S → Watch S
  | [], c => c
  | w :: ws, c => Watch.after p H L ws (c.grant B p H L w).2

/-- What was done for a sequence of wishes, with the replies. -/
def Watch.log (p : Profile) (H : HashFn) (L : List Bytes) : List Wish → Watch S → List (Action × Reply E)
  | [], _ => []
  | w :: ws, c => (c.grant B p H L w).1.toList ++ Watch.log p H L ws (c.grant B p H L w).2

/-- All replies are right, each at its time. -/
def Watch.AllRight (p : Profile) (H : HashFn) (L : List Bytes) : List Wish → Watch S → Prop
  | [], _ => True
  | w :: ws, c => (∀ a o, (c.grant B p H L w).1 = some (a, o) → c.Right H L a o) ∧ Watch.AllRight p H L ws (c.grant B p H L w).2

/-- Trees are loaded at counts within the list, and proofs are asked for indices other than `u64::MAX` (see C04). -/
def Wish.InRange (L : List Bytes) : Wish → Prop
  | .load _ n => n ≤ L.length
  | .prove _ k => k + 1 < 2 ^ 64
  | _ => True

end Binary.Any
end FuelMerkle
