import Verif.Spec.Concurrent

/-
What is granted when processes share a storage that works. Used in the statements of the properties.
-/
namespace FuelMerkle
variable {S E : Type}

/-- None of the calls that were answered in between failed. -/
def Tape.Unharmed {K V : Type} (before after : Tape K V E) : Prop :=
  ∀ used, before.answered = used ++ after.answered → ∀ c e, (c, .error e) ∉ used

namespace Binary.Any
open Spec

/-- With the record of a complete subtree of the first `n` leaves, those of all complete subtrees within it are there. -/
def Whole (n : Nat) (view : Nat → Option Prim) : Prop :=
  ∀ h k h' k', (k + 1) * 2 ^ h ≤ n → view (subtreeKey h k) ≠ none → k * 2 ^ h ≤ k' * 2 ^ h' → (k' + 1) * 2 ^ h' ≤ (k + 1) * 2 ^ h →
    view (subtreeKey h' k') ≠ none

/-- The records of all complete subtrees of the first `n` leaves are there. -/
def Held (n : Nat) (view : Nat → Option Prim) : Prop :=
  ∀ h k, (k + 1) * 2 ^ h ≤ n → view (subtreeKey h k) ≠ none

/-- The wish came true, given the counts before: a `load` of at most `n` leaves, a push, and a proof of a leaf that the
tree has do not fail. -/
def Watch.Succeeds (n : Nat) (c : Watch S) : Action → Reply E → Prop
  | .load _ m, o => m ≤ n → o = .load (.ok ())
  | .call _ (.push _), o => o = .call (.push (.ok ()))
  | .call i (.prove k), o => ∀ m, c.count i = some m → k < m → ∃ r, o = .call (.prove (.ok r))
  | _, _ => True

/-- Every wish of a process came true, unless the process is still waiting for the storage. -/
def Watch.AllSucceed (cut : E) (p : Profile) (H : HashFn) (L : List Bytes) (n : Nat) : List Wish → Watch (Tape Nat Prim E) → Prop
  | [], _ => True
  | w :: ws, c =>
    (∀ a o, (c.grant (tape cut) p H L w).1 = some (a, o) → (c.grant (tape cut) p H L w).2.bench.storage.waiting = none → c.Succeeds n a o) ∧
      Watch.AllSucceed cut p H L n ws (c.grant (tape cut) p H L w).2

/-- Every wish of a process came true, unless the process is still waiting for the storage, or one of the storage calls
of that wish failed. -/
def Watch.FailsOnlyWithStorage (cut : E) (p : Profile) (H : HashFn) (L : List Bytes) (n : Nat) : List Wish → Watch (Tape Nat Prim E) → Prop
  | [], _ => True
  | w :: ws, c =>
    (∀ a o, (c.grant (tape cut) p H L w).1 = some (a, o) → (c.grant (tape cut) p H L w).2.bench.storage.waiting = none →
        Tape.Unharmed c.bench.storage (c.grant (tape cut) p H L w).2.bench.storage → c.Succeeds n a o) ∧
      Watch.FailsOnlyWithStorage cut p H L n ws (c.grant (tape cut) p H L w).2

end Binary.Any
end FuelMerkle
