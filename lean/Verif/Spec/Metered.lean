import Verif.Model.Metered

/-
What is said about the messages that calls hash.
-/
namespace FuelMerkle

/-- The messages hashed by a computation that starts in the given state. -/
def messages {σ ε α : Type} (x : Exec (Metered σ) ε α) (t : σ) : List Bytes := (x ⟨t, []⟩).2.hashed

/-- The computation does not panic: it succeeds or returns an error. -/
def Returns {σ ε α : Type} (x : Exec σ (Fail ε) α) (t : σ) : Prop := ∀ p, (x t).1 ≠ .error (.panic p)

/-- The message of an inner node: the tag and two digests. -/
def Pair (tag : UInt8) (m : Bytes) : Prop := ∃ a b : Bytes32, m = tag :: (a.val ++ b.val)

/-- The message of an inner node of a sum tree: with the fees. -/
def FeePair (m : Bytes) : Prop := ∃ (f g : Nat) (a b : Bytes32), m = 1 :: (u64ToBeBytes f ++ a.val ++ u64ToBeBytes g ++ b.val)

/-- Pushing leaves one after the other. -/
def Binary.Metered.pushAll {E : Type} (p : Profile) (H : HashFn) : List Bytes → Binary.Metered.TreeM E Unit
  | [] => pure ()
  | d :: ds => do
    Binary.Metered.push p H d
    Binary.Metered.pushAll p H ds

end FuelMerkle
