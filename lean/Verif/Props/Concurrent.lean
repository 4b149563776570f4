import Verif.Proofs.ReplayBinary
import Verif.Props.AnyStorageAppend

/-
C98: processes that work on one storage at the same time, each with its own binary trees over one list of leaves.
-/
namespace FuelMerkle.Props
open FuelMerkle Spec Binary Binary.Any
variable {S E : Type}

set_option maxRecDepth 100000

/-- **C98**. Any number of processes work on one storage at the same time; each has its own binary trees, all over the
same list of leaves. Their storage calls are mixed in any order: the schedule says whose turn it is, and a turn is one
storage call. A process that gets no more turns has crashed. The storage never makes up a record, but may fail, lose
records, and return older ones. Then, at every moment, everything every process was answered is right in the sense of
C97: roots, proofs, refusals; errors come from the storage; nothing panics. And no record in the storage is wrong. -/
theorem C98_right {B : Backend S Nat Prim E} {seen : S → Nat → Prim → Prop} (cut : E) (p : Profile) (H : HashFn) (L : List Bytes) (s : S)
    (ws : Nat → List Wish) (schedule : List Nat) (hB : NoInvention B seen) (hL : L.length < p.leafLimit) (hw : ∀ i, ∀ w ∈ ws i, w.InRange L)
    (hs : Trusted H L seen s) :
    let o := (Office.start s).turns B (fun i => worker cut p H L (ws i)) schedule
    (∀ i, (Watch.start (⟨o.answered i, none⟩ : Tape Nat Prim E)).AllRight (tape cut) p H L (ws i)) ∧ Trusted H L seen o.storage := by
  have h0 : (Office.start s : Office S Nat Prim E).Fine seen (Fits H L) :=
    ⟨fun x q hx q' hc => trusted_pure.1 hs x q q' hx hc, fun i x q hx => by cases hx⟩
  have h := fine_turns hB cut p hL ws hw schedule h0
  refine ⟨fun i => (allRight (tape_noInvention cut) p hL (ws i) _ (hw i) (good_start (fine_tape h i))).1, ?_⟩
  exact trusted_pure.2 fun x q q' hx hc => h.storage x q hx q' hc

/-- **C98**, what the turns mean: a process that starts now, on any storage, and gets all turns until its end does to the
storage what its program does to it, call by call, and is answered the same. So mixing the calls is all that is added
to the trees of `Model/AnyStorage.lean`. -/
theorem C98_alone (B : Backend S Nat Prim E) (cut : E) (p : Profile) (H : HashFn) (L : List Bytes) (ws : Nat → List Wish) (i : Nat)
    (o : Office S Nat Prim E) (ho : o.answered i = []) :
    ∃ n, let o' := o.turns B (fun i => worker cut p H L (ws i)) (List.replicate n i)
      o'.storage = ((Watch.start o.storage).after B p H L (ws i)).bench.storage ∧
      nextCall (worker cut p H L (ws i)) (o'.answered i) = none ∧
      (Watch.start (⟨o'.answered i, none⟩ : Tape Nat Prim E)).log (tape cut) p H L (ws i) = (Watch.start o.storage).log B p H L (ws i) := by
  obtain ⟨n, h1, h2, h3⟩ := (rep_wishes B cut p H L (ws i) (desk (Watch.start o.storage))).alone i (fun i => worker cut p H L (ws i)) (fun t => rfl) o ho
  exact ⟨n, h1, h2, congrArg (fun x => x.1.1) h3⟩

namespace Concurrent
open AnyStorageStale (Moody moody moody_noInvention build)
open AnyStorageAppend (leaves ending)

/-! ### The hypotheses can be met -/

/-- One process pushes four leaves and asks for a root and a proof; another one pushes one leaf, loads a tree with four
leaves, if need be at the second attempt, goes on to five leaves, and asks for a root and a proof. -/
def jobs : Nat → List Wish
  | 0 => [.push 0, .push 0, .push 0, .push 0, .root 0, .prove 0 2]
  | 1 => [.push 0, .load 1 4, .load 1 4, .push 1, .root 1, .prove 1 4]
  | _ => []

/-- They take turns, in the middle of their pushes. -/
def turnsTaken : List Nat := [0, 1, 0, 0, 1, 0, 0, 0, 0, 0, 1, 0, 1, 0, 1, 1]

/-- An empty storage, the twelfth call of which fails. -/
def sampleStorage : Moody Nat Prim := ⟨[], [0, 0, 0, 0, 0, 0, 0, 0, 0, 0, 0, 8]⟩

/-- How the wishes of a process ended. -/
def endings : List Wish → Watch (Tape Nat Prim String) → List Nat
  | [], _ => []
  | w :: ws, c => ending (c.grant (tape "cut") build Tests.toyHash leaves w).1 :: endings ws (c.grant (tape "cut") build Tests.toyHash leaves w).2

/-- The hypotheses of the theorems are met. -/
example : NoInvention (moody (K := Nat) (V := Prim)) (fun s k v => (k, v) ∈ s.past) ∧ leaves.length < build.leafLimit ∧
    (∀ i, ∀ w ∈ jobs i, w.InRange leaves) ∧ Trusted Tests.toyHash leaves (fun s k v => (k, v) ∈ s.past) sampleStorage := by
  refine ⟨moody_noInvention, by decide, fun i => ?_, C97_fresh _ _ _ fun x q h => by cases h⟩
  match i with
  | 0 => simp [jobs, Wish.InRange]
  | 1 => simp [jobs, Wish.InRange, leaves]
  | _ + 2 => simp [jobs]

/-- After some turns. -/
def after (n : Nat) : Office (Moody Nat Prim) Nat Prim String :=
  (Office.start sampleStorage).turns moody (fun i => worker "cut" build Tests.toyHash leaves (jobs i)) (turnsTaken.take n)

/-- After five turns both processes are in the middle of a request. In the end, the proof of the first one has failed;
the second one has not found the fourth leaf at first, and then it has; it made the fifth leaf from what the first one
wrote. -/
example : nextCall (worker "cut" build Tests.toyHash leaves (jobs 0)) ((after 5).answered 0) ≠ none ∧
    nextCall (worker "cut" build Tests.toyHash leaves (jobs 1)) ((after 5).answered 1) ≠ none ∧
    nextCall (worker "cut" build Tests.toyHash leaves (jobs 0)) ((after 16).answered 0) = none ∧
    nextCall (worker "cut" build Tests.toyHash leaves (jobs 1)) ((after 16).answered 1) = none ∧
    endings (jobs 0) (.start ⟨(after 16).answered 0, none⟩) = [1, 1, 1, 1, 1, 2] ∧
    endings (jobs 1) (.start ⟨(after 16).answered 1, none⟩) = [1, 3, 1, 1, 1, 1] := by
  decide +kernel

end Concurrent
end FuelMerkle.Props
