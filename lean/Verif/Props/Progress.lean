import Verif.Proofs.Progress
import Verif.Props.ConcurrentSum

/-
C105: no process has to wait for another one.
-/
namespace FuelMerkle.Props
open FuelMerkle Spec
variable {S E : Type}

set_option maxRecDepth 100000

/-- **C105**, sparse trees. Whatever the storage does, whatever the other processes are (also such that never come to an
end) and however the turns are dealt out: a process that handles requests on its sparse trees makes at most 1026 storage
calls for each of them, and comes to its end as soon as it has had so many turns. -/
theorem C105_sparse (B : Backend S Bytes32 Sparse.Prim E) (cut : E) (p : Profile) (H : HashFn)
    (process : Nat → Tape Bytes32 Sparse.Prim E → Tape Bytes32 Sparse.Prim E) (i : Nat) (rs : List Sparse.Any.Request)
    (hi : process i = Sparse.Any.worker cut p H rs) (s : S) (schedule : List Nat) :
    let answered := ((Office.start s).turns B process schedule).answered i
    answered.length ≤ 1026 * rs.length ∧ (1026 * rs.length ≤ schedule.count i → nextCall (process i) answered = none) := by
  refine Office.progress B process s schedule i (Sparse.Any.rep_requests scripted.counted cut p H rs fun _ => Sparse.Node.createPlaceholder)
    (fun t => by rw [hi]; rfl) _ fun s => ?_
  exact Sparse.Any.requests_calls (counted_counts _) p H rs ⟨s, _⟩

/-- **C105**, binary trees over parts of one list (the processes of C98): at most 128 storage calls for each wish. -/
theorem C105_binary (B : Backend S Nat Binary.Prim E) (cut : E) (p : Profile) (H : HashFn)
    (process : Nat → Tape Nat Binary.Prim E → Tape Nat Binary.Prim E) (i : Nat) (L : List Bytes) (ws : List Binary.Any.Wish)
    (hi : process i = Binary.Any.worker cut p H L ws) (s : S) (schedule : List Nat) :
    let answered := ((Office.start s).turns B process schedule).answered i
    answered.length ≤ 128 * ws.length ∧ (128 * ws.length ≤ schedule.count i → nextCall (process i) answered = none) := by
  refine Office.progress B process s schedule i
    (Binary.Any.rep_wishes scripted.counted cut p H L ws (fun _ => [], fun _ => 0, fun _ => some 0)) (fun t => by rw [hi]; rfl) _ fun s => ?_
  have := Binary.Any.wishes_within (counted_counts scripted) p H L ws (.start s) 0 TotalAtMost.zero
  exact this

/-- **C105**, binary trees over any lists (the processes of C103): at most 65 storage calls for each call, and after so
many turns every call has returned. -/
theorem C105_binary_calls (B : Backend S Nat Binary.Prim E) (cut : E) (p : Profile) (H : HashFn)
    (process : Nat → Tape Nat Binary.Prim E → Tape Nat Binary.Prim E) (i : Nat) (xs : List (Nat × Binary.Op))
    (hi : process i = Binary.Any.caller cut p H xs) (s : S) (schedule : List Nat) :
    let answered := ((Office.start s).turns B process schedule).answered i
    answered.length ≤ 65 * xs.length ∧
    (65 * xs.length ≤ schedule.count i → nextCall (process i) answered = none ∧ (Binary.Any.told cut p H xs answered).length = xs.length) := by
  have h := Office.progress B process s schedule i (Binary.Any.rep_calls cut p H scripted.counted xs (fun _ => [], fun _ => 0))
    (fun t => by rw [hi]; rfl) (65 * xs.length) fun s => by
      exact Binary.Any.calls_within (counted_counts scripted) p H xs (.start s) 0 TotalAtMost.zero
  refine ⟨h.1, fun hc => ⟨h.2 hc, ?_⟩⟩
  have hw := h.2 hc
  rw [hi] at hw
  unfold Binary.Any.told
  rw [Binary.Any.told_all cut p H xs _ hw, Binary.Any.calls_length]

/-- **C105**, sum trees (the processes of C102): at most 63 storage calls for each call, and after so many turns every
call has returned. -/
theorem C105_sum (B : Backend S Bytes32 Sum.Node E) (cut : E) (p : Profile) (H : HashFn)
    (process : Nat → Tape Bytes32 Sum.Node E → Tape Bytes32 Sum.Node E) (i : Nat) (xs : List (Nat × Sum.Op)) (hx : xs.length < 2 ^ 64)
    (hi : process i = Sum.Any.worker cut p H xs) (s : S) (schedule : List Nat) :
    let answered := ((Office.start s).turns B process schedule).answered i
    answered.length ≤ 63 * xs.length ∧
    (63 * xs.length ≤ schedule.count i → nextCall (process i) answered = none ∧ (Sum.Any.told cut p H xs answered).length = xs.length) := by
  have h := Office.progress B process s schedule i (Sum.Any.rep_calls scripted.counted cut p H xs (fun _ => []))
    (fun t => by rw [hi]; rfl) (63 * xs.length) fun s => by
      exact Sum.Any.run_within (counted_counts scripted) p H xs (.start s) 0 0 (by omega) (fun _ => ⟨List.Pairwise.nil, Nat.le_refl _⟩) TotalAtMost.zero
  refine ⟨h.1, fun hc => ⟨h.2 hc, ?_⟩⟩
  have hw := h.2 hc
  rw [hi] at hw
  unfold Sum.Any.told
  rw [Sum.Any.told_all (A := []) cut p H xs _ hw, Sum.Any.run_length]

/-- **C105**, no call of a binary tree runs forever: on any implementation of the storage, from any state of the memory, and
for any number of leaves claimed in a `load`, it returns a result, an error or panics. (For sparse trees see C95.) -/
theorem C105_returns (B : Backend S Nat Binary.Prim E) (p : Profile) (H : HashFn) (a : Binary.Action) (c : Binary.Any.Bench (S × Nat)) :
    (c.act B.counted p H a).1.Returns :=
  Binary.Any.act_returns (counted_counts B) p H a c

/-! ### The hypotheses can be met -/

namespace Progress
open AnyStorage

/-- Debug profile on a 64-bit target. -/
def build : Profile := ⟨true, true, .w64⟩

/-- A process that never comes to its end, and removes what was stored last. -/
def vandal {K V : Type} (k : K) (t : Tape K V String) : Tape K V String := { t with waiting := some (.remove k) }

/-- The calls of a process with binary trees. -/
def calls : List (Nat × Binary.Op) := [(0, .push [1]), (0, .push [2]), (1, .push [3]), (0, .root), (0, .prove 1)]

/-- Two processes; one of them vandalises. -/
def pair (i : Nat) : Tape Nat Binary.Prim String → Tape Nat Binary.Prim String :=
  if i = 0 then Binary.Any.caller "cut" build Tests.toyHash calls else vandal 0

/-- They take turns. -/
def turns : Nat → List Nat
  | 0 => []
  | n + 1 => 0 :: 1 :: turns n

/-- The end of the process comes after its sixth storage call, though the other one has removed the record that it needs
for the proof. -/
example : pair 0 = Binary.Any.caller "cut" build Tests.toyHash calls ∧
    nextCall (pair 0) (((Office.start blank).turns (journal none none) pair (turns 5)).answered 0) ≠ none ∧
    nextCall (pair 0) (((Office.start blank).turns (journal none none) pair (turns 6)).answered 0) = none ∧
    (((Office.start blank).turns (journal none none) pair (turns 9)).answered 0).length = 6 ∧
    (((Office.start blank).turns (journal none none) pair (turns 9)).answered 1).length = 9 ∧
    (Binary.Any.told "cut" build Tests.toyHash calls (((Office.start blank).turns (journal none none) pair (turns 6)).answered 0)).length = 5 := by
  refine ⟨rfl, ?_⟩
  decide +kernel

/-- The calls of a process with sum trees. -/
def sums : List (Nat × Sum.Op) := [(0, .push 1 [1]), (0, .push 2 [2]), (0, .push 3 [3]), (0, .root), (0, .root)]

/-- The same with sum trees: four writes for the pushes, and one for each of the roots. -/
def sumPair (i : Nat) : Tape Bytes32 Sum.Node String → Tape Bytes32 Sum.Node String :=
  if i = 0 then Sum.Any.worker "cut" build Tests.toyHash sums else vandal Sparse.zeroSum

example : sums.length < 2 ^ 64 ∧ sumPair 0 = Sum.Any.worker "cut" build Tests.toyHash sums ∧
    nextCall (sumPair 0) (((Office.start blank).turns (journal none none) sumPair (turns 5)).answered 0) ≠ none ∧
    nextCall (sumPair 0) (((Office.start blank).turns (journal none none) sumPair (turns 6)).answered 0) = none ∧
    (((Office.start blank).turns (journal none none) sumPair (turns 9)).answered 0).length = 6 := by
  refine ⟨by decide, rfl, ?_⟩
  decide +kernel

/-- Requests of a process with sparse trees. -/
def requests : List Sparse.Any.Request :=
  [.call 0 (.update ⟨List.replicate 32 1, by decide⟩ [1]), .call 0 (.update ⟨List.replicate 32 2, by decide⟩ [2]), .root 0, .load 1 Sparse.zeroSum]

/-- The same with sparse trees. -/
def sparsePair (i : Nat) : Tape Bytes32 Sparse.Prim String → Tape Bytes32 Sparse.Prim String :=
  if i = 0 then Sparse.Any.worker "cut" build Tests.toyHash requests else vandal Sparse.zeroSum

example : sparsePair 0 = Sparse.Any.worker "cut" build Tests.toyHash requests ∧
    nextCall (sparsePair 0) (((Office.start blank).turns (journal none none) sparsePair (turns 4)).answered 0) ≠ none ∧
    nextCall (sparsePair 0) (((Office.start blank).turns (journal none none) sparsePair (turns 20)).answered 0) = none := by
  refine ⟨rfl, ?_⟩
  decide +kernel

/-- Wishes of a process with trees over the list `[[1], [2], [3]]`. -/
def wishes : List Binary.Any.Wish := [.push 0, .push 0, .push 0, .load 1 2, .prove 1 0]

/-- The same with wishes; the vandal removes the second leaf. -/
def wishPair (i : Nat) : Tape Nat Binary.Prim String → Tape Nat Binary.Prim String :=
  if i = 0 then Binary.Any.worker "cut" build Tests.toyHash [[1], [2], [3]] wishes else vandal 2

example : wishPair 0 = Binary.Any.worker "cut" build Tests.toyHash [[1], [2], [3]] wishes ∧
    nextCall (wishPair 0) (((Office.start blank).turns (journal none none) wishPair (turns 5)).answered 0) ≠ none ∧
    nextCall (wishPair 0) (((Office.start blank).turns (journal none none) wishPair (turns 8)).answered 0) = none := by
  refine ⟨rfl, ?_⟩
  decide +kernel

/-- A `load` that claims more leaves than there can be returns. -/
example : (match (Binary.Any.Bench.act (journal none none).counted build Tests.toyHash (.load 0 (2 ^ 64 - 1)) (.start (blank, 0))).1 with
    | .load (.error (.panic .overflow)) => true
    | _ => false) = true := by
  decide +kernel

end Progress
end FuelMerkle.Props
