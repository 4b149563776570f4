import Verif.Proofs.ConcurrentBinary
import Verif.Props.AnyStorageStale

/-
C103: processes that work on one storage at the same time, each with its own binary trees, over any lists of leaves.
-/
namespace FuelMerkle.Props
open FuelMerkle Spec Binary Binary.Any
variable {S E : Type}

set_option maxRecDepth 100000

/-- **C103**, what a process is told. Any number of processes work on one storage at the same time, their storage calls
mixed in any order; each has its own binary trees, over any leaves. At every moment, whatever the storage does and whatever
the others do, every reply that a call on a tree has returned, no push on that tree having failed before, is this: a push
succeeds, or reports the error of a write of this process that failed; a root is the root of the leaves pushed on that tree;
a proof has the root of these leaves and the right length, or a read of this process failed, or the storage has lost
a record that this process had written. -/
theorem C103_fair (B : Backend S Nat Prim E) (cut : E) (p : Profile) (H : HashFn) (s : S) (xs : Nat → List (Nat × Op)) (schedule : List Nat) (i : Nat)
    (hn : ∀ j, (leavesTo j (xs i)).length < p.leafLimit) (hi : ∀ x ∈ xs i, indicesOk [x.2]) (n j : Nat) (op : Op) (o : Out E)
    (hx : (xs i)[n]? = some (j, op)) :
    let answered := (crowd B cut p H s xs schedule).answered i
    (told cut p H (xs i) answered)[n]? = some o →
    (∀ m < n, ∀ d, (xs i)[m]? = some (j, .push d) → (told cut p H (xs i) answered)[m]? = some (.push (.ok ()))) →
    Fair H answered (leavesTo j ((xs i).take n)) op o := by
  intro answered ho hb
  have h := told_fair (A := answered) (H := H) cut p (xs i) (.start ⟨answered, none⟩) (fun _ => []) (fun _ => True) (fun _ _ => sturdy_new answered)
    (by simpa using hn) hi n j op o hx ho trivial hb
  simpa using h

/-- **C103**, no record is lost. On a storage that behaves like a map, some of whose calls fail, a record that a process has
written is there whenever it asks for it. -/
theorem C103_kept {B : Backend S Nat Prim E} {ok : S → Prop} {view : S → Nat → Option Prim} (hB : MapLike B ok view) (cut : E) (p : Profile) (H : HashFn)
    (s : S) (hs : ok s) (xs : Nat → List (Nat × Op)) (schedule : List Nat) (i k : Nat) : ¬ Lost ((crowd B cut p H s xs schedule).answered i) k :=
  (kept_crowd cut p H hB xs s hs schedule).found i k

/-- **C103**, working storage. On a storage that behaves like a map and never fails, all pushes succeed, all roots are those
of the leaves pushed on the tree before, and a proof for one of its leaves is always returned, with this root and the right
length. -/
theorem C103_plain {B : Backend S Nat Prim E} {ok : S → Prop} {view : S → Nat → Option Prim} (hB : MapLike B ok view) (hw : NeverFails B ok)
    (cut : E) (p : Profile) (H : HashFn) (s : S) (hs : ok s) (xs : Nat → List (Nat × Op)) (schedule : List Nat) (i : Nat)
    (hn : ∀ j, (leavesTo j (xs i)).length < p.leafLimit) (hi : ∀ x ∈ xs i, indicesOk [x.2]) (n j : Nat) (op : Op) (o : Out E)
    (hx : (xs i)[n]? = some (j, op)) (ho : (told cut p H (xs i) ((crowd B cut p H s xs schedule).answered i))[n]? = some o) :
    Plain H (leavesTo j ((xs i).take n)) op o := by
  have hno : ∀ c e, (c, .error e) ∉ (crowd B cut p H s xs schedule).answered i :=
    no_failure hB hw _ schedule (.start s) hs (fun _ _ _ h => by cases h) i
  have hl := C103_kept hB cut p H s hs xs schedule i
  have hfair := C103_fair B cut p H s xs schedule i hn hi
  simp only at hfair
  generalize (crowd B cut p H s xs schedule).answered i = A at *
  have conv : ∀ {ds : List Bytes} {op : Op} {o : Out E}, Fair H A ds op o → Plain H ds op o := by
    intro ds op o h
    cases op <;> cases o <;> first | exact h.elim | skip
    · rcases h with h | ⟨k, v, e, _, h⟩
      · exact h
      · exact absurd h (hno _ _)
    · exact h
    · rename_i k r
      show if k < ds.length then _ else _
      have h : if k < ds.length then _ else _ := h
      split at h
      · rename_i hk
        rw [if_pos hk]
        rcases h with h | ⟨k, e, _, h⟩ | ⟨n, k, _, h⟩
        · exact h
        · exact absurd h (hno _ _)
        · exact absurd h (hl k)
      · rename_i hk
        rw [if_neg hk]
        exact h
  -- all earlier pushes succeeded
  have hpush : ∀ n, ∀ j d, (xs i)[n]? = some (j, .push d) → n < (told cut p H (xs i) A).length → (told cut p H (xs i) A)[n]? = some (.push (.ok ())) := by
    intro n
    induction n using Nat.strongRecOn with
    | _ n ih =>
      intro j d hx hlt
      obtain ⟨o, ho⟩ : ∃ o, (told cut p H (xs i) A)[n]? = some o := ⟨_, List.getElem?_eq_getElem hlt⟩
      have := conv (hfair n j (.push d) o hx ho fun m hm d' hd' => ih m hm j d' hd' (by omega))
      cases o with
      | push r =>
        have this : r = .ok () := this
        rw [ho, this]
      | root r => exact this.elim
      | prove r => exact this.elim
  refine conv (hfair n j op o hx ho fun m hm d hd => hpush m j d hd ?_)
  have := (List.getElem?_eq_some_iff.1 ho).1
  omega

/-- **C103**, the end: a process that makes no more calls was told what all its calls return. -/
theorem C103_end (cut : E) (p : Profile) (H : HashFn) (xs : List (Nat × Op)) (answered : List (Answered Nat Prim E))
    (h : nextCall (caller cut p H xs) answered = none) : (told cut p H xs answered).length = xs.length := by
  unfold told
  rw [told_all cut p H xs _ h]
  generalize (Bench.start (⟨answered, none⟩ : Tape Nat Prim E)) = c
  clear h
  induction xs generalizing c with
  | nil => rfl
  | cons x xs ih => exact congrArg (· + 1) (ih _)

/-- **C103**, what the turns mean: a process that starts now, on any storage, and gets all turns until its end does to the
storage what its program does to it, call by call, and is told the same. -/
theorem C103_alone (B : Backend S Nat Prim E) (cut : E) (p : Profile) (H : HashFn) (xs : Nat → List (Nat × Op)) (i : Nat)
    (o : Office S Nat Prim E) (ho : o.answered i = []) :
    ∃ n, let o' := o.turns B (fun i => caller cut p H (xs i)) (List.replicate n i)
      o'.storage = (Bench.calls B p H (xs i) (.start o.storage)).2.storage ∧
      nextCall (caller cut p H (xs i)) (o'.answered i) = none ∧
      told cut p H (xs i) (o'.answered i) = (Bench.calls B p H (xs i) (.start o.storage)).1 := by
  obtain ⟨n, h1, h2, h3⟩ := (rep_calls cut p H B (xs i) (fun _ => [], fun _ => 0)).alone i (fun i => caller cut p H (xs i)) (fun t => rfl) o ho
  refine ⟨n, h1, h2, ?_⟩
  unfold told
  rw [told_all cut p H (xs i) _ h2]
  exact congrArg (fun x => x.1.1) h3

namespace ConcurrentBinary
open AnyStorage (Journal journal journal_mapLike journal_neverFails blank blank_fresh Fresh held)
open AnyStorageStale (build)

/-! ### The hypotheses can be met -/

/-- Two processes with different leaves; the second one has two trees. -/
def jobs : Nat → List (Nat × Op)
  | 0 => [(0, .push [1]), (0, .push [2]), (0, .push [3]), (0, .root), (0, .prove 1)]
  | 1 => [(0, .push [4]), (1, .push [5]), (0, .push [6]), (1, .prove 3), (0, .root)]
  | _ => []

/-- Turns in the middle of the pushes. -/
def schedule : List Nat := [0, 1, 0, 1, 0, 0, 1, 1, 0, 0, 0, 1]

/-- After some turns; the storage may fail at the write with the number `slow`. -/
def after (is : List Nat) (slow : Option Nat := none) : Office (Journal Nat Prim) Nat Prim String :=
  crowd (journal none slow) "cut" build Tests.toyHash blank jobs is

/-- What the calls of a process that have returned said. -/
def replies (i : Nat) (o : Office (Journal Nat Prim) Nat Prim String) : List (Out String) := told "cut" build Tests.toyHash (jobs i) (o.answered i)

theorem jobs_leaves (i j : Nat) : (leavesTo j (jobs i)).length ≤ 3 := by
  match i, j with
  | 0, 0 => decide
  | 0, j + 1 => simp [leavesTo, callsTo, jobs, pushes]
  | 1, 0 => decide
  | 1, 1 => decide
  | 1, j + 2 => simp [leavesTo, callsTo, jobs, pushes]
  | i + 2, j => simp [leavesTo, callsTo, jobs, pushes]

/-- The hypotheses of the theorems are met, also by a storage that reports a timeout at its third write. -/
example : (∀ slow, MapLike (journal (K := Nat) (V := Prim) none slow) Fresh held) ∧ Fresh (blank : Journal Nat Prim) ∧
    NeverFails (journal (K := Nat) (V := Prim) none none) Fresh ∧ (∀ i j, (leavesTo j (jobs i)).length < build.leafLimit) ∧
    (∀ i, ∀ x ∈ jobs i, indicesOk [x.2]) := by
  refine ⟨fun _ => journal_mapLike _ _, blank_fresh, journal_neverFails, fun i j => ?_, fun i => ?_⟩
  · have := jobs_leaves i j
    have : 3 < build.leafLimit := by decide
    omega
  · match i with
    | 0 => simp [jobs, indicesOk]
    | 1 => simp [jobs, indicesOk]
    | i + 2 => simp [jobs]

/-- How a call ended: without an error or not. -/
def endings (i : Nat) (o : Office (Journal Nat Prim) Nat Prim String) : List Bool :=
  (replies i o).map fun
    | .push (.ok _) => true
    | .root (.ok _) => true
    | .prove (.ok _) => true
    | _ => false

/-- The roots and proof sets that were returned. -/
def returned (i : Nat) (o : Office (Journal Nat Prim) Nat Prim String) : List (Bytes32 × List Bytes32) :=
  (replies i o).filterMap fun
    | .root (.ok r) => some (r, [])
    | .prove (.ok x) => some x
    | _ => none

/-- Both are through; but for the proof that there is not, no call failed. Each root is that of the process's own leaves. -/
example : endings 0 (after schedule) = [true, true, true, true, true] ∧ endings 1 (after schedule) = [true, true, true, false, true] ∧
    (returned 0 (after schedule)).map Prod.fst = [mth Tests.toyHash [[1], [2], [3]], mth Tests.toyHash [[1], [2], [3]]] ∧
    returned 1 (after schedule) = [(mth Tests.toyHash [[4], [6]], [])] := by
  decide +kernel

/-- More cannot be said about proofs: the one that the first process gets is not that of its leaf, since the leaves of the
other process have been stored in their place. -/
example : ∃ set, (returned 0 (after schedule))[1]? = some (mth Tests.toyHash [[1], [2], [3]], set) ∧
    set ≠ Tests.toyHash ([0x00] ++ [2]) :: auditPath Tests.toyHash 1 [[1], [2], [3]] ∧ set.head? = some (Tests.toyHash ([0x00] ++ [6])) := by
  refine ⟨((returned 0 (after schedule))[1]?.getD (emptySum, [])).2, ?_, ?_, ?_⟩ <;> decide +kernel

/-- If the third write fails, the second push of the first process fails; the second process does not notice. -/
example : endings 0 (after schedule (some 2)) = [true, false, true, true, true] ∧ endings 1 (after schedule (some 2)) = [true, true, true, false, true] ∧
    returned 1 (after schedule (some 2)) = returned 1 (after schedule) := by
  decide +kernel

end ConcurrentBinary
end FuelMerkle.Props
