import Verif.Proofs.BinaryMachine
import Verif.Tests.ToyHash

/-
Property C84: what the binary tree returns, reads and writes, exactly, on every storage.
-/
namespace FuelMerkle.Props
open FuelMerkle.Spec
open FuelMerkle.Binary
variable {E : Type}

set_option maxRecDepth 100000

/-- **C84**, machine. For every build profile, hash function, storage (with any content and any pattern
of failing calls) and sequence of calls, a new binary tree returns exactly what the machine returns, and
leaves exactly the storage and the leaf count the machine leaves. -/
theorem C84_machine (p : Profile) (H : HashFn) (s : BStore E) (ops : List Op) (hn : pushCount ops < p.leafLimit) (hi : indicesOk ops) :
    (run p H ops (Tree.new s)).1 = (Machine.run H ops ⟨0, [], s⟩).1 ∧
    (run p H ops (Tree.new s)).2.storage = (Machine.run H ops ⟨0, [], s⟩).2.storage ∧
    (run p H ops (Tree.new s)).2.leavesCount = (Machine.run H ops ⟨0, [], s⟩).2.count := by
  have := (run_exact p H ops (Tree.new s) [] ⟨[], 0, rfl, rfl, rfl, trivial⟩ (by simpa [Tree.new] using hn) hi).1
  obtain ⟨h1, h2⟩ := Prod.mk.inj this
  exact ⟨h1, Prod.mk.inj h2⟩

/-- **C84**, failures. Whatever fails, every key holds what it held before, or that key and the hash of a
tree over some of the pushed leaves, in their order. -/
theorem C84_failures (p : Profile) (H : HashFn) (s : BStore E) (ops : List Op) (hn : pushCount ops < p.leafLimit) (hi : indicesOk ops) (k : Nat) :
    (run p H ops (Tree.new s)).2.storage.map k = s.map k ∨
    ∃ ds, ds.Sublist (pushes ops) ∧ (run p H ops (Tree.new s)).2.storage.map k = some (k, mth H ds) := by
  rw [(C84_machine p H s ops hn hi).2.1]
  simpa using machine_origin H ops ⟨0, [], s⟩ k

/-- **C84**, proofs after a failed push. When a push failed after its first write, `prove` of every leaf
that was there before panics (unless the storage fails at once), until a push succeeds. -/
theorem C84_prove_panics (p : Profile) (H : HashFn) (s : BStore E) (ds : List Bytes) (t t' : Tree E) (d : Bytes) (e : Fail (Error E))
    (hn : ds.length < p.leafLimit) (ht : pushAll p H ds (Tree.new s) = (.ok (), t)) (hf : push p H d t = (.error e, t'))
    (hc : t.storage.clock + 1 < t'.storage.clock) (i : Nat) (hi : i < ds.length) (hs : t'.storage.sched t'.storage.clock = none) :
    (prove p H i t').1 = .error (.panic .unwrapNone) := by
  have hlim := p.leafLimit_le
  obtain ⟨h1, _, _⟩ := pushAll_ok_inv p H ds (Inv.new H s) (by simp; omega) ht
  rw [List.nil_append] at h1
  obtain ⟨_, h2, h3, h4⟩ := push_error_inv p H h1 (by omega) hf
  rcases h4 with ⟨_, h4⟩ | ⟨h4, _⟩
  · omega
  · have hold : Holds H t'.head t'.leavesCount [] := ⟨[], t'.leavesCount, by rw [h4]; rfl, rfl, rfl, trivial⟩
    obtain ⟨s', _, h6⟩ := prove_exact p H i (by omega) t' hold (by omega)
    have hleaf := h3 0 i (by simp; omega)
    have hkey : (nodeAt H ds 0 i).key = 2 * i := ioIndex_zero_left i
    have hleaf' : t'.storage.map (2 * i) = some (nodeAt H ds 0 i).toPrim := hleaf
    have : (⟨t'.leavesCount, [], t'.storage⟩ : Machine E).step H (.prove i) =
        (.prove (.error (.panic .unwrapNone)), ⟨t'.leavesCount, [], { t'.storage with clock := t'.storage.clock + 1 }⟩) := by
      unfold Machine.step
      simp only [if_neg (show ¬ t'.leavesCount ≤ i by omega), hs, hleaf', if_true]
    rw [this] at h6
    have := (Prod.mk.inj h6).1
    injection this with this
    exact this.symm

/-! ### The hypotheses can be met -/

namespace BinaryMachine

/-- Five leaves, with roots and proofs in between. -/
def sampleOps : List Op := [.push [1], .push [2], .prove 1, .push [3], .root, .prove 2, .push [4], .prove 0, .push [5], .push [6], .root, .prove 3, .prove 9]

/-- A storage whose eleventh call fails, after its effect. -/
def sampleStore : BStore String where
  map := fun _ => none
  sched := fun c => if c = 10 then some ⟨"full", true⟩ else none
  clock := 0

example (p : Profile) (H : HashFn) (s : BStore E) :
    (run p H sampleOps (Tree.new s)).1 = (Machine.run H sampleOps ⟨0, [], s⟩).1 ∧
    (run p H sampleOps (Tree.new s)).2.storage = (Machine.run H sampleOps ⟨0, [], s⟩).2.storage ∧
    (run p H sampleOps (Tree.new s)).2.leavesCount = (Machine.run H sampleOps ⟨0, [], s⟩).2.count :=
  C84_machine p H s sampleOps (p.lt_leafLimit (by decide)) (by simp [sampleOps, indicesOk])

/-- How a call ended: `0` well, `1` with an error, `2` with a panic. -/
def ending : Out E → Nat
  | .push (.ok _) | .root (.ok _) | .prove (.ok _) => 0
  | .push (.error (.err _)) | .prove (.error (.err _)) => 1
  | _ => 2

/-- The push of the fourth leaf fails at its last write; the next `prove` panics; the tree goes on with
two leaves, although it counts five; then the proof of leaf 3 is made of both. -/
example : (Machine.run Tests.toyHash sampleOps ⟨0, [], sampleStore⟩).1.map ending = [0, 0, 0, 0, 0, 0, 1, 2, 0, 0, 0, 0, 1] ∧
    (Machine.run Tests.toyHash sampleOps ⟨0, [], sampleStore⟩).2.leaves = [[5], [6]] ∧
    (Machine.run Tests.toyHash sampleOps ⟨0, [], sampleStore⟩).2.count = 5 := by
  decide +kernel

/-- The record at key 5, the parent of leaves 2 and 3, is then that of the leaves `[5]` and `[6]`. -/
example : (Machine.run Tests.toyHash sampleOps ⟨0, [], sampleStore⟩).2.storage.map 5 = some (5, mth Tests.toyHash [[5], [6]]) := by
  decide +kernel

/-- A storage that fails at its third call. -/
def thirdFails : BStore String := ⟨fun _ => none, fun c => if c = 2 then some ⟨"full", false⟩ else none, 0⟩

/-- One leaf, then a push that fails at its second write. -/
def panicStory : Bool :=
  match pushAll ⟨true, true, .w64⟩ Tests.toyHash [[1]] (Tree.new thirdFails) with
  | (.ok _, t) =>
    match push ⟨true, true, .w64⟩ Tests.toyHash [2] t with
    | (.error _, t') => decide (t.storage.clock + 1 < t'.storage.clock) && (t'.storage.sched t'.storage.clock).isNone
    | _ => false
  | _ => false

/-- The premises of `C84_prove_panics` can be met. -/
example : ∃ (t t' : Tree String) (e : Fail (Error String)),
    pushAll ⟨true, true, .w64⟩ Tests.toyHash [[1]] (Tree.new thirdFails) = (.ok (), t) ∧
    push ⟨true, true, .w64⟩ Tests.toyHash [2] t = (.error e, t') ∧
    t.storage.clock + 1 < t'.storage.clock ∧ t'.storage.sched t'.storage.clock = none := by
  have h : panicStory = true := by decide +kernel
  unfold panicStory at h
  split at h
  · rename_i t e1
    split at h
    · rename_i e t' e2
      simp only [Bool.and_eq_true, decide_eq_true_eq, Option.isNone_iff_eq_none] at h
      exact ⟨t, t', e, e1, e2, h.1, h.2⟩
    · cases h
  · cases h

/-- Aligned trees have the keys of C08; others those of the ancestors of their first leaf. -/
example : keyOf 4 4 = 11 ∧ keyOf 4 3 = 11 ∧ keyOf 6 1 = 12 ∧ keyOf 3 2 = 5 ∧ keyOf 3 4 = 3 := by decide +kernel

example : sideKeys 7 6 = [9, 3] ∧ sideKeys 7 1 = [0, 5, 11] ∧ sideKeys 1 0 = [] := by decide +kernel

end BinaryMachine
end FuelMerkle.Props
