import Verif.Proofs.SumMachine
import Verif.Tests.ToyHash

/-
Property C83: what the sum tree returns and writes, exactly, on every storage.
-/
namespace FuelMerkle.Props
open FuelMerkle.Spec
open FuelMerkle.Sum
variable {E : Type}

set_option maxRecDepth 100000

/-- **C83**, machine. For every build profile, hash function, storage (with any content and any
pattern of failing writes) and sequence of calls, a new sum tree returns exactly what the machine
returns, and leaves exactly the storage the machine leaves. -/
theorem C83_machine (p : Profile) (H : HashFn) (s : SStore E) (ops : List Op) (hn : (pushed ops).length < 2 ^ 64)
    (hf : ∀ x ∈ pushed ops, x.1 < 2 ^ 64) :
    (run p H ops (Tree.new s)).1 = (Machine.run p H ops ⟨[], s⟩).1 ∧
    (run p H ops (Tree.new s)).2.storage = (Machine.run p H ops ⟨[], s⟩).2.storage := by
  have := (run_exact p H ops (Tree.new s) [] ⟨[], rfl, rfl, trivial, fun a ha => by cases ha⟩ (by simpa using hn) hf).1
  exact Prod.mk.inj this

/-- **C83**, contents. When no write fails and (with overflow checks) the fees fit into 64 bits, the
storage holds under every key the record of the last written tree with that hash, and what it held
before if there is none. The written trees are: at each push, the trees over the last `2^h` leaves
with `2^h` dividing their number; at each `root`, the trees over the last `n % 2^(h+1)` of the `n`
leaves, for the set bits `h` of `n` other than the lowest. -/
theorem C83_contents (p : Profile) (H : HashFn) (s : SStore E) (ops : List Op) (hn : (pushed ops).length < 2 ^ 64)
    (hf : ∀ x ∈ pushed ops, x.1 < 2 ^ 64) (hr : s.Reliable) (ht : p.overflowChecks = true → total (pushed ops) < 2 ^ 64) (k : Bytes32) :
    (run p H ops (Tree.new s)).2.storage.map k = match (writes ops []).reverse.find? fun ds => decide (sumHash H ds = k) with
      | some ds => some (recordOf H ds)
      | none => s.map k := by
  rw [(C83_machine p H s ops hn hf).2]
  exact machine_reliable p H ops [] s hr (by simpa using ht) k

/-- **C83**, failures. Whatever fails, every key holds what it held before or the correct record of
a tree over some of the pushed leaves, in their order, with that key as its hash. -/
theorem C83_failures (p : Profile) (H : HashFn) (s : SStore E) (ops : List Op) (hn : (pushed ops).length < 2 ^ 64)
    (hf : ∀ x ∈ pushed ops, x.1 < 2 ^ 64) (k : Bytes32) :
    (run p H ops (Tree.new s)).2.storage.map k = s.map k ∨
    ∃ ds, ds.Sublist (pushed ops) ∧ sumHash H ds = k ∧ (run p H ops (Tree.new s)).2.storage.map k = some (recordOf H ds) := by
  rw [(C83_machine p H s ops hn hf).2]
  simpa using machine_origin p H ops ⟨[], s⟩ k

/-! ### The hypotheses can be met -/

namespace SumMachine

/-- Seven leaves with a root in between and one at the end. -/
def sampleOps : List Op := [.push 1 [1], .push 2 [2], .push 3 [3], .root, .push 4 [4], .push 5 [], .push 2 [2], .push 7 [9, 9], .root]

/-- A storage whose sixth write fails, after the record was written, and whose ninth fails without. -/
def sampleStore : SStore String where
  map := fun _ => none
  sched := fun c => if c = 5 then some ⟨"late", true⟩ else if c = 8 then some ⟨"early", false⟩ else none
  clock := 0

example (p : Profile) (H : HashFn) (s : SStore E) :
    (run p H sampleOps (Tree.new s)).1 = (Machine.run p H sampleOps ⟨[], s⟩).1 ∧
    (run p H sampleOps (Tree.new s)).2.storage = (Machine.run p H sampleOps ⟨[], s⟩).2.storage :=
  C83_machine p H s sampleOps (by decide) (by decide)

/-- The sizes of the trees those calls write: `[1]`, `[1, 2]`, `[1]`, root `[3]`, `[1, 2, 4]`, `[1]`,
`[1, 2]`, `[1]`, root `[3, 7]`. -/
example : (writes sampleOps []).map List.length = [1, 1, 2, 1, 3, 1, 2, 4, 1, 1, 2, 1, 3, 7] := by decide +kernel

example : pushSizes 12 = [1, 2, 4] ∧ rootSizes 13 = [5, 13] ∧ rootSizes 8 = [] ∧ pushSizes 7 = [1] := by decide +kernel

/-- Whether a call failed. -/
def failedCall : Out E → Bool
  | .push (.ok _) | .root (.ok _) => false
  | _ => true

/-- On the failing storage the fourth leaf's push fails; its record is written, but the tree keeps three
leaves. The push of the next leaf then fails in a later write, and the tree starts anew. -/
example : (Machine.run ⟨true, true, .w64⟩ Tests.toyHash sampleOps ⟨[], sampleStore⟩).1.map failedCall =
      [false, false, false, false, true, true, false, false, false] ∧
    (Machine.run ⟨true, true, .w64⟩ Tests.toyHash sampleOps ⟨[], sampleStore⟩).2.leaves = [(2, [2]), (7, [9, 9])] := by
  decide +kernel

/-- With overflow checks, a fee that does not fit ends the push after its first write, and the tree is
empty; without, the fee is reduced. -/
example : (Machine.run ⟨true, true, .w64⟩ Tests.toyHash [.push (2 ^ 63) [1], .push (2 ^ 63) [2]]
      ⟨[], ⟨fun _ => none, fun _ => none, 0⟩⟩ (E := Unit)).2.leaves = [] ∧
    (Machine.run ⟨false, true, .w64⟩ Tests.toyHash [.push (2 ^ 63) [1], .push (2 ^ 63) [2]]
      ⟨[], ⟨fun _ => none, fun _ => none, 0⟩⟩ (E := Unit)).2.leaves = [(2 ^ 63, [1]), (2 ^ 63, [2])] := by decide +kernel

example : (pushed sampleOps).length < 2 ^ 64 ∧ (∀ x ∈ pushed sampleOps, x.1 < 2 ^ 64) ∧ total (pushed sampleOps) < 2 ^ 64 := by decide

end SumMachine
end FuelMerkle.Props
