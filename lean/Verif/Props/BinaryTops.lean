import Verif.Proofs.BinaryTops
import Verif.Proofs.Corrupt
import Verif.Tests.ToyHash

/-
Property C92: everything that can be done with binary trees on one storage, whatever it holds.
-/
namespace FuelMerkle
namespace Props
open FuelMerkle.Binary FuelMerkle.Spec
variable {E : Type}

set_option maxRecDepth 100000

/-- **C92**, machine. Any number of trees on one storage, which may hold anything as long as every record
names its key, and may fail in any way; trees are made new, loaded at any counts and called in any order.
All replies, the storage (contents and number of calls made) and all leaf counts are exactly those of the
machine. -/
theorem C92_exact (p : Profile) (H : HashFn) (s : BStore E) (hs : Filed s.map) (as : List Action) (hn : pushesIn as < p.leafLimit)
    (ha : actsOk p as) :
    (Bench.acts p H as (Bench.start s)).1 = (Tops.acts H as (Tops.start s)).1 ∧
    (Bench.acts p H as (Bench.start s)).2.storage = (Tops.acts H as (Tops.start s)).2.storage ∧
    (Bench.acts p H as (Bench.start s)).2.count = (Tops.acts H as (Tops.start s)).2.count := by
  obtain ⟨h1, h2, _⟩ := acts_exact p H [] as (Bench.start s) (Tops.start s) ⟨rfl, rfl, fun _ => holdsTops_new, hs⟩
    (fun j => by simp only [Bench.start, Tree.new, List.append_nil]; omega) (by rw [List.append_nil]; exact ha)
  exact ⟨h1, h2.storage, h2.count⟩

theorem joined_last (H : HashFn) : ∀ (l : List (Nat × Bytes32)) (x : Nat × Bytes32),
    ((joined H x l).getLast?.getD x).2 = bag H ((l.map Prod.snd).reverse ++ [x.2]) := by
  intro l
  induction l with
  | nil => intro x; rfl
  | cons y l ih =>
    intro x
    rw [joined, List.getLast?_cons, Option.getD_some, ih, List.map_cons, List.reverse_cons, List.append_assoc]
    exact (bag_append H (l.map Prod.snd).reverse y.2 x.2).symm

/-- **C92**, roots. The machine's root is the hash of the subtrees' hashes, from the left, as in C77. -/
theorem C92_root (H : HashFn) (l : List (Nat × Bytes32)) : topHash H l = if l = [] then emptySum else bag H (l.map Prod.snd).reverse := by
  cases l with
  | nil => rfl
  | cons x l =>
    rw [if_neg (by simp), topHash, joined_last, List.map_cons, List.reverse_cons]

/-- **C92**, panics. In such a use the only call that can panic is `prove`, and only for a tree whose last
push (since it was made new or loaded) failed. -/
theorem C92_panics (p : Profile) (H : HashFn) (s : BStore E) (hs : Filed s.map) (as : List Action) (a : Action)
    (hn : pushesIn (as ++ [a]) < p.leafLimit) (ha : actsOk p (as ++ [a]))
    (h : (Bench.act p H a (Bench.acts p H as (Bench.start s)).2).1.Panics) :
    ∃ i k, a = .call i (.prove k) ∧ pushFailed i false (as.zip (Bench.acts p H as (Bench.start s)).1) = true := by
  obtain ⟨h1, h2, hn', ha'⟩ := acts_exact p H [a] as (Bench.start s) (Tops.start s) ⟨rfl, rfl, fun _ => holdsTops_new, hs⟩
    (fun j => by simp only [Bench.start, Tree.new]; omega) ha
  obtain ⟨h3, _⟩ := act_exact p H a [] _ _ h2 hn' ha'
  rw [h3] at h
  obtain ⟨i, k, rfl, hk, ht⟩ := act_panics H a _ h
  refine ⟨i, k, rfl, ?_⟩
  rw [h1]
  rcases acts_lost p H _ as (Tops.start s) (fun _ => false) ha (fun _ _ => .inl rfl) i ht with h | h
  · omega
  · exact h

/-- **C92**, storage that works. Then every push and root succeeds, `load` succeeds or reports a missing
record, and `prove` succeeds or reports an index out of range or a missing record. -/
theorem C92_reliable (p : Profile) (H : HashFn) (s : BStore E) (hs : Filed s.map) (hr : s.Reliable) (as : List Action)
    (hn : pushesIn as < p.leafLimit) (ha : actsOk p as) : ∀ r ∈ (Bench.acts p H as (Bench.start s)).1, r.Fair := by
  rw [(C92_exact p H s hs as hn ha).1]
  exact acts_fair p H as (Tops.start s) ha hr (fun _ _ => rfl)

/-! ### The hypotheses can be met -/

namespace BinaryTops

/-- Two trees: the first is filled; the second is loaded at two of its leaves, goes on with another leaf, and
loads again. The second `load` mixes leaves of both. -/
def sample : List Action :=
  [.call 0 (.push [1]), .call 0 (.push [2]), .call 0 (.push [3]), .load 1 2, .call 1 (.push [4]), .call 1 .root, .call 0 (.push [5]),
   .call 0 (.prove 2), .load 1 4, .call 1 .root, .call 1 (.prove 3), .new 0, .call 0 .root, .load 0 5]

example (p : Profile) : pushesIn sample < p.leafLimit ∧ actsOk p sample :=
  ⟨p.lt_leafLimit (by decide), p.lt_leafLimit (by decide), by decide, p.lt_leafLimit (by decide), by decide,
    p.lt_leafLimit (by decide), trivial⟩

example : Filed (fun _ => none : Nat → Option (Nat × Bytes32)) := fun _ _ h => by cases h

/-- A storage without records whose calls fail as given. -/
def emptyStore (f : Nat → Option (Fault String)) : BStore String := { map := fun _ => none, sched := f, clock := 0 }

/-- How an action ended: `0` well, `1` with an error, `2` with a panic. -/
def ending : Reply E → Nat
  | .new | .load (.ok _) | .call (.push (.ok _)) | .call (.root (.ok _)) | .call (.prove (.ok _)) => 0
  | .load (.error (.err _)) | .call (.push (.error (.err _))) | .call (.prove (.error (.err _))) => 1
  | _ => 2

/-- On storage that works only the last `load` fails. -/
example : (Bench.acts ⟨true, true, .w64⟩ Tests.toyHash sample (Bench.start (emptyStore fun _ => none))).1.map ending =
    [0, 0, 0, 0, 0, 0, 0, 0, 0, 0, 0, 0, 0, 1] := by decide +kernel

/-- When the third write fails, that is the second one of the second push, `prove` panics until a push succeeds or the tree is loaded. -/
example : (Bench.acts ⟨true, true, .w64⟩ Tests.toyHash
      [.call 0 (.push [1]), .call 0 (.push [2]), .call 0 .root, .call 0 (.prove 0), .call 1 (.prove 0), .load 0 1, .call 0 (.prove 0)]
      (Bench.start (emptyStore fun n => if n = 2 then some ⟨"full", false⟩ else none))).1.map ending =
    [0, 1, 0, 2, 1, 0, 0] := by decide +kernel

end BinaryTops
end Props
end FuelMerkle
