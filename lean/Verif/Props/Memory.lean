import Verif.Proofs.Memory
import Verif.Props.Faults
import Verif.Props.Linked
import Verif.Props.BinaryTops
import Verif.Proofs.SparseAny
import Verif.Tests.ToyHash

/-
Property C107: how many nodes the trees keep in memory. `head` is the chain of nodes that a binary or sum
tree owns; a sparse tree owns one node. In `Model/Linked.lean` the chain is linked as in the code, and
dropping it recurses once per node.
-/
namespace FuelMerkle
namespace Props
open Spec
variable {E : Type}

/-- **C107**, binary trees that share a storage. Whatever is pushed, loaded and proved, and whatever fails, a
tree that counts `n` leaves keeps `k` nodes with `2^k ≤ n + 1`. -/
theorem C107_binary (p : Profile) (H : HashFn) (s : Binary.BStore E) (hs : Filed s.map) (as : List Binary.Action)
    (hn : Binary.pushesIn as < p.leafLimit) (ha : Binary.actsOk p as) (i : Nat) :
    2 ^ ((Binary.Bench.acts p H as (Binary.Bench.start s)).2.head i).length ≤ (Binary.Bench.acts p H as (Binary.Bench.start s)).2.count i + 1 ∧
    ((Binary.Bench.acts p H as (Binary.Bench.start s)).2.head i).length ≤ 63 := by
  obtain ⟨-, h2, h3, -⟩ := Binary.acts_exact p H [] as (Binary.Bench.start s) (Binary.Tops.start s) ⟨rfl, rfl, fun _ => Binary.holdsTops_new, hs⟩
    (fun j => by simp only [Binary.Bench.start, Binary.Tree.new, List.append_nil]; omega) (by rw [List.append_nil]; exact ha)
  have h4 := (h2.holds i).length
  refine ⟨h4, ?_⟩
  have h5 := h3 i
  have h6 := p.leafLimit_le
  have h7 : 2 ^ ((Binary.Bench.acts p H as (Binary.Bench.start s)).2.head i).length ≤ 2 ^ 63 := by omega
  exact (Nat.pow_le_pow_iff_right (by omega)).1 h7

/-- **C107**, exactly. After `n` successful pushes a new binary tree keeps as many nodes as `n` has ones in binary. -/
theorem C107_binary_exact (p : Profile) (H : HashFn) (s : Binary.BStore E) (ds : List Bytes) (hn : ds.length < 2 ^ 63) (t : Binary.Tree E)
    (ht : Binary.pushAll p H ds (Binary.Tree.new s) = (.ok (), t)) : t.head.length = popcount ds.length := by
  obtain ⟨h1, _⟩ := Binary.pushAll_ok_inv p H ds (Binary.Inv.new H s) (by simp; omega) ht
  rw [List.nil_append] at h1
  exact h1.peaks.length

/-- **C107**, loading. So does a tree loaded at `n` leaves from a storage with any contents. -/
theorem C107_binary_load (p : Profile) (s s' : Binary.BStore E) (n : Nat) (hn : n < p.leafLimit) (t : Binary.Tree E)
    (h : Binary.Tree.load p s n = (.ok t, s')) : t.head.length = popcount n :=
  (Binary.load_head p s s' n hn t h).1

/-- **C107**, any storage. Whatever the records say, whatever fails, whatever calls are made on a loaded
tree, and however many, it keeps at most 65 nodes more than it had when it was loaded. -/
theorem C107_binary_any (p : Profile) (H : HashFn) (s s' : Binary.BStore E) (hs : ∀ k q, s.map k = some q → q.1 < 2 ^ 64) (n : Nat)
    (hn : n < p.leafLimit) (t : Binary.Tree E) (h : Binary.Tree.load p s n = (.ok t, s')) (ops : List Binary.Op) :
    (Binary.run p H ops t).2.head.length ≤ popcount n + 65 := by
  obtain ⟨h1, h2⟩ := Binary.load_head p s s' n hn t h
  rw [← h1]
  exact (Binary.run_piled p H t.head ops t (.self (h2 hs))).length

/-- **C107**, any number of calls. A new tree never keeps more than 65 nodes, also when more leaves are pushed
than it can count. -/
theorem C107_binary_new (p : Profile) (H : HashFn) (s : Binary.BStore E) (ops : List Binary.Op) :
    (Binary.run p H ops (Binary.Tree.new s)).2.head.length ≤ 65 := by
  have := (Binary.run_piled p H [] ops (Binary.Tree.new s) (.nil _)).length
  simpa using this

/-- **C107**, scratch storage. The storage that `root` and `prove` make for themselves gets at most one
record less than the tree keeps nodes. -/
theorem C107_scratch (p : Profile) (H : HashFn) (head : List Binary.Node) (r : Option Binary.Node) (scratch : Binary.Scratch)
    (h : Binary.rootNode p H head (fun _ => none) = .ok (r, scratch)) :
    ∃ ks : List Nat, ks.length = head.length - 1 ∧ ∀ k, scratch k ≠ none → k ∈ ks := by
  obtain ⟨ks, h1, h2⟩ := Binary.rootNode_few p H head _ h
  exact ⟨ks, h1, fun k hk => by_contra fun hn => hk (h2 k hn)⟩

/-- **C107**, sum trees. Whatever fails, after a history with `n` pushes the tree keeps `k` nodes with
`2^k ≤ n + 1`. -/
theorem C107_sum (p : Profile) (H : HashFn) (s : Sum.SStore E) (ops : List Sum.Op) (hn : (Sum.pushed ops).length < 2 ^ 64)
    (hf : ∀ x ∈ Sum.pushed ops, x.1 < 2 ^ 64) :
    2 ^ (Sum.run p H ops (Sum.Tree.new s)).2.head.length ≤ (Sum.pushed ops).length + 1 := by
  obtain ⟨-, h⟩ := Sum.run_exact p H ops (Sum.Tree.new s) [] ⟨[], rfl, rfl, trivial, by simp⟩ (by simpa using hn) hf
  have h1 := h.length
  have h2 := Sum.machine_leaves_le p H ops (⟨[], (Sum.Tree.new s).storage⟩ : Sum.Machine E)
  simp only [List.length_nil, Nat.zero_add] at h2
  exact Nat.le_trans h1 (by omega)

/-- **C107**, sum trees, exactly. After `n` successful pushes it keeps as many nodes as `n` has ones in binary. -/
theorem C107_sum_exact (p : Profile) (H : HashFn) (s : Sum.SStore E) (ds : List Item) (hn : ds.length < 2 ^ 64)
    (hf : ∀ y ∈ ds, y.1 < 2 ^ 64) (t : Sum.Tree E) (ht : Sum.pushAll p H ds (Sum.Tree.new s) = (.ok (), t)) :
    t.head.length = popcount ds.length :=
  sum_heads p H s ds hn hf t ht

/-- **C107**, chains. The linked chains are as short: this also bounds the recursion when a tree is dropped. -/
theorem C107_chains (p : Profile) (H : HashFn) :
    (∀ (s : Binary.BStore E) (ops : List Binary.Op),
      (Subtree.nodes (BinaryLinked.run p H ops (.new s)).2.head).length ≤ 65) ∧
    (∀ (s : Sum.SStore E) (ops : List Sum.Op), (Sum.pushed ops).length < 2 ^ 64 → (∀ x ∈ Sum.pushed ops, x.1 < 2 ^ 64) →
      (Subtree.nodes (SumLinked.run p H ops (.new s)).2.head).length ≤ 64) := by
  refine ⟨fun s ops => ?_, fun s ops hn hf => ?_⟩
  · rw [(C63_binary_same p H ops (.new s) (Binary.Tree.new s) ⟨rfl, rfl, rfl⟩).2.2]
    exact C107_binary_new p H s ops
  · rw [(C63_sum_same p H ops (.new s) (Sum.Tree.new s) ⟨rfl, rfl⟩).2.2]
    have h := C107_sum p H s ops hn hf
    have : 2 ^ (Sum.run p H ops (Sum.Tree.new s)).2.head.length ≤ 2 ^ 64 := by omega
    exact (Nat.pow_le_pow_iff_right (by omega)).1 this

/-- **C107**, sparse trees. On storage with any contents and failures, the nodes an update or a deletion collects are
at most 257 on the path and 256 beside it. -/
theorem C107_sparse (p : Profile) (n : Sparse.Node) (t : Sparse.Tree E) (path sides : List Sparse.Node)
    (h : (Sparse.pathSet p n t).1 = .ok (path, sides)) : path.length ≤ 257 ∧ sides.length ≤ 256 :=
  (Sparse.Bounded.path p n).post t _ h

/-! ### The hypotheses can be met -/

namespace Memory

/-- Seven leaves: three nodes are kept. Eight: one. -/
example : popcount 7 = 3 ∧ popcount 8 = 1 := by decide +kernel

/-- The bound of `C107_binary` is attained by the tree with seven leaves. -/
example : ((Binary.run ⟨true, true, .w64⟩ Tests.toyHash (List.replicate 7 (.push [1])) (Binary.Tree.new (BinaryTops.emptyStore fun _ => none))).2.head.length,
    (Binary.run ⟨true, true, .w64⟩ Tests.toyHash (List.replicate 7 (.push [1])) (Binary.Tree.new (BinaryTops.emptyStore fun _ => none))).2.leavesCount) = (3, 7) := by
  decide +kernel

/-- A storage whose only record names another position than the one it is stored under. -/
def odd : Binary.BStore String := { map := fun k => if k = 0 then some (7, zero32) else none, sched := fun _ => none, clock := 0 }

/-- `C107_binary` is about records that name their keys: the tree loaded from this record, and pushed to once, keeps two nodes
and counts two leaves. -/
example : (match Binary.Tree.load ⟨true, true, .w64⟩ odd 1 with
    | (.ok t, _) => some ((Binary.run ⟨true, true, .w64⟩ Tests.toyHash [.push [1]] t).2.head.length,
        (Binary.run ⟨true, true, .w64⟩ Tests.toyHash [.push [1]] t).2.leavesCount)
    | _ => none) = some (2, 2) := by decide +kernel

example : (∀ k q, odd.map k = some q → q.1 < 2 ^ 64) ∧ ∃ t s', Binary.Tree.load ⟨true, true, .w64⟩ odd 1 = (.ok t, s') := by
  refine ⟨fun k q h => ?_, ?_⟩
  · unfold odd at h
    simp only at h
    split at h
    · cases h; decide
    · cases h
  · rcases h : Binary.Tree.load ⟨true, true, .w64⟩ odd 1 with ⟨e | t, s'⟩
    · have : (match Binary.Tree.load ⟨true, true, .w64⟩ odd 1 with | (.ok _, _) => true | _ => false) = true := by decide +kernel
      rw [h] at this; cases this
    · exact ⟨t, s', rfl⟩

/-- Three sum leaves: two nodes. -/
example : (Sum.run ⟨true, true, .w64⟩ Tests.toyHash [.push 1 [1], .push 2 [2], .push 3 [3]]
    (Sum.Tree.new ({ map := fun _ => none, sched := fun _ => none, clock := 0 } : Sum.SStore String))).2.head.length = 2 := by decide +kernel

/-- The root over three nodes uses two records of scratch storage. -/
example : (match Binary.rootNode ⟨true, true, .w64⟩ Tests.toyHash [⟨⟨12⟩, zero32⟩, ⟨⟨9⟩, zero32⟩, ⟨⟨3⟩, zero32⟩] (fun _ => none) with
    | .ok (_, scratch) => ((List.range 64).filter fun k => (scratch k).isSome).length
    | .error _ => 0) = 2 := by decide +kernel

/-- Two keys that differ in the last bit only: the paths have the full length. -/
example : (match (Sparse.update ⟨true, true, .w64⟩ Tests.toyHash zero32 [1] >>= fun _ =>
      Sparse.update ⟨true, true, .w64⟩ Tests.toyHash ⟨List.replicate 31 0 ++ [1], rfl⟩ [2] >>= fun _ =>
      Sparse.pathSet ⟨true, true, .w64⟩ (Sparse.Node.createLeaf Tests.toyHash zero32 [1]))
      (Sparse.Tree.new ({ map := fun _ => none, sched := fun _ => none, clock := 0 } : Sparse.SpStore String)) with
    | (.ok (path, sides), _) => (path.length, sides.length)
    | _ => (0, 0)) = (257, 256) := by decide +kernel

end Memory
end Props
end FuelMerkle
