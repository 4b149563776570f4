import Verif.Spec.LinkedApi
import Verif.Proofs.Linked
import Verif.Proofs.BinaryRun
import Verif.Props.Sum
import Verif.Tests.ToyHash

/-
Property C63: the trees with their linked lists of subtrees and with scratch storage used through
the interface without errors.
-/
namespace FuelMerkle

theorem BinaryLinked.step_eq {E : Type} (p : Profile) (H : HashFn) (op : Binary.Op) (t : BinaryLinked.LTree E) :
    Binary.step p H op t.abs = ((BinaryLinked.step p H op t).1, (BinaryLinked.step p H op t).2.abs) := by
  cases op with
  | push d =>
    obtain ⟨h1, h2⟩ := BinaryLinked.push_sim p H d t
    have h1 : (BinaryLinked.push p H d t).1 = (Binary.push p H d t.abs).1 := Agree.eq (by
      revert h1; cases (BinaryLinked.push p H d t).1 <;> cases (Binary.push p H d t.abs).1 <;> simp [Agree])
    simp only [Binary.step, BinaryLinked.step, h1, ← h2]
  | root => simp only [Binary.step, BinaryLinked.step, BinaryLinked.root_eq]
  | prove i =>
    obtain ⟨h1, h2⟩ := BinaryLinked.prove_sim p H i t
    have h1 := Agree.eq h1
    simp only [Binary.step, BinaryLinked.step, h1, ← h2]

theorem BinaryLinked.run_eq {E : Type} (p : Profile) (H : HashFn) : ∀ (ops : List Binary.Op) (t : BinaryLinked.LTree E),
    Binary.run p H ops t.abs = ((BinaryLinked.run p H ops t).1, (BinaryLinked.run p H ops t).2.abs)
  | [], _ => rfl
  | op :: ops, t => by simp only [Binary.run, BinaryLinked.run, step_eq, run_eq p H ops]

theorem SumLinked.step_eq {E : Type} (p : Profile) (H : HashFn) (op : Sum.Op) (t : SumLinked.LTree E) :
    Sum.step p H op t.abs = ((SumLinked.step p H op t).1, (SumLinked.step p H op t).2.abs) := by
  cases op with
  | push f d =>
    obtain ⟨h1, h2⟩ := SumLinked.push_sim p H f d t
    have h1 : (SumLinked.push p H f d t).1 = (Sum.push p H f d t.abs).1 := Agree.eq (by
      revert h1; cases (SumLinked.push p H f d t).1 <;> cases (Sum.push p H f d t.abs).1 <;> simp [Agree])
    simp only [Sum.step, SumLinked.step, h1, ← h2]
  | root =>
    obtain ⟨h1, h2⟩ := SumLinked.root_sim p H t
    have h1 := Agree.eq h1
    simp only [Sum.step, SumLinked.step, h1, ← h2]

theorem SumLinked.run_eq {E : Type} (p : Profile) (H : HashFn) : ∀ (ops : List Sum.Op) (t : SumLinked.LTree E),
    Sum.run p H ops t.abs = ((SumLinked.run p H ops t).1, (SumLinked.run p H ops t).2.abs)
  | [], _ => rfl
  | op :: ops, t => by simp only [Sum.run, SumLinked.run, step_eq, run_eq p H ops]

namespace Props
open Spec
variable {E : Type}

/-- Every sequence of calls on a new binary tree over working storage returns what the list of the
pushed leaves says: roots are RFC 6962 tree hashes and proofs are RFC 6962 audit paths. -/
theorem C63_binary_histories (p : Profile) (H : HashFn) (s : Binary.BStore E) (hs : s.Reliable) (ops : List Binary.Op)
    (hn : Binary.pushCount ops < p.leafLimit) (hi : Binary.indicesOk ops) :
    (BinaryLinked.run p H ops (.new s)).1 = (Binary.specRun H ops []).1 := by
  have hlim := p.leafLimit_le
  have h := BinaryLinked.run_eq p H ops (BinaryLinked.LTree.new s)
  have e : (BinaryLinked.LTree.new s).abs = Binary.Tree.new s := rfl
  rw [e] at h
  have := (Binary.run_refines p H ops (Binary.Inv.new H s) (by simpa using hn) hi hs).1
  rw [h] at this
  exact this

/-- A binary tree with linked list and the tree with the same nodes in a list are
indistinguishable, whatever the nodes, the calls and the failures of the storage: every call returns
the same result, error or panic, and leaves the same storage. -/
theorem C63_binary_same (p : Profile) (H : HashFn) (ops : List Binary.Op) (t : BinaryLinked.LTree E) (u : Binary.Tree E)
    (h : u.head = Subtree.nodes t.head ∧ u.leavesCount = t.leavesCount ∧ u.storage = t.storage) :
    (BinaryLinked.run p H ops t).1 = (Binary.run p H ops u).1 ∧
    (BinaryLinked.run p H ops t).2.storage = (Binary.run p H ops u).2.storage ∧
    Subtree.nodes (BinaryLinked.run p H ops t).2.head = (Binary.run p H ops u).2.head := by
  obtain ⟨us, uh, un⟩ := u
  obtain ⟨h1, h2, h3⟩ := h
  simp only at h1 h2 h3
  subst h1 h2 h3
  have := BinaryLinked.run_eq p H ops t
  rw [BinaryLinked.LTree.abs] at this
  rw [this]
  exact ⟨rfl, rfl, rfl⟩

/-- Loading gives the same error, or trees with the same nodes, and makes the same storage calls. -/
theorem C63_binary_load (p : Profile) (s : Binary.BStore E) (n : Nat) :
    (BinaryLinked.LTree.load p s n).2 = (Binary.Tree.load p s n).2 ∧
    (∀ e, (BinaryLinked.LTree.load p s n).1 = .error e ↔ (Binary.Tree.load p s n).1 = .error e) ∧
    (∀ t, (BinaryLinked.LTree.load p s n).1 = .ok t → ∃ u, (Binary.Tree.load p s n).1 = .ok u ∧
      u.head = Subtree.nodes t.head ∧ u.leavesCount = t.leavesCount ∧ u.storage = t.storage) := by
  rw [BinaryLinked.load_eq]
  refine ⟨rfl, fun e => ?_, fun t h => ⟨t.abs, by rw [h]; rfl, rfl, rfl, rfl⟩⟩
  cases (BinaryLinked.LTree.load p s n).1 <;> simp [Except.map]

/-- Every sequence of calls on a new sum tree over working storage returns what the list of the
pushed leaves says. -/
theorem C63_sum_histories (p : Profile) (H : HashFn) (s : Sum.SStore E) (hs : s.Reliable) (ops : List Sum.Op)
    (hn : (Sum.pushed ops).length < 2 ^ 64) (hf : ∀ x ∈ Sum.pushed ops, x.1 < 2 ^ 64)
    (ht : p.overflowChecks = true → total (Sum.pushed ops) < 2 ^ 64) :
    (SumLinked.run p H ops (.new s)).1 = (Sum.specRun H ops []).1 := by
  have h := SumLinked.run_eq p H ops (SumLinked.LTree.new s)
  have e : (SumLinked.LTree.new s).abs = Sum.Tree.new s := rfl
  rw [e] at h
  have := C48_histories p H s hs ops hn hf ht
  rw [h] at this
  exact this

/-- A sum tree with linked list and the tree with the same nodes in a list are indistinguishable. -/
theorem C63_sum_same (p : Profile) (H : HashFn) (ops : List Sum.Op) (t : SumLinked.LTree E) (u : Sum.Tree E)
    (h : u.head = Subtree.nodes t.head ∧ u.storage = t.storage) :
    (SumLinked.run p H ops t).1 = (Sum.run p H ops u).1 ∧
    (SumLinked.run p H ops t).2.storage = (Sum.run p H ops u).2.storage ∧
    Subtree.nodes (SumLinked.run p H ops t).2.head = (Sum.run p H ops u).2.head := by
  obtain ⟨us, uh⟩ := u
  obtain ⟨h1, h2⟩ := h
  simp only at h1 h2
  subst h1 h2
  have := SumLinked.run_eq p H ops t
  rw [SumLinked.LTree.abs] at this
  rw [this]
  exact ⟨rfl, rfl, rfl⟩

section
variable {K V : Type} [DecidableEq K]

theorem plain_from : ∀ (ops hist : List (MapOp K V)) (s : Store K V Empty), (∀ k, s.map k = latest k hist) →
    ∃ s', plainRun ops s = .ok (plainExpectAll hist ops, s')
  | [], _, s, _ => ⟨s, rfl⟩
  | op :: ops, hist, s, h => by
    have : ∃ s1, plainStep op s = .ok (plainExpect hist op, s1) ∧ ∀ k, s1.map k = latest k (op :: hist) := by
      cases op with
      | insert k v =>
        simp only [plainStep, Infallible.insert_eq, Res.ok_bind, plainExpect, h]
        refine ⟨_, rfl, fun k' => ?_⟩
        simp only [latest, Store.upd, h]
        by_cases e : k' = k
        · simp [e]
        · rw [if_neg e, if_neg (Ne.symm e)]
      | remove k =>
        simp only [plainStep, Infallible.remove_eq, Res.ok_bind, plainExpect, h]
        refine ⟨_, rfl, fun k' => ?_⟩
        simp only [latest, Store.upd, h]
        by_cases e : k' = k
        · simp [e]
        · rw [if_neg e, if_neg (Ne.symm e)]
      | get k =>
        simp only [plainStep, Infallible.get_eq, Res.ok_bind, plainExpect, h]
        exact ⟨_, rfl, fun k' => by simp only [latest, h]⟩
      | containsKey k =>
        simp only [plainStep, Infallible.containsKey_eq, Res.ok_bind, plainExpect, h]
        exact ⟨_, rfl, fun k' => by simp only [latest, h]⟩
    obtain ⟨s1, e1, h1⟩ := this
    obtain ⟨s2, e2⟩ := plain_from ops (op :: hist) s1 h1
    exact ⟨s2, by rw [plainRun, e1, Res.ok_bind]; simp only [e2, Res.ok_bind, plainExpectAll]; rfl⟩

/-- The functions of a chain of subtrees, as functions of the list of its nodes: `new` puts a node
in front, `node` and `next_node` are the first two, `next` is the rest; `take_next` cuts the chain
after the first node, and writing through `node_mut` and `next_mut` replaces the first node and the
rest. -/
theorem C63_subtree {T : Type} (x : T) (next : Option (Subtree T)) (s : Subtree T) :
    Subtree.nodes (some (Subtree.new x next)) = x :: Subtree.nodes next ∧
    (Subtree.nodes (some s))[0]? = some s.node ∧
    Subtree.nodes s.next = (Subtree.nodes (some s)).drop 1 ∧
    s.nextNode = (Subtree.nodes (some s))[1]? ∧
    Subtree.nodes s.takeNext.1 = (Subtree.nodes (some s)).drop 1 ∧
    Subtree.nodes (some s.takeNext.2) = (Subtree.nodes (some s)).take 1 ∧
    Subtree.nodes (some (s.setNode x)) = x :: (Subtree.nodes (some s)).drop 1 ∧
    Subtree.nodes (some (s.setNext next)) = (Subtree.nodes (some s)).take 1 ++ Subtree.nodes next := by
  have e : ∀ (n : T) (s : Option (Subtree T)), Subtree.nodes (some (.mk n s)) = n :: Subtree.nodes s := fun n s => Subtree.toList_mk n s
  obtain ⟨n, m⟩ := s
  refine ⟨e _ _, by rw [e]; rfl, by rw [e]; rfl, ?_, by rw [e]; rfl, by rw [e]; exact e _ _, by rw [e]; exact e _ _, by rw [e]; exact e _ _⟩
  cases m with
  | none => rw [e]; rfl
  | some m => cases m; rw [e, e]; rfl

/-- A storage whose error type has no values, used through the interface without errors, never
panics and answers as a map does. -/
theorem C63_plain_storage (ops : List (MapOp K V)) (s : Store K V Empty) (hs : ∀ k, s.map k = none) :
    ∃ s', plainRun ops s = .ok (plainExpectAll [] ops, s') := plain_from ops [] s (fun k => by rw [hs]; rfl)
end

/-! ### Concrete cases -/

/-- A history with joins, a proof out of scratch storage and an index out of range. -/
def linkedOps : List Binary.Op := [.push [1], .push [2], .root, .push [3], .prove 0, .prove 3, .push [4], .push [5], .root, .prove 4]

-- the hypotheses of the binary theorem hold, and the answers are not trivial
example (p : Profile) : Binary.pushCount linkedOps < p.leafLimit ∧ Binary.indicesOk linkedOps :=
  ⟨p.lt_leafLimit (by decide), by simp [linkedOps, Binary.indicesOk]⟩

example : (BinaryLinked.run ⟨true, true, .w64⟩ Tests.toyHash linkedOps (.new (Store.empty : Binary.BStore Unit))).1.length = 10 ∧
    (BinaryLinked.run ⟨true, true, .w64⟩ Tests.toyHash linkedOps (.new (Store.empty : Binary.BStore Unit))).2.leavesCount = 5 ∧
    (Subtree.nodes (BinaryLinked.run ⟨true, true, .w64⟩ Tests.toyHash linkedOps (.new (Store.empty : Binary.BStore Unit))).2.head).length = 2 := by
  decide +kernel

-- two leaves of the sum tree, read through the linked list
example : (SumLinked.run ⟨true, true, .w64⟩ Tests.toyHash [.push 3 [1], .root, .push 4 [2], .push 5 [6], .root] (.new (Store.empty : Sum.SStore Unit))).1.length = 5 ∧
    (Subtree.nodes (SumLinked.run ⟨true, true, .w64⟩ Tests.toyHash [.push 3 [1], .push 4 [2], .push 5 [6]] (.new (Store.empty : Sum.SStore Unit))).2.head).map (·.fee) = [5, 7] := by
  decide +kernel

-- a storage that fails during a push: both kinds of tree lose their list
example : ∃ s : Binary.BStore Unit, ∃ t, (BinaryLinked.run ⟨true, true, .w64⟩ Tests.toyHash [.push [1], .push [2]] (.new s)).2 = t ∧
    Subtree.nodes t.head = [] ∧ t.leavesCount = 1 := by
  refine ⟨{ (Store.empty : Binary.BStore Unit) with sched := fun c => if c = 2 then some ⟨(), false⟩ else none }, _, rfl, ?_⟩
  decide +kernel

example : plainExpectAll [] ([.insert 1 "a", .get 1, .insert 1 "b", .remove 1, .containsKey 1] : List (MapOp Nat String)) =
    [.value none, .value (some "a"), .value (some "a"), .value (some "b"), .present false] := by decide +kernel

end Props
end FuelMerkle
