import Verif.Proofs.SparseErrors
import Verif.Props.SparseStore
import Verif.Tests.ToyHash

/-
Property C58 of the sparse Merkle tree: the errors of calls come from the storage.
-/
namespace FuelMerkle
namespace Props
open Sparse Spec
variable {E : Type}

/-! ### C58: errors come from the storage -/

theorem twin_recovered (t : Tree E) : Twin t t.recovered := ⟨rfl, rfl, recovered_reliable t⟩

/-- **C58** (no silent failures). A call that succeeds has the same effect as if no storage call
had failed, on every tree, with every storage content and all failures. -/
theorem C58_success_is_complete (p : Profile) (H : HashFn) (op : Op) (t t' : Tree E) (h : op.run p H t = (.ok (), t')) :
    (op.run p H t.recovered).1 = .ok () ∧ (op.run p H t.recovered).2.root H = t'.root H ∧
      (op.run p H t.recovered).2.storage.map = t'.storage.map := by
  rcases (Follows.op p op).out t _ (twin_recovered t) with hb | ⟨h1, h2⟩
  · rw [h] at hb
    rcases hb with ⟨q, hq⟩ | ⟨e, he, _⟩
    · cases hq
    · cases he
  · rw [h] at h1 h2
    exact ⟨h1.symm, by unfold Tree.root; rw [h2.root], h2.map⟩

/-- **C58** (what errors mean). On every tree, with every storage content and all failures: the
error of a call is `StorageError`, or `ChildError` around it, with the error of a storage call made
by this very call; or the call gives this error also if no storage call fails. -/
theorem C58_error_reported_or_inherent (p : Profile) (H : HashFn) (op : Op) (t t' : Tree E) (e : Error E)
    (h : op.run p H t = (.error (.err e), t')) :
    Reported t.storage.sched t.storage.clock t'.storage.clock e ∨ (op.run p H t.recovered).1 = .error (.err e) := by
  rcases (Follows.op p op).out t _ (twin_recovered t) with hb | ⟨h1, _⟩
  · rw [h] at hb
    rcases hb with ⟨q, hq⟩ | ⟨e', he, hr⟩
    · cases hq
    · cases he; exact .inl hr
  · rw [h] at h1
    exact .inr h1.symm

theorem run_append (p : Profile) (H : HashFn) (b : List Op) : ∀ (a : List Op) (t : Tree E),
    run p H (a ++ b) t = ((run p H a t).1 ++ (run p H b (run p H a t).2).1, (run p H b (run p H a t).2).2) := by
  intro a
  induction a with
  | nil => intro t; rfl
  | cons op ops ih =>
    intro t
    have h := ih (op.run p H t).2
    rw [List.cons_append, run, run]
    simp only []
    rw [h]
    rfl

theorem run_sched (p : Profile) (H : HashFn) : ∀ (ops : List Op) (t : Tree E), (run p H ops t).2.storage.sched = t.storage.sched := by
  intro ops
  induction ops with
  | nil => intro t; rfl
  | cons op ops ih =>
    intro t
    rw [run]
    exact (ih _).trans ((Follows.op p op).sched t)

/-- **C58** (all errors come from storage). Any history on a new tree whose storage may fail at any
calls, in which no removal has failed so far. If the next call, whatever it is, fails, then with
`StorageError`, or `ChildError` around it, carrying the error of a storage call it made: never with
a deserialization error, a missing child or a load error. -/
theorem C58_errors_from_storage (p : Profile) (H : HashFn) (ops : List Op) (op : Op) (s : SpStore E) (hs : ∀ k, s.map k = none)
    (hi : Ideal H (eventMsgs H [] (run p H (ops ++ [op]) (Tree.new s)).1) ((ops ++ [op]).map Op.key)) (hnp : NoPhantom H (ops ++ [op]))
    (hdel : ∀ e ∈ (run p H ops (Tree.new s)).1, e.op.data = none → e.out = .ok ())
    (t t' : Tree E) (ht : (run p H ops (Tree.new s)).2 = t) (e : Fail (Error E)) (h : op.run p H t = (.error e, t')) :
    ∃ e', e = .err e' ∧ Reported s.sched t.storage.clock t'.storage.clock e' := by
  have env := hi.env
  rw [run_append, ht] at hi env
  have hm : ∀ m ∈ eventMsgs H [] (run p H ops (Tree.new s)).1, m ∈ eventMsgs H [] ((run p H ops (Tree.new s)).1 ++ (run p H [op] t).1) :=
    fun m hm => eventMsgs_append _ _ _ m (.inl hm)
  obtain ⟨⟨t1, r1, st1⟩, _⟩ := run_kept p env ops (Tree.new s) .empty [] (Rep.new s hs) trivial
    (fun o ho => List.mem_map.2 ⟨o, by simp [ho], rfl⟩) (fun o ho => hnp o (by simp [ho])) (Solid.nil H) hm (.inr hdel)
  have hsol : Solid H (contents (run p H ops (Tree.new s)).1) := run_solid p (fun o ho => hnp o (by simp [ho])) _ (Solid.nil H)
  have hsched : t.storage.sched = s.sched := by rw [← ht]; exact run_sched p H ops _
  rw [ht] at r1 st1
  have fits : ∀ o : Except (Fail (Error E)) Unit, Fits H (fun m => m ∈ eventMsgs H [] ((run p H ops (Tree.new s)).1 ++ (run p H [op] t).1))
      ((⟨op, (t.storage.map op.key).isSome, o⟩ : Event E).attempt (contents (run p H ops (Tree.new s)).1)) := by
    intro o
    refine ⟨fun m hm => eventMsgs_append _ _ _ m (.inr ?_), Event.attempt_solid _ hsol (hnp op (by simp))⟩
    rw [run]
    simp only [eventMsgs, List.mem_append]
    exact .inl (.inr hm)
  have hu : op.key ∈ (ops ++ [op]).map Op.key := List.mem_map.2 ⟨op, by simp, rfl⟩
  obtain ⟨t2, s2⟩ := op_step p env op hu r1 (fits _)
  have np := s2.nopanic
  rw [h] at np
  cases e with
  | panic q => exact absurd rfl (np q)
  | err e =>
    refine ⟨e, rfl, ?_⟩
    rw [← hsched]
    rcases C58_error_reported_or_inherent p H op t t' e h with hr | hr
    · exact hr
    · have r1' : Rep H _ _ t.recovered t1 (contents (run p H ops (Tree.new s)).1) := r1.congr rfl rfl
      obtain ⟨t3, s3⟩ := op_step p env op hu r1' (fits _)
      have := s3.live (recovered_reliable t) st1
      simp only at this
      rw [hr] at this
      cases this

/-- Two updates, of which the second fails, and a removal that fails while reading the tree. -/
example : ((run ⟨true, true, .w64⟩ Tests.toyHash [.update keyA [1], .update keyB [2], .update keyB [2]] (Tree.new (failsOnce 4 true))).1.map
      fun e => (e.out matches .ok _)) = [true, false, true] ∧
    (let X := run ⟨true, true, .w64⟩ Tests.toyHash [.update keyA [1], .update keyB [2]] (Tree.new (failsOnce 6 true))
     let Y := (Op.delete keyA).run ⟨true, true, .w64⟩ Tests.toyHash X.2
     (X.1.map fun e => (e.out matches .ok _)) = [true, true] ∧ (Y.1 matches .error (.err (.childError (.error (.storageError ()))))) = true) := by
  decide +kernel

example : Ideal Tests.toyHash (eventMsgs Tests.toyHash []
      (run ⟨true, true, .w64⟩ Tests.toyHash ([.update keyA [1], .update keyB [2]] ++ [.delete keyA]) (Tree.new (failsOnce 6 true))).1)
      (([.update keyA [1], .update keyB [2]] ++ [.delete keyA] : List Op).map Op.key) ∧
    NoPhantom Tests.toyHash [.update keyA [1], .update keyB [2], .delete keyA] :=
  ⟨⟨by decide +kernel, by decide +kernel, by decide +kernel⟩, fun op ho _ _ hk =>
    absurd hk ((by decide +kernel : ∀ op ∈ ([.update keyA [1], .update keyB [2], .delete keyA] : List Op), op.key ≠ zero32) op ho)⟩

end Props
end FuelMerkle
