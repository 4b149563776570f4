import Verif.Proofs.Exec
import Verif.Spec.SparseApi

/-
Trees that differ only in how often their storage has been used behave alike.
-/
namespace FuelMerkle
namespace Sparse
open Spec
variable {E : Type} {α β : Type} {H : HashFn}

/-- Same root node, same records, same fate of all future storage calls. -/
structure Alike (t t' : Tree E) : Prop where
  root : t'.rootNode = t.rootNode
  map : t'.storage.map = t.storage.map
  sched : ∀ n, t'.storage.sched (t'.storage.clock + n) = t.storage.sched (t.storage.clock + n)

/-- The computation cannot tell alike trees apart, and leaves them alike. -/
def Sim (m : TreeM E α) : Prop := ∀ t t', Alike t t' → (m t').1 = (m t).1 ∧ Alike (m t).2 (m t').2

theorem Sim.pure (a : α) : Sim (pure a : TreeM E α) := fun _ _ h => ⟨rfl, h⟩
theorem Sim.throw (e : Fail (Error E)) : Sim (Exec.throw e : TreeM E α) := fun _ _ h => ⟨rfl, h⟩
theorem Sim.lift (r : Res α) : Sim (Exec.liftRes r : TreeM E α) := by
  cases r with
  | ok a => exact fun _ _ h => ⟨rfl, h⟩
  | error e => exact fun _ _ h => ⟨rfl, h⟩

theorem Sim.bind {m : TreeM E α} {f : α → TreeM E β} (h : Sim m) (hf : ∀ a, Sim (f a)) : Sim (m >>= f) := by
  intro t t' ha
  obtain ⟨h1, h2⟩ := h t t' ha
  rw [Exec.bind_apply, Exec.bind_apply]
  rcases hm : m t with ⟨r, s⟩
  rcases hm' : m t' with ⟨r', s'⟩
  rw [hm, hm'] at h1 h2
  simp only at h1 h2
  subst h1
  cases r' with
  | ok a => exact hf a s s' h2
  | error e => exact ⟨rfl, h2⟩

theorem Sim.get {f : Tree E → TreeM E α} (h1 : ∀ t t', Alike t t' → f t' = f t) (h2 : ∀ t, Sim (f t)) : Sim (Exec.get >>= f) := by
  intro t t' ha
  rw [Exec.get_bind, Exec.get_bind, h1 t t' ha]
  exact h2 t t t' ha

theorem Sim.setRoot (n : Node) : Sim (Exec.modify fun t => { t with rootNode := n } : TreeM E Unit) :=
  fun _ _ h => ⟨rfl, ⟨rfl, h.map, h.sched⟩⟩

theorem sched_zero {t t' : Tree E} (h : Alike t t') : t'.storage.sched t'.storage.clock = t.storage.sched t.storage.clock := h.sched 0

theorem sched_tick {t t' : Tree E} (h : Alike t t') (n : Nat) :
    t'.storage.sched (t'.storage.clock + 1 + n) = t.storage.sched (t.storage.clock + 1 + n) := by
  have := h.sched (1 + n)
  rw [← Nat.add_assoc, ← Nat.add_assoc] at this
  exact this

theorem Sim.storeGet (k : Bytes32) : Sim (onStorage (Store.get k) : TreeM E _) := by
  intro t t' h
  have h0 := sched_zero h
  unfold onStorage
  cases hs : t.storage.sched t.storage.clock with
  | none => rw [hs] at h0; rw [Store.get_none _ hs, Store.get_none _ h0]; exact ⟨by simp only; rw [h.map], ⟨h.root, h.map, sched_tick h⟩⟩
  | some f => rw [hs] at h0; rw [Store.get_fault _ hs, Store.get_fault _ h0]; exact ⟨rfl, ⟨h.root, h.map, sched_tick h⟩⟩

theorem Sim.tryGet (k : Bytes32) : Sim (tryStorage (Store.get k) : TreeM E _) := by
  intro t t' h
  have h0 := sched_zero h
  unfold tryStorage
  cases hs : t.storage.sched t.storage.clock with
  | none => rw [hs] at h0; rw [Store.get_none _ hs, Store.get_none _ h0]; exact ⟨by simp only; rw [h.map], ⟨h.root, h.map, sched_tick h⟩⟩
  | some f => rw [hs] at h0; rw [Store.get_fault _ hs, Store.get_fault _ h0]; exact ⟨rfl, ⟨h.root, h.map, sched_tick h⟩⟩

theorem Sim.storeInsert (k : Bytes32) (q : Prim) : Sim (onStorage (Store.insert k q) : TreeM E _) := by
  intro t t' h
  have h0 := sched_zero h
  unfold onStorage
  cases hs : t.storage.sched t.storage.clock with
  | none => rw [hs] at h0; rw [Store.insert_none _ _ hs, Store.insert_none _ _ h0]; exact ⟨by simp only; rw [h.map], ⟨h.root, by simp only; rw [h.map], sched_tick h⟩⟩
  | some f => rw [hs] at h0; rw [Store.insert_fault _ _ hs, Store.insert_fault _ _ h0]; exact ⟨rfl, ⟨h.root, by simp only; rw [h.map], sched_tick h⟩⟩

theorem Sim.storeRemove (k : Bytes32) : Sim (onStorage (Store.remove k) : TreeM E _) := by
  intro t t' h
  have h0 := sched_zero h
  unfold onStorage
  cases hs : t.storage.sched t.storage.clock with
  | none => rw [hs] at h0; rw [Store.remove_none _ hs, Store.remove_none _ h0]; exact ⟨by simp only; rw [h.map], ⟨h.root, by simp only; rw [h.map], sched_tick h⟩⟩
  | some f => rw [hs] at h0; rw [Store.remove_fault _ hs, Store.remove_fault _ h0]; exact ⟨rfl, ⟨h.root, by simp only; rw [h.map], sched_tick h⟩⟩

theorem Sim.child (k : Bytes32) : Sim (childByKey k : TreeM E _) := by
  unfold childByKey
  split
  · exact .pure _
  · refine .bind (.tryGet k) fun r => ?_
    split
    · exact .pure _
    · exact .pure _
    · split <;> exact .pure _

theorem Sim.left (n : Node) : Sim (leftChild n : TreeM E _) := by
  unfold leftChild
  split
  · exact .pure _
  · exact .bind (.lift _) fun _ => .child _

theorem Sim.right (n : Node) : Sim (rightChild n : TreeM E _) := by
  unfold rightChild
  split
  · exact .pure _
  · exact .bind (.lift _) fun _ => .child _

theorem Sim.next (it : PathIter Node (CErr E)) : Sim (it.next storageNode : TreeM E _) := by
  unfold PathIter.next
  split
  · split
    · refine .bind (.bind (.lift _) fun _ => .pure _) fun k => ?_
      split
      · exact .bind (.left _) fun _ => .bind (.right _) fun _ => .pure _
      · exact .bind (.right _) fun _ => .bind (.left _) fun _ => .pure _
      · exact .pure _
    · exact .pure _
  · exact .pure _
  · exact .pure _

theorem Sim.collect (fuel : Nat) : ∀ (it : PathIter Node (CErr E)), Sim (collectPath fuel it : TreeM E _) := by
  induction fuel with
  | zero => intro it; exact .throw _
  | succ n ih =>
    intro it
    rw [collectPath]
    refine .bind (.next it) fun x => ?_
    split
    split
    · exact .pure _
    · exact .throw _
    · exact .throw _
    · exact .bind (ih _) fun _ => .pure _

theorem Sim.path (p : Profile) (leaf : Node) : Sim (pathSet p leaf : TreeM E _) := by
  unfold pathSet
  refine .get (fun t t' h => by rw [h.root]) fun t => ?_
  refine .bind ?_ fun it => .bind (.collect _ it) fun _ => .pure _
  unfold PathIter.new
  exact .bind (.lift _) fun _ => .pure _

theorem Sim.merge (p : Profile) (path : Bytes) (a b : Node) : Sim (mergeNode p H path a b : TreeM E _) :=
  .bind (.lift _) fun _ => .bind (.storeInsert _ _) fun _ => .pure _

theorem Sim.merges (p : Profile) (path : Bytes) : ∀ (xs : List Node) (a : Node), Sim (mergeNodes p H path a xs : TreeM E _) := by
  intro xs
  induction xs with
  | nil => intro a; exact .pure _
  | cons x xs ih => intro a; exact .bind (.merge p path a x) fun _ => ih _

theorem Sim.setRootNode (p : Profile) (n : Node) : Sim (setRootNode p n : TreeM E _) := .bind (.lift _) fun _ => .setRoot n

theorem Sim.updatePath (p : Profile) (r : Node) (ps ss : List Node) : Sim (updateWithPathSet p H r ps ss : TreeM E _) := by
  unfold updateWithPathSet
  refine .bind (.lift _) fun path => ?_
  split
  · exact .throw _
  · refine .bind (.lift _) fun rk => .bind (.lift _) fun ak => .bind ?_ fun c => .bind (.merges p _ _ _) fun c => .setRootNode p c
    split
    · refine .bind ?_ fun c => .bind (.lift _) fun d => .merges p _ _ _
      split
      · exact .pure _
      · exact .merge p _ _ _
    · exact .pure _

theorem Sim.removes : ∀ (xs : List Node), Sim (removeAll H xs : TreeM E _) := by
  intro xs
  induction xs with
  | nil => exact .pure _
  | cons x xs ih => exact .bind (.storeRemove _) fun _ => ih

theorem Sim.deletePath (p : Profile) (r : Node) (ps ss : List Node) : Sim (deleteWithPathSet p H r ps ss : TreeM E _) := by
  unfold deleteWithPathSet
  refine .bind (.removes ps) fun _ => .bind (.lift _) fun path => .bind ?_ fun x => ?_
  · split
    · exact .pure _
    · split
      · split
        · exact .bind (.merge p _ _ _) fun _ => .pure _
        · exact .pure _
      · exact .pure _
  · split
    exact .bind (.merges p _ _ _) fun c => .setRootNode p c

theorem Sim.delete (p : Profile) (k : Bytes32) : Sim (delete p H k : TreeM E _) := by
  unfold Sparse.delete
  refine .get (fun t t' h => by unfold Tree.root; rw [h.root]) fun t => ?_
  split
  · exact .pure _
  · refine .bind (.storeGet k) fun r => ?_
    split
    · exact .pure _
    · split
      · exact .throw _
      · exact .bind (.path p _) fun x => .deletePath p _ _ _

theorem Sim.update (p : Profile) (k : Bytes32) (d : Bytes) : Sim (update p H k d : TreeM E _) := by
  unfold Sparse.update
  split
  · exact .delete p k
  · refine .bind (.storeInsert _ _) fun _ => .bind (.lift _) fun _ => .bind (.storeInsert _ _) fun _ => ?_
    refine .get (fun t t' h => by rw [h.root]) fun t => ?_
    split
    · exact .setRootNode p _
    · exact .bind (.path p _) fun x => .updatePath p _ _ _

theorem Sim.op (p : Profile) (op : Op) : Sim (op.run p H : TreeM E _) := by
  cases op with
  | update k d => exact .update p k d
  | delete k => exact .delete p k

/-- Alike trees stay alike, and give the same results, under every continuation. -/
theorem run_alike (p : Profile) : ∀ (ops : List Op) (t t' : Tree E), Alike t t' →
    (run p H ops t').1 = (run p H ops t).1 ∧ Alike (run p H ops t).2 (run p H ops t').2 := by
  intro ops
  induction ops with
  | nil => intro t t' h; exact ⟨rfl, h⟩
  | cons op ops ih =>
    intro t t' h
    obtain ⟨h1, h2⟩ := Sim.op p op t t' h
    obtain ⟨g1, g2⟩ := ih _ _ h2
    rw [run, run]
    refine ⟨?_, g2⟩
    simp only []
    rw [h1, g1, h.map]

end Sparse
end FuelMerkle
