import Verif.Proofs.SparseCanon
import Verif.Proofs.SparseSim

/-
Loading, failing storage and recovery of the sparse tree.
-/
namespace FuelMerkle
namespace Sparse
open Spec T
variable {E : Type} {α β : Type} {H : HashFn} {M : Bytes → Prop} {U : Bytes32 → Prop}

/-! ### A failing call does not change the root node -/

/-- The computation does not change the root node. -/
def KeepsRoot (m : TreeM E α) : Prop := ∀ t, (m t).2.rootNode = t.rootNode

/-- The computation does not change the root node if it fails. -/
def FailKeeps (m : TreeM E α) : Prop := ∀ t e t', m t = (.error e, t') → t'.rootNode = t.rootNode

theorem KeepsRoot.pure (a : α) : KeepsRoot (pure a : TreeM E α) := fun _ => rfl
theorem KeepsRoot.throw (e : Fail (Error E)) : KeepsRoot (Exec.throw e : TreeM E α) := fun _ => rfl
theorem KeepsRoot.lift (r : Res α) : KeepsRoot (Exec.liftRes r : TreeM E α) := by
  cases r <;> exact fun _ => rfl

theorem KeepsRoot.bind {m : TreeM E α} {f : α → TreeM E β} (h : KeepsRoot m) (hf : ∀ a, KeepsRoot (f a)) : KeepsRoot (m >>= f) := by
  intro t
  have h1 := h t
  rw [Exec.bind_apply]
  rcases hm : m t with ⟨r, s⟩
  rw [hm] at h1
  cases r with
  | ok a => exact (hf a s).trans h1
  | error e => exact h1

theorem KeepsRoot.get {f : Tree E → TreeM E α} (h : ∀ t, KeepsRoot (f t)) : KeepsRoot (Exec.get >>= f) := by
  intro t
  rw [Exec.get_bind]
  exact h t t

theorem KeepsRoot.storage (f : SpStore E → Except E α × SpStore E) : KeepsRoot (onStorage f : TreeM E α) := by
  intro t
  unfold onStorage
  split <;> rfl

theorem KeepsRoot.try (f : SpStore E → Except E α × SpStore E) : KeepsRoot (tryStorage f : TreeM E _) := fun _ => rfl

theorem KeepsRoot.child (k : Bytes32) : KeepsRoot (childByKey k : TreeM E _) := by
  unfold childByKey
  split
  · exact .pure _
  · refine .bind (.try _) fun r => ?_
    split
    · exact .pure _
    · exact .pure _
    · split <;> exact .pure _

theorem KeepsRoot.left (n : Node) : KeepsRoot (leftChild n : TreeM E _) := by
  unfold leftChild
  split
  · exact .pure _
  · exact .bind (.lift _) fun _ => .child _

theorem KeepsRoot.right (n : Node) : KeepsRoot (rightChild n : TreeM E _) := by
  unfold rightChild
  split
  · exact .pure _
  · exact .bind (.lift _) fun _ => .child _

theorem KeepsRoot.next (it : PathIter Node (CErr E)) : KeepsRoot (it.next storageNode : TreeM E _) := by
  unfold PathIter.next
  split
  · split
    · refine .bind (.bind (.lift _) fun _ => .pure _) fun k => ?_
      split
      · exact .bind (.left _) fun _ => .bind (.right _) fun _ => .pure _
      · exact .bind (.right _) fun _ => .bind (.left _) fun _ => .pure _
      · exact .pure _
    · exact .pure _
  · exact .pure _
  · exact .pure _

theorem KeepsRoot.collect (fuel : Nat) : ∀ (it : PathIter Node (CErr E)), KeepsRoot (collectPath fuel it : TreeM E _) := by
  induction fuel with
  | zero => intro it; exact .throw _
  | succ n ih =>
    intro it
    rw [collectPath]
    refine .bind (.next it) fun x => ?_
    split
    split
    · exact .pure _
    · exact .throw _
    · exact .throw _
    · exact .bind (ih _) fun _ => .pure _

theorem KeepsRoot.path (p : Profile) (leaf : Node) : KeepsRoot (pathSet p leaf : TreeM E _) := by
  unfold pathSet
  refine .get fun t => .bind ?_ fun it => .bind (.collect _ it) fun _ => .pure _
  unfold PathIter.new
  exact .bind (.lift _) fun _ => .pure _

theorem KeepsRoot.merge (p : Profile) (path : Bytes) (a b : Node) : KeepsRoot (mergeNode p H path a b : TreeM E _) :=
  .bind (.lift _) fun _ => .bind (.storage _) fun _ => .pure _

theorem KeepsRoot.merges (p : Profile) (path : Bytes) : ∀ (xs : List Node) (a : Node), KeepsRoot (mergeNodes p H path a xs : TreeM E _) := by
  intro xs
  induction xs with
  | nil => intro a; exact .pure _
  | cons x xs ih => intro a; exact .bind (.merge p path a x) fun _ => ih _

theorem KeepsRoot.removes : ∀ (xs : List Node), KeepsRoot (removeAll H xs : TreeM E _) := by
  intro xs
  induction xs with
  | nil => exact .pure _
  | cons x xs ih => exact .bind (.storage _) fun _ => ih

theorem KeepsRoot.fail {m : TreeM E α} (h : KeepsRoot m) : FailKeeps m := by
  intro t e t' he
  have := h t
  rw [he] at this
  exact this

theorem FailKeeps.bind {m : TreeM E α} {f : α → TreeM E β} (h : KeepsRoot m) (hf : ∀ a, FailKeeps (f a)) : FailKeeps (m >>= f) := by
  intro t e t' he
  have h1 := h t
  rw [Exec.bind_apply] at he
  rcases hm : m t with ⟨r, s⟩
  rw [hm] at h1 he
  cases r with
  | ok a => exact (hf a s e t' he).trans h1
  | error e' => cases he; exact h1

theorem FailKeeps.get {f : Tree E → TreeM E α} (h : ∀ t, FailKeeps (f t)) : FailKeeps (Exec.get >>= f) := by
  intro t e t' he
  rw [Exec.get_bind] at he
  exact h t t e t' he

theorem FailKeeps.setRootNode (p : Profile) (n : Node) : FailKeeps (setRootNode p n : TreeM E _) :=
  .bind (.lift _) fun _ => fun _ _ _ he => by cases he

theorem FailKeeps.updatePath (p : Profile) (r : Node) (ps ss : List Node) : FailKeeps (updateWithPathSet p H r ps ss : TreeM E _) := by
  unfold updateWithPathSet
  refine .bind (.lift _) fun path => ?_
  split
  · exact (KeepsRoot.throw _).fail
  · refine .bind (.lift _) fun rk => .bind (.lift _) fun ak => .bind ?_ fun c => .bind (.merges p _ _ _) fun c => .setRootNode p c
    split
    · refine .bind ?_ fun c => .bind (.lift _) fun d => .merges p _ _ _
      split
      · exact .pure _
      · exact .merge p _ _ _
    · exact .pure _

theorem FailKeeps.deletePath (p : Profile) (r : Node) (ps ss : List Node) : FailKeeps (deleteWithPathSet p H r ps ss : TreeM E _) := by
  unfold deleteWithPathSet
  refine .bind (.removes ps) fun _ => .bind (.lift _) fun path => .bind ?_ fun x => ?_
  · split
    · exact .pure _
    · split
      · split
        · exact .bind (.merge p _ _ _) fun _ => .pure _
        · exact .pure _
      · exact .pure _
  · split
    exact .bind (.merges p _ _ _) fun c => .setRootNode p c

theorem FailKeeps.delete (p : Profile) (k : Bytes32) : FailKeeps (delete p H k : TreeM E _) := by
  unfold Sparse.delete
  refine .get fun t => ?_
  split
  · exact (KeepsRoot.pure _).fail
  · refine .bind (.storage _) fun r => ?_
    split
    · exact (KeepsRoot.pure _).fail
    · split
      · exact (KeepsRoot.throw _).fail
      · exact .bind (.path p _) fun x => .deletePath p _ _ _

theorem FailKeeps.update (p : Profile) (k : Bytes32) (d : Bytes) : FailKeeps (update p H k d : TreeM E _) := by
  unfold Sparse.update
  split
  · exact .delete p k
  · refine .bind (.storage _) fun _ => .bind (.lift _) fun _ => .bind (.storage _) fun _ => .get fun t => ?_
    split
    · exact .setRootNode p _
    · exact .bind (.path p _) fun x => .updatePath p _ _ _

theorem FailKeeps.op (p : Profile) (op : Op) : FailKeeps (op.run p H : TreeM E _) := by
  cases op with
  | update k d => exact .update p k d
  | delete k => exact .delete p k

/-! ### Loading -/

theorem load_stored (env : Env H M U) {t : T} (w : WF 0 t) (hin : In H M t) (h0 : t ≠ .empty) (s : SpStore E)
    (hs : Stored H s.map 0 t) (hr : s.sched s.clock = none) :
    Tree.load s (t.hash H) = (.ok ⟨toNode H 0 t, { s with clock := s.clock + 1 }⟩, { s with clock := s.clock + 1 }) := by
  unfold Tree.load
  rw [Store.get_none _ hr, hs.get h0]
  simp only [ofPrim_toPrim]

theorem alike_failing {t t' : Tree E} (h1 : t'.rootNode = t.rootNode) (h2 : t'.storage.map = t.storage.map)
    (f : Nat → Option (Fault E)) : Alike (t.failing f) (t'.failing f) :=
  ⟨h1, h2, fun n => by simp [Tree.failing]⟩

theorem alike_reliable {t t' : Tree E} (h1 : t'.rootNode = t.rootNode) (h2 : t'.storage.map = t.storage.map)
    (r : t.storage.Reliable) (r' : t'.storage.Reliable) : Alike t t' :=
  ⟨h1, h2, fun n => by rw [r, r']⟩

theorem recovered_reliable (t : Tree E) : t.recovered.storage.Reliable := fun _ => rfl

/-! ### Histories with failures -/

theorem Rep.congr {st st' : Tree E} {t : T} {kv : Entries Bytes} (h : Rep H M U st t kv) (h1 : st'.rootNode = st.rootNode)
    (h2 : st'.storage.map = st.storage.map) : Rep H M U st' t kv :=
  ⟨h.wf, h.inn, h.ent, by rw [h1, h.root], by rw [h2]; exact h.valid⟩

/-- Histories in which no removal fails keep the whole tree in storage; on reliable storage no
call fails. -/
theorem run_kept (p : Profile) (env : Env H M U) : ∀ (ops : List Op) (st : Tree E) (t : T) (kv : Entries Bytes),
    Rep H M U st t kv → Stored H st.storage.map 0 t → (∀ op ∈ ops, U op.key) → NoPhantom H ops → Solid H kv →
    (∀ m ∈ eventMsgs H kv (run p H ops st).1, M m) →
    (st.storage.Reliable ∨ ∀ e ∈ (run p H ops st).1, e.op.data = none → e.out = .ok ()) →
    (∃ t', Rep H M U (run p H ops st).2 t' ((run p H ops st).1.foldl (fun kv e => e.effect kv) kv) ∧
      Stored H (run p H ops st).2.storage.map 0 t') ∧
      (st.storage.Reliable → (run p H ops st).2.storage.Reliable ∧ ∀ e ∈ (run p H ops st).1, e.out = .ok ()) := by
  intro ops
  induction ops with
  | nil => intro st t kv h hst _ _ _ _ _; exact ⟨⟨t, h, hst⟩, fun hr => ⟨hr, by simp [run]⟩⟩
  | cons op ops ih =>
    intro st t kv h hst hu hnp hsol hm hfail
    have hnp1 := hnp op (by simp)
    have hnp2 : NoPhantom H ops := fun o ho => hnp o (by simp [ho])
    rw [run] at hm hfail ⊢
    simp only [eventMsgs, List.mem_append] at hm
    have hsol' := (⟨op, (st.storage.map op.key).isSome, (op.run p H st).1⟩ : Event E).attempt_solid hsol hnp1
    obtain ⟨t1, s1⟩ := op_step p env op (hu op (by simp)) h ⟨fun m h => hm m (.inl (.inr h)), hsol'⟩
    have hok : op.data ≠ none ∨ (⟨op, (st.storage.map op.key).isSome, (op.run p H st).1⟩ : Event E).out = .ok () := by
      rcases hfail with hr | hf
      · exact .inr (s1.live hr hst)
      · by_cases hd : op.data = none
        · exact .inr (hf _ (List.mem_cons.2 (.inl rfl)) hd)
        · exact .inl hd
    have hr1 : st.storage.Reliable → (op.run p H st).2.storage.Reliable := fun hr n => by rw [s1.sched]; exact hr n
    obtain ⟨h1, h2⟩ := ih _ _ _ s1.rep (s1.kept hst hok) (fun o ho => hu o (by simp [ho])) hnp2 (Event.effect_solid _ hsol hnp1)
      (fun m h => hm m (.inr h)) (hfail.imp hr1 (fun hf e he => hf e (List.mem_cons.2 (.inr he))))
    refine ⟨h1, fun hr => ⟨(h2 (hr1 hr)).1, fun e he => ?_⟩⟩
    rcases List.mem_cons.1 he with rfl | he
    · exact s1.live hr hst
    · exact (h2 (hr1 hr)).2 e he

theorem eventMsgs_append (kv : Entries Bytes) (a b : List (Event E)) : ∀ m,
    m ∈ eventMsgs H kv a ∨ m ∈ eventMsgs H (a.foldl (fun kv e => e.effect kv) kv) b → m ∈ eventMsgs H kv (a ++ b) := by
  induction a generalizing kv with
  | nil =>
    rintro m (h | h)
    · exact eventMsgs_head kv b m h
    · exact h
  | cons x xs ih =>
    rintro m (h | h)
    · rw [eventMsgs, List.mem_append] at h
      rw [List.cons_append, eventMsgs, List.mem_append]
      exact h.imp id (fun h => ih _ m (.inl h))
    · rw [List.cons_append, eventMsgs, List.mem_append]
      exact .inr (ih _ m (.inr h))

theorem effects_solid (es : List (Event E)) : ∀ {kv : Entries Bytes}, Solid H kv →
    (∀ e ∈ es, ∀ d, e.op.data = some d → e.op.key = zero32 → H d ≠ zero32) → Solid H (es.foldl (fun kv e => e.effect kv) kv) := by
  induction es with
  | nil => intro kv h _; exact h
  | cons e es ih => intro kv h hd; exact ih (e.effect_solid h (hd e (by simp))) (fun e he => hd e (by simp [he]))

theorem run_ops (p : Profile) : ∀ (ops : List Op) (t : Tree E), (run p H ops t).1.map Event.op = ops := by
  intro ops
  induction ops with
  | nil => intro t; rfl
  | cons op ops ih => intro t; rw [run]; simp only [List.map_cons, ih]

theorem run_solid (p : Profile) {ops : List Op} (h : NoPhantom H ops) (t : Tree E) {kv : Entries Bytes} (hs : Solid H kv) :
    Solid H ((run p H ops t).1.foldl (fun kv e => e.effect kv) kv) := by
  refine effects_solid _ hs fun e he => h e.op ?_
  have := run_ops (H := H) p ops t
  rw [← this]
  exact List.mem_map.2 ⟨e, he, rfl⟩

end Sparse
end FuelMerkle
