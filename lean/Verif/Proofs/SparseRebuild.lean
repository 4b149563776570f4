import Verif.Proofs.SparseSessions

/-
What deletes leave in storage, and sessions on new trees.
-/
namespace FuelMerkle
namespace Sparse
open Spec T
variable {E : Type} {H : HashFn} {M : Bytes → Prop} {U : Bytes32 → Prop}

/-- On reliable storage that holds the tree, the tree left by the calls is in storage. -/
theorem follow_last (p : Profile) (env : Env H M U) : ∀ (ops : List Op) (kv : Entries Bytes) (st : Tree E) (t : T), Rep H M U st t kv →
    Stored H st.storage.map 0 t → st.storage.Reliable → Covered H M U (follow p H ops kv st).1 →
    ∀ a, (follow p H ops kv st).1.getLast? = some a →
      ∃ t', WF 0 t' ∧ In H M t' ∧ a.root = t'.hash H ∧ Stored H (follow p H ops kv st).2.map 0 t' := by
  intro ops
  induction ops with
  | nil => intro kv st t h _ _ _ a ha; simp [follow] at ha
  | cons op ops ih =>
    intro kv st t h hs hr hc a ha
    rw [follow] at hc ha ⊢
    obtain ⟨c1, c2, c3⟩ := hc _ (List.mem_cons_self ..)
    obtain ⟨t1, s1⟩ := op_step p env op c2 h ⟨c1, Event.attempt_solid _ h.solid c3⟩
    have hok := s1.live hr hs
    have hst := s1.kept hs (.inr hok)
    have hr1 : (op.run p H st).2.storage.Reliable := fun n => by rw [s1.sched]; exact hr n
    cases ops with
    | nil =>
      simp only [follow, List.getLast?_singleton, Option.some.injEq] at ha
      subst ha
      exact ⟨t1, s1.rep.wf, s1.rep.inn, root_toNode env s1.rep.wf s1.rep.inn s1.rep.root, hst⟩
    | cons op' ops =>
      have key := fun hl => ih _ _ _ s1.rep hst hr1 (fun a ha => hc a (List.mem_cons_of_mem _ ha)) a hl
      refine key ?_
      simp only [follow] at ha ⊢
      simpa only [List.getLast?_cons_cons] using ha

/-! ### The leaf a delete removes -/

/-- There is no record under `x`, or it is the record of an inner node. -/
def NoLeaf (x : Bytes32) (s : SpStore E) : Prop := s.map x = none ∨ ∃ q, s.map x = some q ∧ q.2.1 = 1

theorem createNodeOnPath_pfx {p : Profile} {path : Bytes} {a b n : Node} (h : Node.createNodeOnPath p H path a b = .ok n) : n.pfx = .node := by
  unfold Node.createNodeOnPath at h
  split at h
  · rcases h1 : a.commonPathLength p b with e | d
    · rw [h1] at h; cases h
    · rw [h1] at h
      simp only [Bind.bind, Except.bind] at h
      split at h
      · cases h
      · split at h
        · cases h
        · split at h <;> cases h <;> rfl
  · simp only [Bind.bind, Except.bind] at h
    split at h
    · cases h
    · split at h
      · cases h
      · split at h
        · cases h
        · split at h <;> cases h <;> rfl

theorem noLeaf_insert (x : Bytes32) (n : Node) (hn : n.pfx = .node) (y : Bytes32) (s : SpStore E) (h : NoLeaf x s) :
    NoLeaf x (Store.insert y n.toPrim s).2 := by
  have key : NoLeaf x { s with map := Store.upd s.map y (some n.toPrim) } := by
    unfold NoLeaf Store.upd
    by_cases e : x = y
    · right; exact ⟨n.toPrim, by simp [e], by simp [Node.toPrim, hn, Prefix.toU8]⟩
    · simp only [e, if_false]; exact h
  cases hs : s.sched s.clock with
  | none => rw [Store.insert_none _ _ hs]; exact key
  | some f =>
    rw [Store.insert_fault _ _ hs]
    cases f.applied
    · exact h
    · exact key

theorem noLeaf_merge (x : Bytes32) (p : Profile) (path : Bytes) (a b : Node) : Pres (NoLeaf x) (mergeNode p H path a b : TreeM E _) := by
  unfold mergeNode
  cases h : Node.createNodeOnPath p H path a b with
  | error e => exact fun _ h => h
  | ok n =>
    exact Pres.bind (m := onStorage (Store.insert (n.hash H) n.toPrim)) (.storage fun s => noLeaf_insert x n (createNodeOnPath_pfx h) _ s)
      fun _ => .pure _

theorem noLeaf_merges (x : Bytes32) (p : Profile) (path : Bytes) : ∀ (xs : List Node) (a : Node), Pres (NoLeaf x) (mergeNodes p H path a xs : TreeM E _) := by
  intro xs
  induction xs with
  | nil => intro a; exact .pure _
  | cons y xs ih => intro a; exact .bind (noLeaf_merge x p path a y) fun _ => ih _

theorem noLeaf_rebuild (x : Bytes32) (p : Profile) (path : Bytes) (ss : List Node) : Pres (NoLeaf x) (rebuild p H path ss : TreeM E _) := by
  unfold rebuild
  refine .bind ?_ fun c => ?_
  · split
    · exact .pure _
    · split
      · split
        · exact .bind (noLeaf_merge x p _ _ _) fun _ => .pure _
        · exact .pure _
      · exact .pure _
  · split
    exact noLeaf_merges x p _ _ _

theorem leaf_on_path {k v : Bytes32} : ∀ {t : T} {d : Nat}, WF d t → (k, v) ∈ t.entries → leaf k v ∈ pathTrees k d t := by
  intro t
  induction t with
  | empty => intro d _ h; simp [entries] at h
  | leaf k' v' => intro d _ h; simp only [entries, List.mem_singleton, Prod.mk.injEq] at h; simp [pathTrees, h]
  | node l r ihl ihr =>
    intro d w h
    rw [pathTrees, List.mem_append]
    left
    rw [entries, List.mem_append] at h
    rcases h with h | h
    · rw [w.2.2.2.1 _ h]; exact ihl w.2.1 h
    · rw [w.2.2.2.2.1 _ h]; exact ihr w.2.2.1 h

/-- A successful delete of a key of the tree leaves no record of its leaf. -/
theorem delete_leaf_gone (p : Profile) (env : Env H M U) {st st' : Tree E} {t : T} {kv : Entries Bytes} (h : Rep H M U st t kv) {k : Bytes32} {d : Bytes}
    (hk : U k) (hd : (k, d) ∈ kv) (hin : In H M (del k 0 t)) (hrec : (st.storage.map k).isSome) (hrun : delete p H k st = (.ok (), st')) :
    st'.storage.map ((leaf k (H d)).hash H) = none := by
  have hent : (k, H d) ∈ t.entries := (h.ent.mem _).2 (mem_digests.2 ⟨d, hd, rfl⟩)
  have h0 : t ≠ .empty := by rintro rfl; simp [entries] at hent
  obtain ⟨_, hinl, _⟩ := pathTrees_in k h.wf h.inn _ (leaf_on_path h.wf hent)
  obtain ⟨q, hq⟩ := Option.isSome_iff_exists.1 hrec
  obtain ⟨v, rfl⟩ : ∃ v, q = leafPrim k v := h.valid.user_rec env hk hq
  obtain ⟨n, hn, hkn⟩ : ∃ n, Node.ofPrim (leafPrim k v) = .ok n ∧ HasKey n k := ⟨_, rfl, rfl⟩
  -- the records are valid after the call
  obtain ⟨st2, g2, h2⟩ := delete_leaf p env h.wf h.inn h0 hin st h.root h.valid hq hn hkn
  have hval : Valid H M U st'.storage.map := by
    have := g2.valid h.valid
    rcases h2 with ⟨a, _⟩ | ⟨⟨e, a⟩, _⟩
    · rw [hrun] at a; cases a; exact this
    · rw [hrun] at a; cases a
  -- no leaf record is left under the hash
  have hno : NoLeaf ((leaf k (H d)).hash H) st'.storage := by
    unfold delete at hrun
    rw [Exec.get_bind, if_neg (by rw [root_toNode env h.wf h.inn h.root]; exact h.inn.hash_ne env h0)] at hrun
    obtain ⟨st1, s1, h1⟩ := get_any k st
    rcases h1 with h1 | ⟨⟨e, h1⟩, r1⟩
    · rw [Exec.bind_ok h1, hq] at hrun
      simp only [hn] at hrun
      obtain ⟨st3, s3, h3⟩ := pathSet_spec p env hkn st1 (by rw [s1.root, h.root]) h.wf h.inn (by rw [s1.map]; exact h.valid)
      rcases h3 with h3 | ⟨⟨e, h3⟩, _⟩
      · rw [Exec.bind_ok h3] at hrun
        simp only at hrun
        rw [deleteWithPathSet_eq p hkn] at hrun
        obtain ⟨st4, s4, h4⟩ := removeAll_spec (H := H) (pathNodes H k 0 t) st3
        rcases h4 with ⟨h4, z4⟩ | ⟨⟨e, h4⟩, _⟩
        · rw [Exec.bind_ok h4] at hrun
          have hp : Pres (NoLeaf ((leaf k (H d)).hash H)) (rebuild p H k.val (sideNodes H k 0 t) >>= fun c => setRootNode p c : TreeM E _) :=
            .bind (noLeaf_rebuild _ p _ _) fun c => .bind (.lift _) fun _ => fun _ h => h
          have := hp st4 (.inl (z4 _ (by
            rw [pathNodes_hash env k h.wf h.inn]
            exact List.mem_map.2 ⟨_, leaf_on_path h.wf hent, rfl⟩)))
          rw [hrun] at this
          exact this
        · rw [Exec.bind_error h4] at hrun; cases hrun
      · rw [Exec.bind_error h3] at hrun; cases hrun
    · rw [Exec.bind_error h1] at hrun; cases hrun
  rcases hno with e | ⟨q, e, hq1⟩
  · exact e
  · exfalso
    have hl0 : leaf k (H d) ≠ .empty := by simp
    have := hval.get (d := 0) (t := leaf k (H d)) env trivial hinl hl0 e
    rw [this] at hq1
    simp [toNode, Node.toPrim, Prefix.toU8] at hq1

end Sparse
end FuelMerkle
