import Verif.Proofs.SparseInner
import Verif.Proofs.SparseMachine

/-
Deletes in a tree opened at an inner node.
-/
namespace FuelMerkle
namespace Sparse
open Spec T
variable {E : Type} {H : HashFn} {M : Bytes → Prop} {U : Bytes32 → Prop}

theorem del_node (k : Bytes32) (d : Nat) (l r : T) :
    del k d (node l r) = mkOn (keyBit k d) (del k (d + 1) (if keyBit k d then r else l)) (if keyBit k d then l else r) := by
  rw [del]; cases keyBit k d <;> rfl

theorem del_descend_in (k : Bytes32) : ∀ (n : Nat) {t : T} {d : Nat}, (∃ l r, descend k n d t = node l r) →
    In H M (del k d t) → In H M (del k (d + n) (descend k n d t)) := by
  intro n
  induction n with
  | zero => intro t d _ h; exact h
  | succ n ih =>
    intro t d hn h
    cases t with
    | empty => obtain ⟨_, _, hn⟩ := hn; cases hn
    | leaf k' v' => obtain ⟨_, _, hn⟩ := hn; cases hn
    | node l r =>
      rw [descend_node] at hn ⊢
      rw [del_node] at h
      rw [show d + (n + 1) = d + 1 + n by omega]
      exact ih hn h.mkOn.1

theorem descend_size (k : Bytes32) : ∀ (n : Nat) (t : T) (d : Nat), (descend k n d t).size ≤ t.size := by
  intro n
  induction n with
  | zero => intro t d; exact Nat.le_refl _
  | succ n ih =>
    intro t d
    cases t with
    | empty => exact Nat.le_refl _
    | leaf k' v' => exact Nat.le_refl _
    | node l r =>
      rw [descend_node]
      exact Nat.le_trans (ih _ _) (Nat.le_of_lt (size_parts (keyBit k d) l r).1)

theorem descend_smaller {k : Bytes32} {n : Nat} (h0 : 0 < n) {t : T} (hn : ∃ l r, descend k n 0 t = node l r) :
    (descend k n 0 t).size < t.size := by
  obtain ⟨n, rfl⟩ : ∃ m, n = m + 1 := ⟨n - 1, by omega⟩
  cases t with
  | empty => obtain ⟨_, _, hn⟩ := hn; cases hn
  | leaf k' v' => obtain ⟨_, _, hn⟩ := hn; cases hn
  | node l r =>
    rw [descend_node]
    exact Nat.lt_of_le_of_lt (descend_size k n _ _) (size_parts (keyBit k 0) l r).1

theorem pathTrees_size (k : Bytes32) : ∀ {t : T} {d : Nat}, ∀ q ∈ pathTrees k d t, q.size ≤ t.size := by
  intro t
  induction t with
  | empty => intro d q hq; simp only [pathTrees, List.mem_singleton] at hq; subst hq; exact Nat.le_refl _
  | leaf k' v' => intro d q hq; simp only [pathTrees, List.mem_singleton] at hq; subst hq; exact Nat.le_refl _
  | node l r ihl ihr =>
    intro d q hq
    rw [pathTrees_node, List.mem_append, List.mem_singleton] at hq
    rcases hq with hq | rfl
    · have := size_parts (keyBit k d) l r
      revert hq this
      cases keyBit k d
      · exact fun hq this => Nat.le_trans (ihl q hq) (Nat.le_of_lt this.1)
      · exact fun hq this => Nat.le_trans (ihr q hq) (Nat.le_of_lt this.1)
    · exact Nat.le_refl _

theorem setRootNode_part (p : Profile) (env : Env H M U) {t : T} {d : Nat} (w : WF d t) (hin : In H M t) (h0 : 0 < d) (st : Tree E) :
    setRootNode p (toNode H d t) st =
      if p.debugAssertions && decide (2 ≤ t.entries.length) then (.error (.panic .debugAssertion), st)
      else (.ok (), { st with rootNode := toNode H d t }) := by
  have leafish : ∀ {t : T}, WF d t → In H M t → (∀ l r, t ≠ node l r) → setRootNode p (toNode H d t) st = (.ok (), { st with rootNode := toNode H d t }) := by
    intro t w hin ht
    unfold setRootNode
    rw [(isLeaf_toNode env w hin).2 ht, Bool.true_or, rdebugAssert_true, Exec.liftRes_ok_bind]
    rfl
  cases t with
  | empty => rw [leafish w hin (by simp), if_neg (by simp [entries])]
  | leaf k v => rw [leafish w hin (by simp), if_neg (by simp [entries])]
  | node l r =>
    have h2 := w.2.2.2.2.2.2
    rw [setRootNode_inner p env w hin h0, entries, List.length_append, decide_eq_true h2, Bool.and_true]

theorem putAll_other : ∀ (xs : List (Bytes32 × Prim)) (s : SpStore E) (x : Bytes32), (∀ y ∈ xs, y.1 ≠ x) → (putAll xs s).2.map x = s.map x := by
  intro xs
  induction xs with
  | nil => intro s x _; rfl
  | cons y ys ih =>
    intro s x h
    have hins : (Store.insert y.1 y.2 s).2.map x = s.map x := by
      cases hc : s.sched s.clock with
      | none =>
        rw [Store.insert_none _ _ hc]
        exact Store.upd_of_ne _ _ (fun e => h y (by simp) e.symm)
      | some f =>
        rw [Store.insert_fault _ _ hc]
        dsimp only
        split
        · exact Store.upd_of_ne _ _ (fun e => h y (by simp) e.symm)
        · rfl
    rw [putAll]
    rcases hq : Store.insert y.1 y.2 s with ⟨e | a, s'⟩
    · rw [hq] at hins; exact hins
    · rw [hq] at hins
      exact (ih s' x (fun z hz => h z (by simp [hz]))).trans hins

theorem innerNodes_hash (env : Env H M U) (k : Bytes32) : ∀ {t : T} {d : Nat}, WF d t → In H M t → ∀ n ∈ innerNodes H k d t,
    ∃ q, In H M q ∧ n.hash H = q.hash H ∧ ∀ x ∈ q.entries, x ∈ t.entries := by
  intro t
  induction t with
  | empty => intro d _ _ n hn; simp [innerNodes] at hn
  | leaf a b => intro d _ _ n hn; simp [innerNodes] at hn
  | node l r ihl ihr =>
    intro d w hin n hn
    rw [innerNodes, List.mem_append, List.mem_singleton] at hn
    rcases hn with hn | rfl
    · revert hn
      cases keyBit k d
      · intro hn
        obtain ⟨q, q1, q2, q3⟩ := ihl w.2.1 hin.left n hn
        exact ⟨q, q1, q2, fun x hx => by rw [entries]; exact List.mem_append_left _ (q3 x hx)⟩
      · intro hn
        obtain ⟨q, q1, q2, q3⟩ := ihr w.2.2.1 hin.right n hn
        exact ⟨q, q1, q2, fun x hx => by rw [entries]; exact List.mem_append_right _ (q3 x hx)⟩
    · exact ⟨_, hin, hash_toNode env w hin, fun x hx => hx⟩

/-- Looking for records of which one is not there ends with an error. -/
theorem seekAll_missing : ∀ (xs : List (Bytes32 × Bytes32)) (s : SpStore E), s.Reliable → (∃ x ∈ xs, x.1 ≠ zero32 ∧ s.map x.1 = none) →
    ∃ e s', seekAll xs s = (some e, s') := by
  have hseek : ∀ (x : Bytes32) (s : SpStore E), (seek x s).2.map = s.map ∧ (seek x s).2.sched = s.sched := by
    intro x s
    unfold seek
    split
    · exact ⟨rfl, rfl⟩
    · rcases hq : Store.get x s with ⟨e | _ | q, s'⟩ <;>
      · have h1 : (Store.get x s).2 = s' := by rw [hq]
        dsimp only
        rw [← h1]
        unfold Store.get
        cases s.sched s.clock <;> exact ⟨rfl, rfl⟩
  intro xs
  induction xs with
  | nil => intro s _ h; obtain ⟨x, hx, _⟩ := h; cases hx
  | cons y ys ih =>
    intro s hr h
    rw [seekAll]
    have hb : (seekBoth y s).2.map = s.map ∧ (seekBoth y s).2.sched = s.sched := by
      unfold seekBoth
      exact ⟨(hseek _ _).1.trans (hseek _ _).1, (hseek _ _).2.trans (hseek _ _).2⟩
    rcases hq : seekBoth y s with ⟨⟨_ | e, _ | e'⟩, s'⟩
    · rw [hq] at hb
      dsimp only at hb
      obtain ⟨x, hx, h1, h2⟩ := h
      rcases List.mem_cons.1 hx with rfl | hx
      · exfalso
        have : (seekBoth x s).1.1 = none := by rw [hq]
        unfold seekBoth seek at this
        dsimp only at this
        rw [if_neg h1, Store.get_none _ (hr _), h2] at this
        cases this
      · exact ih s' (fun n => by rw [hb.2]; exact hr n) ⟨x, hx, h1, by rw [hb.1]; exact h2⟩
    · cases ys with
      | nil => exact ⟨_, _, rfl⟩
      | cons z zs => exact ⟨_, _, rfl⟩
    · exact ⟨_, _, rfl⟩
    · exact ⟨_, _, rfl⟩

theorem putAll_reliable : ∀ (xs : List (Bytes32 × Prim)) (s : SpStore E), s.Reliable → (putAll xs s).1 = none ∧ (putAll xs s).2.Reliable := by
  intro xs
  induction xs with
  | nil => intro s hr; exact ⟨rfl, hr⟩
  | cons y ys ih =>
    intro s hr
    rw [putAll, Store.insert_none _ _ (hr _)]
    exact ih _ hr

/-- A call ends with an error if a record on the way of its key is not there. -/
theorem onMachine_missing (op : Op) (kv : Entries Bytes) (s : SpStore E) (hr : s.Reliable) {y : Bytes32} (hy : y ≠ zero32) (hm : s.map y = none)
    (hx : ∃ x ∈ wayPairs H op.key kv, x.1 = y) (hd : ∀ d, op.data = some d → op.key ≠ y ∧ H (smtLeafMsg op.key (H d)) ≠ y)
    (hn : op.data = none → kv ≠ [] ∧ (s.map op.key).isSome = true) :
    ∃ e, (op.onMachine H ⟨kv, s⟩).1 = .error (.err (.childError e)) := by
  obtain ⟨x, hx, rfl⟩ := hx
  unfold Op.onMachine
  cases hop : op.data with
  | some d =>
    dsimp only
    obtain ⟨h1, h2⟩ := hd d hop
    have a1 := putAll_reliable [(H (smtLeafMsg op.key (H d)), ((0, 0x00, op.key, H d) : Prim)), (op.key, (0, 0x00, op.key, H d))] s hr
    have a2 := putAll_other [(H (smtLeafMsg op.key (H d)), ((0, 0x00, op.key, H d) : Prim)), (op.key, (0, 0x00, op.key, H d))] s x.1 (by
      intro z hz
      simp only [List.mem_cons, List.not_mem_nil, or_false] at hz
      rcases hz with rfl | rfl
      · exact h2
      · exact h1)
    rcases hq : putAll [(H (smtLeafMsg op.key (H d)), ((0, 0x00, op.key, H d) : Prim)), (op.key, (0, 0x00, op.key, H d))] s with ⟨_ | e, s'⟩
    · rw [hq] at a1 a2
      obtain ⟨e, s'', h⟩ := seekAll_missing (wayPairs H op.key kv) s' a1.2 ⟨x, hx, hy, a2.trans hm⟩
      dsimp only
      rw [h]
      exact ⟨e, rfl⟩
    · rw [hq] at a1; cases a1.1
  | none =>
    dsimp only
    obtain ⟨h1, h2⟩ := hn hop
    obtain ⟨q, hq⟩ := Option.isSome_iff_exists.1 h2
    rw [if_neg h1, Store.get_none _ (hr _), hq]
    dsimp only
    obtain ⟨e, s'', h⟩ := seekAll_missing (wayPairs H op.key kv) { s with clock := s.clock + 1 } hr ⟨x, hx, hy, hm⟩
    rw [h]
    exact ⟨e, rfl⟩

/-- The part below a prefix is looked for on the way of every key with the prefix. -/
theorem part_on_way (k k' : Bytes32) : ∀ (n : Nat) {t : T} {d : Nat}, 0 < n → (∃ l r, descend k n d t = node l r) →
    (∀ i < n, keyBit k' (d + i) = keyBit k (d + i)) → ∃ x ∈ pairHashes H k' d t, x.1 = (descend k n d t).hash H := by
  intro n
  induction n with
  | zero => intro t d h0; omega
  | succ n ih =>
    intro t d _ hn hag
    cases t with
    | empty => obtain ⟨_, _, hn⟩ := hn; cases hn
    | leaf k' v' => obtain ⟨_, _, hn⟩ := hn; cases hn
    | node l r =>
      rw [descend_node] at hn ⊢
      rw [pairHashes_node]
      have hb : keyBit k' d = keyBit k d := by have := hag 0 (by omega); rwa [Nat.add_zero] at this
      have ho : onPath k' d l r = (if keyBit k d then r else l) := by unfold onPath; rw [hb]
      rw [ho]
      cases n with
      | zero => exact ⟨_, List.mem_cons_self, rfl⟩
      | succ n =>
        obtain ⟨x, hx, e⟩ := ih (by omega) hn (fun i hi => by
          have := hag (i + 1) (by omega)
          rwa [show d + (i + 1) = d + 1 + i by omega] at this)
        exact ⟨x, by simp [hx], e⟩

/-- `delete` in a tree opened at an inner node, of a key for which there is a record. -/
theorem delete_inner (p : Profile) (env : Env H M U) {k v : Bytes32} {t : T} {d : Nat} (hnode : ∃ l r, t = node l r) (h0 : 0 < d)
    (hd : d ≤ 256) (w : WF d t) (hin : In H M t) (hin' : In H M (del k d t))
    (st : Tree E) (hroot : st.rootNode = toNode H d t) (hv : Valid H M U st.storage.map) (hs : Stored H st.storage.map d t)
    (hr : st.storage.Reliable) (hk : st.storage.map k = some (leafPrim k v)) :
    ∃ st', st'.rootNode = st.rootNode ∧ st'.storage.sched = st.storage.sched ∧
      (∀ x, st'.storage.map x = st.storage.map x ∨ (∃ q, st'.storage.map x = some q ∧ Good H M x q) ∨
        (x ∈ (pathTrees k d t).map (·.hash H) ∧ st'.storage.map x = none)) ∧
      Stored H st'.storage.map d (del k d t) ∧
      (victim k d t ≠ none → st'.storage.map (t.hash H) = none) ∧
      delete p H k st = if p.debugAssertions && decide (2 ≤ (del k d t).entries.length) then (.error (.panic .debugAssertion), st')
        else (.ok (), { st' with rootNode := toNode H d (del k d t) }) := by
  have hne : t ≠ .empty := by obtain ⟨l, r, rfl⟩ := hnode; simp
  have hroot0 : st.root H ≠ zeroSum := by
    unfold Tree.root
    rw [hroot, hash_toNode env w hin]
    exact hin.hash_ne env hne
  unfold delete
  rw [Exec.get_bind, if_neg hroot0]
  obtain ⟨st1, s1, i1⟩ := get_any k st
  have i1 := i1.resolve_right (fun h => h.2 hr)
  rw [Exec.bind_ok i1, hk]
  have hq : Node.ofPrim (leafPrim k v) = .ok (toNode H 0 (leaf k v)) := ofPrim_toPrim _
  simp only [hq]
  obtain ⟨st2, s2, i2⟩ : ∃ st2, Same st1 st2 ∧ pathSet p (toNode H 0 (leaf k v)) st1 =
      (.ok (pathNodes H k d t, sideNodes H k d t), st2) := by
    obtain ⟨l, r, rfl⟩ := hnode
    obtain ⟨st2, s2, i2⟩ := pathSet_inner p env (HasKey.leaf H 0 k v) hd st1 (by rw [s1.root, hroot]) w hin (by rw [s1.map]; exact hv)
    rcases i2 with i2 | ⟨_, i2⟩
    · exact ⟨st2, s2, i2⟩
    · exact absurd ⟨s1.reliable hr, by rw [s1.map]; exact hs.path k⟩ i2
  rw [Exec.bind_ok i2]
  simp only []
  rw [deleteWithPathSet_eq p (HasKey.leaf H 0 k v)]
  have hr2 : st2.storage.Reliable := s2.reliable (s1.reliable hr)
  obtain ⟨st3, s3, i3⟩ := removeAll_spec (H := H) (pathNodes H k d t) st2
  obtain ⟨i3, gone3⟩ := i3.resolve_right (fun h => h.2 hr2)
  rw [Exec.bind_ok i3]
  have hr3 : st3.storage.Reliable := fun n => by rw [s3.sched]; exact hr2 n
  obtain ⟨st4, g4, i4⟩ := (rebuild_spec (E := E) p env w hin').2 st3
  obtain ⟨i4, m4⟩ := i4.resolve_right (fun h => h.2 hr3)
  rw [Exec.bind_ok i4, setRootNode_part p env (del_spec w).1 hin' h0]
  have hmap3 : ∀ x, st3.storage.map x = st.storage.map x ∨ (x ∈ (pathTrees k d t).map (·.hash H) ∧ st3.storage.map x = none) := by
    intro x
    rcases s3.map x with e | ⟨e, e'⟩
    · exact .inl (by rw [e, s2.map, s1.map])
    · exact .inr ⟨by rw [← pathNodes_hash env k w hin]; exact e, e'⟩
  refine ⟨st4, by rw [g4.root, s3.root, s2.root, s1.root], by rw [g4.sched, s3.sched, s2.sched, s1.sched], fun x => ?_, m4 ?_, fun hvic => ?_, rfl⟩
  · rcases g4.map x with e | e
    · rw [e]; exact (hmap3 x).imp id .inr
    · exact .inr (.inl e)
  · refine SidesStored.congr k ?_ (hs.sides k)
    intro s hsm q hq h0
    rcases hmap3 (q.hash H) with e | ⟨hm, _⟩
    · exact e
    · exfalso
      rw [List.mem_map] at hm
      obtain ⟨q', hq', e⟩ := hm
      have hinq' := (pathTrees_in k w hin q' hq').2.1
      have hinq : In H M q := by
        have : ∀ {t : T} {d : Nat}, In H M t → ∀ s ∈ sideTrees k d t, In H M s := by
          intro t
          induction t with
          | empty => intro d _ s hs; simp [sideTrees] at hs
          | leaf => intro d _ s hs; simp [sideTrees] at hs
          | node l r ihl ihr =>
            intro d hin s hs
            rw [sideTrees_node, List.mem_append, List.mem_singleton] at hs
            rcases hs with hs | rfl
            · revert hs
              cases keyBit k d
              · exact ihl hin.left s
              · exact ihr hin.right s
            · exact (In.parts k hin).2
        exact hq.inn (this hin s hsm)
      have := hash_inj env hinq' hinq e
      subst this
      exact sides_disjoint k w hin s hsm _ hq h0 hq'
  · have e4 : st4.storage = (putAll ((innerNodes H k d (del k d t)).map fun n => (n.hash H, n.toPrim)) st3.storage).2 := by
      have h := congrArg (fun z => z.2.storage) i4
      rw [rebuild_eq p env w hin', writePath] at h
      rw [← h]
      have hw := writeNodes_calls (H := H) (innerNodes H k d (del k d t)) st3
      unfold called at hw
      rcases hq : putAll ((innerNodes H k d (del k d t)).map fun n => (n.hash H, n.toPrim)) st3.storage with ⟨_ | e, s'⟩
      · rw [hq] at hw
        rw [Exec.bind_ok hw, hq]; rfl
      · rw [hq] at hw
        rw [Exec.bind_error hw, hq]
    rw [e4, putAll_other]
    · exact gone3 _ (by
        rw [pathNodes_hash env k w hin]
        obtain ⟨l, r, rfl⟩ := hnode
        rw [pathTrees_node]
        simp)
    · intro y hy e
      obtain ⟨n, hn, rfl⟩ := List.mem_map.1 hy
      obtain ⟨q, q1, q2, q3⟩ := innerNodes_hash env k (del_spec w).1 hin' n hn
      have := hash_inj env q1 hin (q2.symm.trans e)
      subst this
      cases hx : victim k d q with
      | none => exact hvic hx
      | some k' =>
        obtain ⟨v', hv'⟩ := (del_spec (k := k) w).2.2 k' hx
        exact (((del_spec (k := k) w).2.1 _).1 (q3 _ hv')).2 hx.symm

end Sparse
end FuelMerkle
