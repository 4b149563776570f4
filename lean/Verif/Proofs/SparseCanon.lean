import Verif.Proofs.SparseRun

/-
Facts about maps and states that do not mention the code.
-/
namespace FuelMerkle
namespace Sparse
open Spec T
variable {H : HashFn}

/-- Every map has a tree. -/
theorem exists_tree (H : HashFn) : ∀ (kv : Entries Bytes), (keysOf kv).Nodup → ∃ t, WF 0 t ∧ Ent H t kv := by
  intro kv
  induction kv with
  | nil => intro _; exact ⟨.empty, trivial, Ent.empty H⟩
  | cons x xs ih =>
    intro hn
    obtain ⟨k, d⟩ := x
    have hn' : k ∉ keysOf xs ∧ (keysOf xs).Nodup := by simpa [keysOf] using hn
    obtain ⟨t, w, e⟩ := ih hn'.2
    refine ⟨_, (ins_spec (k := k) (v := H d) w (Ag.zero k t) (by omega)).1, ?_⟩
    have := e.put w k d
    rw [Entries.put, erase_absent hn'.1] at this
    exact this

/-- The root depends only on the entries. -/
theorem rootOf_congr {kv kv' : Entries Bytes} (h : (keysOf kv).Nodup) (h' : (keysOf kv').Nodup) (he : ∀ x, x ∈ kv ↔ x ∈ kv') :
    rootOf H kv = rootOf H kv' := by
  obtain ⟨t, w, e⟩ := exists_tree H kv h
  have e' : Ent H t kv' := ⟨h', fun x => by rw [e.mem, mem_digests, mem_digests]; simp only [he]⟩
  rw [← e.root w, ← e'.root w]

theorem met_self {kv : Entries Bytes} (h : (keysOf kv).Nodup) {k : Bytes32} (hk : k ∈ keysOf kv) : met k kv = some k := by
  obtain ⟨t, w, e⟩ := exists_tree (fun _ => zero32) kv h
  exact met_present hk w e

theorem met_mem {kv : Entries Bytes} (h : (keysOf kv).Nodup) {k k' : Bytes32} (hm : met k kv = some k') : k' ∈ keysOf kv := by
  obtain ⟨t, w, e⟩ := exists_tree (fun _ => zero32) kv h
  rw [← e.met w k] at hm
  obtain ⟨v, hv⟩ := (del_spec (k := k) w).2.2 k' hm
  obtain ⟨d, hd, _⟩ := mem_digests.1 ((e.mem _).1 hv)
  exact mem_keysOf.2 ⟨d, hd⟩

/-! ### States -/

theorem onState_nodup (op : Op) {s : State} (h : (keysOf s.kv).Nodup) : (keysOf (op.onState s).kv).Nodup := by
  unfold Op.onState
  split
  · exact nodup_put h _ _
  · split
    · exact h
    · split
      · exact nodup_erase h _
      · exact h

theorem stateFrom_nodup (ops : List Op) : ∀ {s : State}, (keysOf s.kv).Nodup → (keysOf (stateFrom s ops).kv).Nodup := by
  induction ops with
  | nil => intro s h; exact h
  | cons op ops ih => intro s h; exact ih (onState_nodup op h)

theorem stateOf_nodup (ops : List Op) : (keysOf (stateOf ops).kv).Nodup := stateFrom_nodup ops (by simp [keysOf])

theorem onMap_nodup (op : Op) {kv : Entries Bytes} (h : (keysOf kv).Nodup) : (keysOf (op.onMap kv)).Nodup := by
  unfold Op.onMap
  split
  · exact nodup_put h _ _
  · exact nodup_erase h _

theorem mapOf_snoc (ops : List Op) (op : Op) : mapOf (ops ++ [op]) = op.onMap (mapOf ops) := by
  simp [mapOf]

theorem stateOf_append (a b : List Op) : stateOf (a ++ b) = stateFrom (stateOf a) b := stateFrom_append _ a b

theorem stateOf_snoc (ops : List Op) (op : Op) : stateOf (ops ++ [op]) = op.onState (stateOf ops) := by
  rw [stateOf_append]; rfl

theorem stored_append (a b : List Op) : stored (a ++ b) = stored a ++ stored b := by
  induction a with
  | nil => rfl
  | cons x xs ih =>
    rw [List.cons_append, stored, stored, ih]
    cases x.data <;> rfl

theorem snoc_induction {P : List Op → Prop} (h0 : P []) (h : ∀ l x, P l → P (l ++ [x])) (l : List Op) : P l := by
  have : ∀ l : List Op, P l.reverse := by
    intro l
    induction l with
    | nil => exact h0
    | cons x xs ih => rw [List.reverse_cons]; exact h _ _ ih
  have := this l.reverse
  rwa [List.reverse_reverse] at this

theorem mapOf_nodup (ops : List Op) : (keysOf (mapOf ops)).Nodup := by
  induction ops using snoc_induction with
  | h0 => simp [mapOf, keysOf]
  | h l x ih => rw [mapOf_snoc]; exact onMap_nodup x ih

theorem keys_onMap (op : Op) (kv : Entries Bytes) {y : Bytes32} (h : y ∈ keysOf (op.onMap kv)) :
    y ∈ keysOf kv ∨ (op.data ≠ none ∧ y = op.key) := by
  obtain ⟨v, hv⟩ := mem_keysOf.1 h
  unfold Op.onMap at hv
  cases hd : op.data with
  | some d =>
    rw [hd] at hv
    rcases mem_put.1 hv with e | ⟨h, _⟩
    · simp only [Prod.mk.injEq] at e
      exact .inr ⟨by simp, e.1⟩
    · exact .inl (mem_keysOf.2 ⟨v, h⟩)
  | none =>
    rw [hd] at hv
    exact .inl (mem_keysOf.2 ⟨v, (mem_erase.1 hv).1⟩)

theorem mem_stored_snoc {ops : List Op} {op : Op} {y : Bytes32} : y ∈ stored (ops ++ [op]) ↔ y ∈ stored ops ∨ (op.data ≠ none ∧ y = op.key) := by
  rw [stored_append, List.mem_append, stored]
  cases op.data <;> simp [stored]

theorem keys_stored (ops : List Op) : ∀ y ∈ keysOf (mapOf ops), y ∈ stored ops := by
  induction ops using snoc_induction with
  | h0 => simp [mapOf, keysOf]
  | h l x ih =>
    intro y hy
    rw [mapOf_snoc] at hy
    rw [mem_stored_snoc]
    exact (keys_onMap x _ hy).imp (ih y) id

/-- Keys with a record have been stored. -/
theorem recs_stored (ops : List Op) : ∀ y ∈ (stateOf ops).recs, y ∈ stored ops := by
  induction ops using snoc_induction with
  | h0 => simp [stateOf, stateFrom]
  | h l x ih =>
    intro y hy
    rw [stateOf_snoc] at hy
    rw [mem_stored_snoc]
    unfold Op.onState at hy
    cases hd : x.data with
    | some d =>
      simp only [hd, List.mem_cons] at hy
      rcases hy with rfl | hy
      · exact .inr ⟨by simp, rfl⟩
      · exact .inl (ih y hy)
    | none =>
      simp only [hd] at hy
      left
      split at hy
      · exact ih y hy
      · split at hy
        · exact ih y hy
        · exact ih y (List.mem_filter.1 hy).1

/-- Only the zero key can lose its record. -/
theorem stored_recs (ops : List Op) : ∀ y ∈ stored ops, y ≠ zero32 → y ∈ (stateOf ops).recs := by
  induction ops using snoc_induction with
  | h0 => simp [stored]
  | h l x ih =>
    intro y hy hz
    rw [mem_stored_snoc] at hy
    rw [stateOf_snoc]
    unfold Op.onState
    cases hd : x.data with
    | some d =>
      simp only [List.mem_cons]
      rcases hy with hy | ⟨_, rfl⟩
      · exact .inr (ih y hy hz)
      · exact .inl rfl
    | none =>
      simp only [hd, ne_eq, not_true, false_and, or_false] at hy ⊢
      have := ih y hy hz
      split
      · exact this
      · split
        · exact this
        · exact List.mem_filter.2 ⟨this, by simp [hz]⟩

/-- Keys of the state have been stored. -/
theorem stateKeys_stored (ops : List Op) : ∀ y ∈ keysOf (stateOf ops).kv, y ∈ stored ops := by
  induction ops using snoc_induction with
  | h0 => simp [stateOf, stateFrom, keysOf]
  | h l x ih =>
    intro y hy
    rw [stateOf_snoc] at hy
    rw [mem_stored_snoc]
    obtain ⟨v, hv⟩ := mem_keysOf.1 hy
    unfold Op.onState at hv
    cases hd : x.data with
    | some d =>
      rw [hd] at hv
      rcases mem_put.1 hv with e | ⟨h, _⟩
      · simp only [Prod.mk.injEq] at e
        exact .inr ⟨by simp, e.1⟩
      · exact .inl (ih y (mem_keysOf.2 ⟨v, h⟩))
    | none =>
      simp only [hd] at hv
      left
      split at hv
      · exact ih y (mem_keysOf.2 ⟨v, hv⟩)
      · split at hv
        · exact ih y (mem_keysOf.2 ⟨v, (mem_erase.1 hv).1⟩)
        · exact ih y (mem_keysOf.2 ⟨v, hv⟩)

theorem Clean.prefix {a b : List Op} (h : Clean (a ++ b)) : Clean a := by
  intro pre op post e hd
  exact h pre op (post ++ b) (by rw [e]; simp) hd

/-- Without stale removals the state is the map. -/
theorem Clean.state (ops : List Op) : Clean ops → (stateOf ops).kv = mapOf ops ∧ ∀ y, y ∈ (stateOf ops).recs ↔ y ∈ stored ops := by
  induction ops using snoc_induction with
  | h0 => intro _; exact ⟨rfl, fun y => by simp [stateOf, stateFrom, stored]⟩
  | h l x ih =>
    intro hc
    obtain ⟨h1, h2⟩ := ih hc.prefix
    rw [stateOf_snoc, mapOf_snoc]
    have hx := hc l x [] rfl
    unfold Op.onState Op.onMap
    cases hd : x.data with
    | some d =>
      refine ⟨by simp only [h1], fun y => ?_⟩
      rw [mem_stored_snoc]
      simp only [List.mem_cons, h2, hd]
      rw [or_comm]; simp
    | none =>
      have hst : ∀ y, y ∈ stored (l ++ [x]) ↔ y ∈ stored l := fun y => by rw [mem_stored_snoc, hd]; simp
      simp only [hst]
      rcases hx hd with hp | hp
      · have hk := keys_stored l _ hp
        have hne : (stateOf l).kv ≠ [] := by rw [h1]; rintro e; rw [e] at hp; simp [keysOf] at hp
        rw [if_neg (by simp [hne, (h2 _).2 hk]), h1, met_self (mapOf_nodup l) hp]
        exact ⟨rfl, h2⟩
      · rw [if_pos (.inr (fun h => hp ((h2 _).1 h)))]
        exact ⟨by rw [h1, erase_absent (fun h => hp (keys_stored l _ h))], h2⟩

/-- Histories without removals. -/
theorem Clean.of_updates {ops : List Op} (h : ∀ op ∈ ops, op.data ≠ none) : Clean ops := by
  intro pre op post e hd
  exact absurd hd (h op (by rw [e]; simp))

end Sparse
end FuelMerkle
