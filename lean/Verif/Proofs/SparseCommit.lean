import Verif.Proofs.SparseCanon

/-
Equal roots of sparse trees: equal maps, or an explicit collision.
-/
namespace FuelMerkle
namespace Sparse
open Spec T
variable {H : HashFn}

/-- Every map of digests has a tree. -/
theorem exists_tree32 : ∀ (es : Entries Bytes32), (keysOf es).Nodup → ∃ t, WF 0 t ∧ ∀ x, x ∈ t.entries ↔ x ∈ es := by
  intro es
  induction es with
  | nil => intro _; exact ⟨.empty, trivial, fun x => by simp [entries]⟩
  | cons x xs ih =>
    intro hn
    obtain ⟨k, v⟩ := x
    have hn' : k ∉ keysOf xs ∧ (keysOf xs).Nodup := by simpa [keysOf] using hn
    obtain ⟨t, w, e⟩ := ih hn'.2
    refine ⟨_, (ins_spec (k := k) (v := v) w (Ag.zero k t) (by omega)).1, fun x => ?_⟩
    rw [(ins_spec w (Ag.zero k t) (by omega)).2.1, e, List.mem_cons]
    refine or_congr_right ⟨fun h => h.1, fun h => ⟨h, ?_⟩⟩
    rintro rfl
    exact hn'.1 (mem_keysOf.2 ⟨x.2, h⟩)

/-- A message of one of the lists hashes to zero. -/
theorem hash_commit : ∀ {t t' : T}, t.hash H = t'.hash H →
    t = t' ∨ Collide H (t.msgs H) (t'.msgs H) ∨ ∃ m ∈ t.msgs H ++ t'.msgs H, H m = zero32 := by
  intro t
  induction t with
  | empty =>
    intro t' e
    cases t' with
    | empty => exact .inl rfl
    | leaf k v => exact .inr (.inr ⟨smtLeafMsg k v, by simp [msgs], e.symm⟩)
    | node l r => exact .inr (.inr ⟨smtNodeMsg (l.hash H) (r.hash H), by simp [msgs], e.symm⟩)
  | leaf k v =>
    intro t' e
    cases t' with
    | empty => exact .inr (.inr ⟨smtLeafMsg k v, by simp [msgs], e⟩)
    | leaf k' v' =>
      by_cases hm : smtLeafMsg k v = smtLeafMsg k' v'
      · obtain ⟨e1, e2⟩ := leafMsg_inj hm
        rw [e1, e2]; exact .inl rfl
      · exact .inr (.inl ⟨_, by simp [msgs], _, by simp [msgs], hm, e⟩)
    | node l r => exact .inr (.inl ⟨smtLeafMsg k v, by simp [msgs], smtNodeMsg (l.hash H) (r.hash H), by simp [msgs], leaf_ne_node _ _ _ _, e⟩)
  | node l r ihl ihr =>
    intro t' e
    cases t' with
    | empty => exact .inr (.inr ⟨smtNodeMsg (l.hash H) (r.hash H), by simp [msgs], e⟩)
    | leaf k v =>
      exact .inr (.inl ⟨smtNodeMsg (l.hash H) (r.hash H), by simp [msgs], smtLeafMsg k v, by simp [msgs], (leaf_ne_node _ _ _ _).symm, e⟩)
    | node l' r' =>
      by_cases hm : smtNodeMsg (l.hash H) (r.hash H) = smtNodeMsg (l'.hash H) (r'.hash H)
      · obtain ⟨e1, e2⟩ := nodeMsg_inj hm
        rcases ihl e1 with rfl | ⟨a, ha, b, hb, hab⟩ | ⟨m, hm, hz⟩
        · rcases ihr e2 with rfl | ⟨a, ha, b, hb, hab⟩ | ⟨m, hm, hz⟩
          · exact .inl rfl
          · exact .inr (.inl ⟨a, by simp [msgs, ha], b, by simp [msgs, hb], hab⟩)
          · refine .inr (.inr ⟨m, ?_, hz⟩)
            simp only [msgs, List.mem_append, List.mem_cons] at hm ⊢; tauto
        · exact .inr (.inl ⟨a, by simp [msgs, ha], b, by simp [msgs, hb], hab⟩)
        · refine .inr (.inr ⟨m, ?_, hz⟩)
          simp only [msgs, List.mem_append, List.mem_cons] at hm ⊢; tauto
      · exact .inr (.inl ⟨_, by simp [msgs], _, by simp [msgs], hm, e⟩)

/-- Equal roots: equal maps, or a collision, or a message hashing to zero. -/
theorem smtRoot_commit {es es' : Entries Bytes32} (hn : (keysOf es).Nodup) (hn' : (keysOf es').Nodup) (h : smtRoot H es = smtRoot H es') :
    (∀ x, x ∈ es ↔ x ∈ es') ∨ Collide H (smtMsgs H es) (smtMsgs H es') ∨ ∃ m ∈ smtMsgs H es ++ smtMsgs H es', H m = zero32 := by
  obtain ⟨t, w, e⟩ := exists_tree32 es hn
  obtain ⟨t', w', e'⟩ := exists_tree32 es' hn'
  obtain ⟨a, b, _⟩ := smt_spec H zero32 (fuel := 256) w rfl hn e
  obtain ⟨a', b', _⟩ := smt_spec H zero32 (fuel := 256) w' rfl hn' e'
  have hh : t.hash H = t'.hash H := by rw [a, a']; exact h
  show _ ∨ Collide H (smtMsgsFrom H 256 0 es) (smtMsgsFrom H 256 0 es') ∨ ∃ m ∈ smtMsgsFrom H 256 0 es ++ smtMsgsFrom H 256 0 es', H m = zero32
  rw [← b, ← b']
  rcases hash_commit hh with rfl | h | h
  · exact .inl fun x => by rw [← e, ← e']
  · exact .inr (.inl h)
  · exact .inr (.inr h)

end Sparse
end FuelMerkle
