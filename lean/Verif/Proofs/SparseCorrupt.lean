import Verif.Proofs.SparseSessions
import Verif.Proofs.SparseCanon
import Verif.Spec.SparseCorrupt

/-
Sparse trees on storage of unknown contents: records that no call looks at do not matter.
-/
namespace FuelMerkle
namespace Sparse
open Spec T
variable {E : Type} {H : HashFn} {M : Bytes → Prop} {U : Bytes32 → Prop}

/-- The records of a tree at depth `d`. -/
def T.records (H : HashFn) : Nat → T → List Prim
  | _, .empty => []
  | _, .leaf k v => [(0, 0x00, k, v)]
  | d, .node l r => (256 - d, 0x01, l.hash H, r.hash H) :: (l.records H (d + 1) ++ r.records H (d + 1))

theorem records_eq (H : HashFn) : ∀ {t : T} {d fuel : Nat} {es : Entries Bytes32}, WF d t → fuel + d = 256 →
    (es.map Prod.fst).Nodup → (∀ x, x ∈ t.entries ↔ x ∈ es) → t.records H d = smtRecordsFrom H fuel d es := by
  intro t
  induction t with
  | empty =>
    intro d fuel es _ _ _ h
    have : es = [] := eq_nil_of_mem (fun x hx => by simpa [entries] using (h x).2 hx)
    subst this
    rw [smtRecordsFrom]; rfl
  | leaf k' v' =>
    intro d fuel es _ _ hnd h
    have : es = [(k', v')] := by
      have hall : ∀ x ∈ es, x = (k', v') := fun x hx => by simpa [entries] using (h x).2 hx
      have hmem : (k', v') ∈ es := (h _).1 (by simp [entries])
      match es, hmem, hnd, hall with
      | [x], _, _, hall => rw [hall x (by simp)]
      | x :: y :: ys, _, hnd, hall =>
        rw [hall x (by simp), hall y (by simp)] at hnd
        simp at hnd
    subst this
    rw [smtRecordsFrom]; rfl
  | node l r ihl ihr =>
    intro d fuel es w hf hnd h
    obtain ⟨w1, w2, w3, w4, w5, w6, w7⟩ := w
    obtain ⟨fuel, rfl⟩ : ∃ f, fuel = f + 1 := ⟨fuel - 1, by omega⟩
    have hnd' : ∀ q : Bytes32 × Bytes32 → Bool, ((es.filter q).map Prod.fst).Nodup := fun q =>
      hnd.sublist (List.filter_sublist.map _)
    have hlen : 2 ≤ es.length := by
      have hn1 : (l.entries ++ r.entries).Nodup := List.Nodup.of_map _ (nodup (t := node l r) (d := d) ⟨w1, w2, w3, w4, w5, w6, w7⟩)
      have hsub : l.entries ++ r.entries ⊆ es := fun x hx => (h x).1 (by simpa [entries] using hx)
      have := (List.subperm_of_subset hn1 hsub).length_le
      rw [List.length_append] at this
      omega
    obtain ⟨x, y, ys, hes⟩ : ∃ x y ys, es = x :: y :: ys := by
      match es, hlen with
      | x :: y :: ys, _ => exact ⟨x, y, ys, rfl⟩
    have hl : ∀ z, z ∈ l.entries ↔ z ∈ es.filter fun x => !keyBit x.1 d := by
      intro z
      rw [List.mem_filter, ← h, entries, List.mem_append]
      constructor
      · intro hz; exact ⟨.inl hz, by rw [w4 z hz]; rfl⟩
      · rintro ⟨hz | hz, hb⟩
        · exact hz
        · rw [w5 z hz] at hb; cases hb
    have hr : ∀ z, z ∈ r.entries ↔ z ∈ es.filter fun x => keyBit x.1 d := by
      intro z
      rw [List.mem_filter, ← h, entries, List.mem_append]
      constructor
      · intro hz; exact ⟨.inr hz, by rw [w5 z hz]⟩
      · rintro ⟨hz | hz, hb⟩
        · rw [w4 z hz] at hb; cases hb
        · exact hz
    have l1 := (smt_spec H zero32 (fuel := fuel) w2 (by omega) (hnd' _) hl).1
    have r1 := (smt_spec H zero32 (fuel := fuel) w3 (by omega) (hnd' _) hr).1
    have e2 : smtRecordsFrom H (fuel + 1) d es = (256 - d, 0x01, smt H fuel (d + 1) (es.filter fun x => !keyBit x.1 d),
        smt H fuel (d + 1) (es.filter fun x => keyBit x.1 d)) ::
      (smtRecordsFrom H fuel (d + 1) (es.filter fun x => !keyBit x.1 d) ++
        smtRecordsFrom H fuel (d + 1) (es.filter fun x => keyBit x.1 d)) := by rw [hes, smtRecordsFrom] <;> simp
    rw [e2, ← ihl (fuel := fuel) w2 (by omega) (hnd' _) hl, ← ihr (fuel := fuel) w3 (by omega) (hnd' _) hr, ← l1, ← r1, T.records]

theorem Ent.records {t : T} {kv : Entries Bytes} (h : Ent H t kv) (w : WF 0 t) : t.records H 0 = recordsOf H kv :=
  records_eq H w rfl (by
    show (keysOf (digests H kv)).Nodup
    rw [keysOf_digests]; exact h.nodup) h.mem

/-- Every message of a tree is that of one of its records, and the record is good. -/
theorem msgs_records : ∀ {t : T} {d : Nat}, WF d t → In H M t → ∀ m ∈ t.msgs H,
    ∃ q ∈ t.records H d, recordMsg q = m ∧ Good H M (H m) q := by
  intro t
  induction t with
  | empty => intro d _ _ m hm; simp [msgs] at hm
  | leaf k v =>
    intro d w hin m hm
    simp only [msgs, List.mem_singleton] at hm
    subst hm
    exact ⟨_, List.mem_singleton.2 rfl, rfl, leaf k v, d, w, hin, by simp, rfl, rfl⟩
  | node l r ihl ihr =>
    intro d w hin m hm
    simp only [msgs, List.mem_cons, List.mem_append] at hm
    rcases hm with rfl | hm | hm
    · exact ⟨_, List.mem_cons_self .., rfl, node l r, d, w, hin, by simp, rfl, rfl⟩
    · obtain ⟨q, hq, h⟩ := ihl w.2.1 hin.left m hm
      exact ⟨q, by simp [T.records, hq], h⟩
    · obtain ⟨q, hq, h⟩ := ihr w.2.2.1 hin.right m hm
      exact ⟨q, by simp [T.records, hq], h⟩

/-- A storage that is sound for all messages is valid. -/
theorem Sound.valid {m : Bytes32 → Option Prim} {maps : List (Entries Bytes)} {keys : List Bytes32} (h : Sound H m maps keys)
    (hn : ∀ kv ∈ maps, (keysOf kv).Nodup ∧ Solid H kv) :
    Valid H (fun a => ∃ kv ∈ maps, a ∈ msgsOf H kv) (· ∈ keys) m := by
  intro x q hq
  by_cases hu : x ∈ keys
  · obtain ⟨v, rfl⟩ := h.leaves x hu q hq
    exact .inr (.inl ⟨hu, v, rfl⟩)
  · by_cases hx : ∃ a, (∃ kv ∈ maps, a ∈ msgsOf H kv) ∧ H a = x
    · obtain ⟨a, ⟨kv, hkv, ha⟩, rfl⟩ := hx
      obtain ⟨t, w, he⟩ := exists_tree H kv (hn kv hkv).1
      have hin : In H (fun a => ∃ kv ∈ maps, a ∈ msgsOf H kv) t := he.inn w ⟨fun m hm => ⟨kv, hkv, hm⟩, (hn kv hkv).2⟩
      obtain ⟨q', h1, h2, h3⟩ := msgs_records w hin a (by rw [he.msgs w]; exact ha)
      rw [he.records w] at h1
      rw [← h2] at hq
      exact .inl (h.nodes kv hkv q' h1 q hq ▸ h3)
    · exact .inr (.inr ⟨hu, fun a ha e => hx ⟨a, ha, e⟩⟩)

/-! ### The maps of a sequence of calls -/

theorem Event.attempt_nodup (e : Event E) {kv : Entries Bytes} (h : (keysOf kv).Nodup) : (keysOf (e.attempt kv)).Nodup := by
  obtain ⟨t, w, he⟩ := exists_tree (fun _ => zero32) kv h
  unfold Event.attempt
  split
  · exact nodup_put h _ _
  · split
    · exact (he.del w e.op.key).nodup
    · exact h

theorem Event.effect_nodup (e : Event E) {kv : Entries Bytes} (h : (keysOf kv).Nodup) : (keysOf (e.effect kv)).Nodup := by
  unfold Event.effect
  split
  · exact e.attempt_nodup h
  · exact h

theorem follow_maps (p : Profile) : ∀ (ops : List Op) (kv : Entries Bytes) (st : Tree E), (keysOf kv).Nodup → Solid H kv →
    NoPhantom H ops → ∀ a ∈ (follow p H ops kv st).1,
      a.event.op ∈ ops ∧ (keysOf (a.event.attempt a.before)).Nodup ∧ Solid H (a.event.attempt a.before) := by
  intro ops
  induction ops with
  | nil => intro kv st _ _ _ a ha; simp [follow] at ha
  | cons op ops ih =>
    intro kv st hn hs hp a ha
    have h1 := hp op (by simp)
    rw [follow] at ha
    rcases List.mem_cons.1 ha with rfl | ha
    · exact ⟨by simp, Event.attempt_nodup _ hn, Event.attempt_solid _ hs h1⟩
    · obtain ⟨a1, a2⟩ := ih _ _ (Event.effect_nodup _ hn) (Event.effect_solid _ hs h1) (fun o ho => hp o (by simp [ho])) a ha
      exact ⟨by simp [a1], a2⟩

/-- The tree that `Opens` gives represents the map. -/
theorem opens_rep (env : Env H M U) {kv : Entries Bytes} (hn : (keysOf kv).Nodup) (hf : Fits H M kv) {s : SpStore E}
    (hv : Valid H M U s.map) {st : Tree E} (ho : Opens H kv s st) : ∃ t, Rep H M U st t kv := by
  unfold Opens at ho
  split at ho
  · rename_i h; subst h; subst ho
    exact ⟨.empty, trivial, In.empty, Ent.empty H, rfl, hv⟩
  · rename_i hne
    obtain ⟨s', hl⟩ := ho
    obtain ⟨t, w, he⟩ := exists_tree H kv hn
    have hin := he.inn w hf
    have h0 : t ≠ .empty := fun e => hne ((he.nil w).1 e)
    rw [← he.root w] at hl
    obtain ⟨h1, h2, _⟩ := load_valid env hv w hin h0 hl
    exact ⟨t, w, hin, he, h1, by rw [h2]; exact hv⟩

end Sparse
end FuelMerkle
