import Verif.Proofs.SparseCorrupt
import Verif.Spec.SparseContents

/-
What the calls on a sparse tree write and remove, exactly.
-/
namespace FuelMerkle
namespace Sparse
open Spec T
variable {E : Type} {H : HashFn} {M : Bytes → Prop} {U : Bytes32 → Prop}

theorem Env.restrict {M' : Bytes → Prop} (h : Env H M U) (hm : ∀ a, M' a → M a) : Env H M' U :=
  ⟨fun a b ha hb => h.inj a b (hm a ha) (hm b hb), fun a ha => h.nz a (hm a ha), fun a k ha => h.sep a k (hm a ha)⟩

/-- The messages of one tree. -/
def Of (H : HashFn) (t : T) (m : Bytes) : Prop := m ∈ t.msgs H

theorem In.own {t : T} (h : In H M t) : In H (Of H t) t := ⟨fun _ h => h, h.2⟩

/-- `delete_with_path_set` removes records of the path and writes records of the new tree only. -/
theorem deleteFound_writes (p : Profile) (env : Env H M U) {k : Bytes32} {leaf : Node} (hk : HasKey leaf k) {t : T}
    (w : WF 0 t) (hin : In H M t) (hin' : In H M (del k 0 t)) (st : Tree E) (hroot : st.rootNode = toNode H 0 t)
    (hv : Valid H M U st.storage.map) :
    DGrow H (Of H (del k 0 t)) k t st ((pathSet p leaf >>= fun x => deleteWithPathSet p H leaf x.1 x.2) st).2 ∧
      (((pathSet p leaf >>= fun x => deleteWithPathSet p H leaf x.1 x.2) st).1 = .ok () → ∀ x ∈ (pathNodes H k 0 t).map (·.hash H),
        ((pathSet p leaf >>= fun x => deleteWithPathSet p H leaf x.1 x.2) st).2.storage.map x = none ∨
        ∃ q, ((pathSet p leaf >>= fun x => deleteWithPathSet p H leaf x.1 x.2) st).2.storage.map x = some q ∧ Good H (Of H (del k 0 t)) x q) := by
  obtain ⟨st1, s1, h1⟩ := pathSet_spec p env hk st hroot w hin hv
  rcases h1 with h1 | ⟨⟨e, h1⟩, r1⟩
  · rw [Exec.bind_ok h1]
    simp only []
    rw [deleteWithPathSet_eq p hk]
    obtain ⟨st2, s2, h2⟩ := removeAll_spec (H := H) (pathNodes H k 0 t) st1
    have g2 : DGrow H (Of H (del k 0 t)) k t st st2 := ⟨s2.sched.trans s1.sched, fun x => by
      rcases s2.map x with e | e
      · exact .inl (by rw [e, s1.map])
      · exact .inr (.inr e)⟩
    rcases h2 with ⟨h2, z2⟩ | ⟨⟨e, h2⟩, r2⟩
    · rw [Exec.bind_ok h2]
      obtain ⟨st3, g3, h3⟩ := (rebuild_spec (E := E) p (env.restrict hin'.1) w (In.own hin')).2 st2
      have g : DGrow H (Of H (del k 0 t)) k t st st3 := ⟨g3.sched.trans g2.sched, fun x => by
        rcases g3.map x with e | e
        · rw [e]; exact g2.map x
        · exact .inr (.inl e)⟩
      rcases h3 with ⟨h3, i3⟩ | ⟨⟨e, h3⟩, r3⟩
      · rw [Exec.bind_ok h3, setRootNode_spec p env (del_spec w).1 hin']
        refine ⟨⟨g.sched, g.map⟩, fun _ x hx => ?_⟩
        show st3.storage.map x = none ∨ ∃ q, st3.storage.map x = some q ∧ _
        rcases g3.map x with e | e
        · exact .inl (by rw [e, z2 _ hx])
        · exact .inr e
      · rw [Exec.bind_error h3]
        exact ⟨g, fun h => by cases h⟩
    · rw [Exec.bind_error h2]
      exact ⟨g2, fun h => by cases h⟩
  · rw [Exec.bind_error h1]
    exact ⟨⟨s1.sched, fun x => .inl (by rw [s1.map])⟩, fun h => by cases h⟩

theorem delete_writes (p : Profile) (env : Env H M U) {x k : Bytes32} {q : Prim} {leaf : Node} {t : T}
    (w : WF 0 t) (hin : In H M t) (h0 : t ≠ .empty) (hin' : In H M (del k 0 t)) (st : Tree E) (hroot : st.rootNode = toNode H 0 t)
    (hv : Valid H M U st.storage.map) (hx : st.storage.map x = some q) (hq : Node.ofPrim q = .ok leaf) (hk : HasKey leaf k) :
    DGrow H (Of H (del k 0 t)) k t st (delete p H x st).2 ∧
      ((delete p H x st).1 = .ok () → ∀ y ∈ (pathNodes H k 0 t).map (·.hash H), (delete p H x st).2.storage.map y = none ∨
        ∃ q, (delete p H x st).2.storage.map y = some q ∧ Good H (Of H (del k 0 t)) y q) := by
  unfold delete
  rw [Exec.get_bind, if_neg (by rw [root_toNode env w hin hroot]; exact hin.hash_ne env h0)]
  obtain ⟨st1, s1, h1⟩ := get_any x st
  rcases h1 with h1 | ⟨⟨e, h1⟩, r1⟩
  · rw [Exec.bind_ok h1, hx]
    simp only [hq]
    obtain ⟨g, h⟩ := deleteFound_writes p env hk w hin hin' st1 (by rw [s1.root, hroot]) (by rw [s1.map]; exact hv)
    exact ⟨⟨g.sched.trans s1.sched, fun y => by rw [← s1.map]; exact g.map y⟩, h⟩
  · rw [Exec.bind_error h1]
    exact ⟨⟨s1.sched, fun y => .inl (by rw [s1.map])⟩, fun h => by cases h⟩

/-- `update_with_path_set` writes records of the new tree only. -/
theorem updateWithPathSet_writes (p : Profile) (env : Env H M U) {k v : Bytes32} {t : T} (w : WF 0 t)
    (hin' : In H M (ins k v 0 t)) (st : Tree E) (x : Bytes32) :
    (updateWithPathSet p H (toNode H 0 (leaf k v)) (pathNodes H k 0 t) (sideNodes H k 0 t) st).2.storage.map x = st.storage.map x ∨
      ∃ q, (updateWithPathSet p H (toNode H 0 (leaf k v)) (pathNodes H k 0 t) (sideNodes H k 0 t) st).2.storage.map x = some q ∧ Good H M x q := by
  have is := ins_spec (k := k) (v := v) w (Ag.zero k t) (by omega)
  have hl : In H M (leaf k v) := hin'.leaf_of_mem ((is.2.1 (k, v)).2 (.inl rfl))
  obtain ⟨h1, h2, h3, h4, h5, ⟨rest, h6⟩, h7, h8⟩ := end_spec (H := H) (M := M) k w (Ag.zero k t) (by omega)
  have full := (updateEnd_spec (E := E) p env h1 h3 h4 (ins_end_in hin') hl (n := (sideNodes H k 0 t).length) (by omega) st).bind
    (f := fun c => mergeNodes p H k.val c (sideNodes H k 0 t)) (d' := 0) (t' := ins k v 0 t) (P' := False) fun st' g hst => ⟨_, merge_sides p env w (Ag.zero k t) (by omega) hin' st', False.elim⟩
  obtain ⟨st1, g, hf⟩ := full
  rw [updateWithPathSet_unfold p h6]
  rcases hf with ⟨hf, _⟩ | ⟨⟨e, hf⟩, _⟩
  · rw [Exec.bind_ok hf, setRootNode_spec p env is.1 hin']
    exact g.map x
  · rw [Exec.bind_error hf]
    exact g.map x

theorem update_writes (p : Profile) (env : Env H M U) {k : Bytes32} {data : Bytes} (hdata : data.isEmpty = false) (hu : U k) {t : T}
    (w : WF 0 t) (hin : In H M t) (hin' : In H M (ins k (H data) 0 t)) (st : Tree E) (hroot : st.rootNode = toNode H 0 t)
    (hv : Valid H M U st.storage.map) (x : Bytes32) :
    (update p H k data st).2.storage.map x = st.storage.map x ∨
      (∃ q, (update p H k data st).2.storage.map x = some q ∧ Good H (Of H (ins k (H data) 0 t)) x q) ∨
      (x = k ∧ (update p H k data st).2.storage.map x = some (leafPrim k (H data))) := by
  have is := ins_spec (k := k) (v := H data) w (Ag.zero k t) (by omega)
  have env' := env.restrict hin'.1
  have hl : In H (Of H (ins k (H data) 0 t)) (leaf k (H data)) := (In.own hin').leaf_of_mem ((is.2.1 (k, H data)).2 (.inl rfl))
  have hg : Good H (Of H (ins k (H data) 0 t)) ((leaf k (H data)).hash H) (toNode H 0 (leaf k (H data))).toPrim :=
    ⟨leaf k (H data), 0, trivial, hl, by simp, rfl, rfl⟩
  have hg' : Good H M ((leaf k (H data)).hash H) (toNode H 0 (leaf k (H data))).toPrim :=
    ⟨leaf k (H data), 0, trivial, hin'.leaf_of_mem ((is.2.1 (k, H data)).2 (.inl rfl)), by simp, rfl, rfl⟩
  have hleaf : Node.createLeaf H k data = toNode H 0 (leaf k (H data)) := rfl
  have hprim : (toNode H 0 (leaf k (H data))).toPrim = leafPrim k (H data) := rfl
  unfold update
  rw [hdata]
  simp only [Bool.false_eq_true, if_false]
  rw [hleaf, hash_toNode env' (t := leaf k (H data)) (d := 0) trivial hl]
  obtain ⟨st1, g1, h1⟩ := insert_good hg st
  have hv1 : Valid H M U st1.storage.map := by
    intro y q hq
    rcases g1.map y with e | ⟨q', e, hgd⟩
    · exact hv y q (by rw [← e, hq])
    · rw [hq] at e; cases e
      obtain ⟨t', d', w', i', z', e1, e2⟩ := hgd
      exact .inl ⟨t', d', w', ⟨fun m hm => hin'.1 m (i'.1 m hm), i'.2⟩, z', e1, e2⟩
  rcases h1 with ⟨h1, m1⟩ | ⟨⟨e, h1⟩, r1⟩
  · rw [Exec.bind_ok h1, leafKey_leaf, Exec.liftRes_ok_bind, hprim]
    obtain ⟨st2, rt2, sc2, h2⟩ := insert_any k (leafPrim k (H data)) st1
    have hug : ∀ {s : Tree E}, (s.storage.map = st1.storage.map ∨ s.storage.map = Store.upd st1.storage.map k (some (leafPrim k (H data)))) →
        s.storage.map x = st.storage.map x ∨ (∃ q, s.storage.map x = some q ∧ Good H (Of H (ins k (H data) 0 t)) x q) ∨
          (x = k ∧ s.storage.map x = some (leafPrim k (H data))) := by
      intro s hm
      rcases hm with hm | hm
      · rw [hm]; exact (g1.map x).imp id .inl
      · rw [hm]
        by_cases hx : x = k
        · exact .inr (.inr ⟨hx, by rw [hx]; simp⟩)
        · rw [Store.upd_of_ne _ _ hx]; exact (g1.map x).imp id .inl
    rcases h2 with ⟨h2, m2⟩ | ⟨⟨e, h2⟩, r2, m2⟩
    · rw [Exec.bind_ok h2, Exec.get_bind, rt2, g1.root, hroot]
      by_cases ht : t = .empty
      · subst ht
        rw [if_pos ((isPlaceholder_toNode env w hin).2 rfl)]
        rw [setRootNode_spec p env' (t := leaf k (H data)) trivial hl]
        exact hug (.inr m2)
      · rw [if_neg (fun h => ht ((isPlaceholder_toNode env w hin).1 h))]
        have hv2 : Valid H M U st2.storage.map := by
          intro y q hq
          rw [m2] at hq
          by_cases hy : y = k
          · subst hy
            simp only [Store.upd, if_true, Option.some.injEq] at hq
            subst hq
            exact .inr (.inl ⟨hu, _, rfl⟩)
          · rw [Store.upd_of_ne _ _ hy] at hq
            exact hv1 y q hq
        obtain ⟨st3, s3, h3⟩ := pathSet_spec p env (HasKey.leaf H 0 k (H data)) st2 (by rw [rt2, g1.root, hroot]) w hin hv2
        rcases h3 with h3 | ⟨⟨e, h3⟩, r3⟩
        · rw [Exec.bind_ok h3]
          rcases updateWithPathSet_writes p env' w (In.own hin') st3 x with e | e
          · rw [e]; exact hug (.inr (s3.map.trans m2))
          · exact .inr (.inl e)
        · rw [Exec.bind_error h3]
          exact hug (.inr (s3.map.trans m2))
    · rw [Exec.bind_error h2]
      exact hug m2
  · rw [Exec.bind_error h1]
    exact (g1.map x).imp id .inl

/-! ### Records of a tree -/

theorem records_good : ∀ {t : T} {d : Nat}, WF d t → In H M t → ∀ q ∈ t.records H d, Good H M (H (recordMsg q)) q := by
  intro t
  induction t with
  | empty => intro d _ _ q hq; simp [T.records] at hq
  | leaf k v =>
    intro d w hin q hq
    simp only [T.records, List.mem_singleton] at hq
    subst hq
    exact ⟨leaf k v, d, w, hin, by simp, rfl, rfl⟩
  | node l r ihl ihr =>
    intro d w hin q hq
    simp only [T.records, List.mem_cons, List.mem_append] at hq
    rcases hq with rfl | hq | hq
    · exact ⟨node l r, d, w, hin, by simp, rfl, rfl⟩
    · exact ihl w.2.1 hin.left q hq
    · exact ihr w.2.2.1 hin.right q hq

theorem Good.eq (env : Env H M U) {x : Bytes32} {q q' : Prim} (h : Good H M x q) (h' : Good H M x q') : q = q' := by
  obtain ⟨t, d, w, hin, _, hx, rfl⟩ := h'
  exact h.unique env w hin hx

theorem Good.mono {M' : Bytes → Prop} (hm : ∀ a, M' a → M a) {x : Bytes32} {q : Prim} (h : Good H M' x q) : Good H M x q := by
  obtain ⟨t, d, w, hin, h0, hx, e⟩ := h
  exact ⟨t, d, w, ⟨fun m h => hm m (hin.1 m h), hin.2⟩, h0, hx, e⟩

/-- A good record over the messages of one tree is a record of that tree. -/
theorem Good.of {t : T} {d : Nat} (env : Env H (Of H t) U) (w : WF d t) (hin : In H (Of H t) t) {x : Bytes32} {q : Prim}
    (h : Good H (Of H t) x q) : q ∈ t.records H d ∧ x = H (recordMsg q) := by
  have h' := h
  obtain ⟨t', d', w', hin', h0, rfl, rfl⟩ := h'
  obtain ⟨m, hm, e⟩ := hin'.hash_msg h0
  obtain ⟨q', h1, h2, h3⟩ := msgs_records w hin m hm
  rw [e] at h
  have := h.eq env h3
  rw [this]
  exact ⟨h1, by rw [e, h2]⟩

theorem recordAt_mem {qs : List Prim} {x : Bytes32} {q : Prim} (h : recordAt H qs x = some q) : q ∈ qs ∧ H (recordMsg q) = x := by
  unfold recordAt at h
  refine ⟨List.mem_of_find?_eq_some h, ?_⟩
  have := List.find?_some h
  exact of_decide_eq_true this

theorem recordAt_some (env : Env H M U) {t : T} {d : Nat} (w : WF d t) (hin : In H M t) {x : Bytes32} {q : Prim} :
    recordAt H (t.records H d) x = some q ↔ q ∈ t.records H d ∧ x = H (recordMsg q) := by
  constructor
  · intro h
    exact ⟨(recordAt_mem h).1, (recordAt_mem h).2.symm⟩
  · rintro ⟨hq, rfl⟩
    cases hf : recordAt H (t.records H d) (H (recordMsg q)) with
    | none =>
      have := List.find?_eq_none.1 hf q hq
      simp at this
    | some q' =>
      obtain ⟨h1, h2⟩ := recordAt_mem hf
      have g1 := records_good w hin q' h1
      rw [h2] at g1
      rw [g1.eq env (records_good w hin q hq)]

theorem recordAt_none {qs : List Prim} {x : Bytes32} : recordAt H qs x = none ↔ ∀ q ∈ qs, x ≠ H (recordMsg q) := by
  unfold recordAt
  rw [List.find?_eq_none]
  simp only [decide_eq_true_eq]
  exact ⟨fun h q hq e => h q hq e.symm, fun h q hq e => h q hq e.symm⟩

theorem Stored.record {m : Bytes32 → Option Prim} : ∀ {t : T} {d : Nat}, Stored H m d t → ∀ q ∈ t.records H d, m (H (recordMsg q)) = some q := by
  intro t
  induction t with
  | empty => intro d _ q hq; simp [T.records] at hq
  | leaf k v =>
    intro d h q hq
    simp only [T.records, List.mem_singleton] at hq
    subst hq
    exact h
  | node l r ihl ihr =>
    intro d h q hq
    simp only [T.records, List.mem_cons, List.mem_append] at hq
    rcases hq with rfl | hq | hq
    · exact h.1
    · exact ihl h.2.1 q hq
    · exact ihr h.2.2 q hq

theorem Stored.of_records {m : Bytes32 → Option Prim} : ∀ {t : T} {d : Nat}, (∀ q ∈ t.records H d, m (H (recordMsg q)) = some q) → Stored H m d t := by
  intro t
  induction t with
  | empty => intro d _; trivial
  | leaf k v => intro d h; exact h _ (List.mem_singleton.2 rfl)
  | node l r ihl ihr =>
    intro d h
    exact ⟨h _ (List.mem_cons_self ..), ihl fun q hq => h q (by simp [T.records, hq]), ihr fun q hq => h q (by simp [T.records, hq])⟩

theorem records_mk {l r : T} {d : Nat} {q : Prim} (h : q ∈ l.records H (d + 1) ∨ q ∈ r.records H (d + 1)) : q ∈ (mk l r).records H d := by
  rcases mk_cases l r with ⟨e, _⟩ | ⟨e1, e2, e3⟩ | ⟨e1, e2, e3⟩
  · rw [e]; simp only [T.records, List.mem_cons, List.mem_append]; exact .inr h
  · rw [e2]; subst e1
    cases r with
    | empty => simpa [T.records] using h
    | leaf k v => simpa [T.records] using h
    | node a b => exact absurd rfl (e3 a b)
  · rw [e2]; subst e1
    cases l with
    | empty => simpa [T.records] using h
    | leaf k v => simpa [T.records] using h
    | node a b => exact absurd rfl (e3 a b)

theorem records_mkOn {b : Bool} {a s : T} {d : Nat} {q : Prim} (h : q ∈ a.records H (d + 1) ∨ q ∈ s.records H (d + 1)) : q ∈ (mkOn b a s).records H d := by
  cases b
  · exact records_mk h
  · exact records_mk h.symm

/-- A record of a tree is on the path of `k`, or still there after removing what is met on the path. -/
theorem record_path (k : Bytes32) : ∀ {t : T} {d : Nat}, ∀ q ∈ t.records H d,
    (∃ t' ∈ pathTrees k d t, H (recordMsg q) = t'.hash H) ∨ q ∈ (del k d t).records H d := by
  intro t
  induction t with
  | empty => intro d q hq; simp [T.records] at hq
  | leaf k' v =>
    intro d q hq
    simp only [T.records, List.mem_singleton] at hq
    subst hq
    exact .inl ⟨leaf k' v, by simp [pathTrees], rfl⟩
  | node l r ihl ihr =>
    intro d q hq
    simp only [T.records, List.mem_cons, List.mem_append] at hq
    rw [pathTrees_node, del_node]
    rcases hq with rfl | hq
    · exact .inl ⟨node l r, by simp, rfl⟩
    · revert ihl ihr
      cases keyBit k d
      · intro ihl ihr
        simp only [Bool.false_eq_true, if_false]
        rcases hq with hq | hq
        · rcases ihl q hq with ⟨t', h1, h2⟩ | h
          · exact .inl ⟨t', by simp [h1], h2⟩
          · exact .inr (records_mkOn (.inl h))
        · exact .inr (records_mkOn (.inr hq))
      · intro ihl ihr
        simp only [if_true]
        rcases hq with hq | hq
        · exact .inr (records_mkOn (.inr hq))
        · rcases ihr q hq with ⟨t', h1, h2⟩ | h
          · exact .inl ⟨t', by simp [h1], h2⟩
          · exact .inr (records_mkOn (.inl h))

theorem path_record (k : Bytes32) : ∀ {t : T} {d : Nat}, ∀ t' ∈ pathTrees k d t, t' ≠ .empty →
    ∃ q ∈ t.records H d, t'.hash H = H (recordMsg q) := by
  intro t
  induction t with
  | empty => intro d t' h h0; simp only [pathTrees, List.mem_singleton] at h; exact absurd h h0
  | leaf k' v =>
    intro d t' h h0
    simp only [pathTrees, List.mem_singleton] at h
    subst h
    exact ⟨_, List.mem_singleton.2 rfl, rfl⟩
  | node l r ihl ihr =>
    intro d t' h h0
    rw [pathTrees_node, List.mem_append, List.mem_singleton] at h
    rcases h with h | rfl
    · revert h
      cases keyBit k d
      · intro h
        obtain ⟨q, h1, h2⟩ := ihl t' h h0
        exact ⟨q, by simp [T.records, h1], h2⟩
      · intro h
        obtain ⟨q, h1, h2⟩ := ihr t' h h0
        exact ⟨q, by simp [T.records, h1], h2⟩
    · exact ⟨_, List.mem_cons_self .., rfl⟩

/-! ### One call -/

theorem onImage_kv (op : Op) (kv : Entries Bytes) (m : Bytes32 → Option Prim) (out : Except (Fail (Error E)) Unit) :
    (op.onImage H ⟨kv, m⟩).kv = (⟨op, (m op.key).isSome, out⟩ : Event E).attempt kv := by
  unfold Op.onImage Event.attempt
  cases hd : op.data with
  | some d => rfl
  | none =>
    simp only
    cases hm : m op.key with
    | none => simp
    | some q =>
      by_cases hk : kv = []
      · subst hk
        simp only [true_or, if_true, Option.isSome_some]
        rfl
      · simp only [hk, reduceCtorEq, or_self, if_false, Option.isSome_some, if_true]
        cases met op.key kv <;> rfl

/-- The contents after a call, whatever the storage does: under every key there is what was there
before, or what is there after a call that succeeds, or a removal took away a record of the old tree. -/
structure Between (H : HashFn) (op : Op) (s : Image) (m : Bytes32 → Option Prim) : Prop where
  at_ : ∀ x, m x = s.held x ∨ m x = (op.onImage H s).held x ∨
    (op.data = none ∧ (∃ q ∈ recordsOf H s.kv, x = H (recordMsg q)) ∧ m x = none)

theorem image_update (p : Profile) (env : Env H M U) {k : Bytes32} (hu : U k) {d : Bytes} (hd0 : d ≠ []) {st : Tree E} {t : T} {kv : Entries Bytes}
    (h : Rep H M U st t kv) (hf : Fits H M (Entries.put kv k d)) :
    Between H (.update k d) ⟨kv, st.storage.map⟩ (update p H k d st).2.storage.map ∧
      (Stored H st.storage.map 0 t → (update p H k d st).1 = .ok () →
        (update p H k d st).2.storage.map = ((Op.update k d).onImage H ⟨kv, st.storage.map⟩).held) := by
  have hdata : (Op.update k d).data = some d := by simp [Op.data, hd0]
  have hemp : d.isEmpty = false := by cases d <;> simp_all
  have wi := (ins_spec (k := k) (v := H d) h.wf (Ag.zero k t) (by omega)).1
  have ei := h.ent.put h.wf k d
  have ini := ei.inn wi hf
  have env' := env.restrict ini.1
  have hwr := update_writes p env hemp hu h.wf h.inn ini st h.root h.valid
  have hheld : ∀ x, ((Op.update k d).onImage H ⟨kv, st.storage.map⟩).held x = if x = k then some (leafPrim k (H d)) else
      (recordAt H ((ins k (H d) 0 t).records H 0) x).or (st.storage.map x) := by
    intro x
    rw [ei.records wi]
    unfold Op.onImage
    rw [hdata]
    rfl
  have hgood : ∀ x q, Good H (Of H (ins k (H d) 0 t)) x q → x ≠ k ∧ recordAt H ((ins k (H d) 0 t).records H 0) x = some q := by
    intro x q hg
    refine ⟨fun e => hg.not_user env' (e ▸ hu), (recordAt_some env' wi (In.own ini)).2 (hg.of env' wi (In.own ini))⟩
  refine ⟨⟨fun x => ?_⟩, fun hs hok => ?_⟩
  · rcases hwr x with e | ⟨q, e, hg⟩ | ⟨hx, e⟩
    · exact .inl e
    · obtain ⟨h1, h2⟩ := hgood x q hg
      exact .inr (.inl (by rw [hheld, if_neg h1, h2, e]; rfl))
    · exact .inr (.inl (by rw [hheld, if_pos hx, e]))
  · obtain ⟨st', g, hup⟩ := update_spec p env hemp hu h.wf h.inn ini st h.root h.valid
    rcases hup with ⟨hup, _, hrec, hst⟩ | ⟨⟨e, hup⟩, _⟩
    · funext x
      rw [hheld]
      have e' : (update p H k d st).2 = st' := by rw [hup]
      by_cases hx : x = k
      · rw [if_pos hx, hx, e', hrec]
      · rw [if_neg hx]
        cases hr : recordAt H ((ins k (H d) 0 t).records H 0) x with
        | some q =>
          obtain ⟨h1, h2⟩ := (recordAt_some env wi ini).1 hr
          rw [e', h2, (hst hs).record q h1]
          rfl
        | none =>
          rcases hwr x with e | ⟨q, e, hg⟩ | ⟨hx', _⟩
          · exact e
          · rw [(hgood x q hg).2] at hr; cases hr
          · exact absurd hx' hx
    · rw [hup] at hok; cases hok

theorem image_delete (p : Profile) (env : Env H M U) {op : Op} (hop : op.data = none) (hu : U op.key) {st : Tree E} {t : T} {kv : Entries Bytes}
    (h : Rep H M U st t kv) (hs : Stored H st.storage.map 0 t) (hf : Fits H M (op.onImage H ⟨kv, st.storage.map⟩).kv) :
    Between H op ⟨kv, st.storage.map⟩ (delete p H op.key st).2.storage.map ∧
      ((delete p H op.key st).1 = .ok () →
        (delete p H op.key st).2.storage.map = (op.onImage H ⟨kv, st.storage.map⟩).held) := by
  by_cases h0 : t = .empty ∨ st.storage.map op.key = none
  · obtain ⟨st', s, hd⟩ := delete_nothing p env h.wf h.inn st h.root h0
    have e : (delete p H op.key st).2.storage.map = st.storage.map := by
      rcases hd with hd | ⟨⟨e, hd⟩, _⟩
      · rw [hd]; exact s.map
      · rw [hd]; exact s.map
    have hi : op.onImage H ⟨kv, st.storage.map⟩ = ⟨kv, st.storage.map⟩ := by
      unfold Op.onImage
      simp only [hop]
      rw [if_pos (h0.imp (h.ent.nil h.wf).1 id)]
    refine ⟨⟨fun x => .inl (by rw [e])⟩, fun _ => by rw [hi, e]⟩
  · simp only [not_or] at h0
    obtain ⟨h0, hne⟩ := h0
    obtain ⟨q, hq⟩ := Option.ne_none_iff_exists'.1 hne
    obtain ⟨v, rfl⟩ := h.valid.user_rec env hu hq
    have hkv : kv ≠ [] := fun e => h0 ((h.ent.nil h.wf).2 e)
    have hcond : ¬ (kv = [] ∨ st.storage.map op.key = none) := by simp [hkv, hq]
    have wd := (del_spec (k := op.key) h.wf).1
    have ed := h.ent.del h.wf op.key
    have hmet := h.ent.met h.wf op.key
    have hkv' : (op.onImage H ⟨kv, st.storage.map⟩).kv = eraseMet kv op.key := by
      unfold Op.onImage eraseMet
      simp only [hop, if_neg hcond]
      cases Spec.met op.key kv <;> rfl
    rw [hkv'] at hf
    have ind := ed.inn wd hf
    have env' := env.restrict ind.1
    obtain ⟨g, hwr⟩ := delete_writes p env h.wf h.inn h0 ind st h.root h.valid hq (ofPrim_toPrim _) (HasKey.leaf (fun _ => zeroSum) 0 op.key v)
    rw [pathNodes_hash env op.key h.wf h.inn] at hwr
    have gm := g.map
    rw [pathNodes_hash env op.key h.wf h.inn] at gm
    have hgood : ∀ x q, Good H (Of H (del op.key 0 t)) x q → recordAt H ((del op.key 0 t).records H 0) x = some q := fun x q hg =>
      (recordAt_some env' wd (In.own ind)).2 (hg.of env' wd (In.own ind))
    have hpath : ∀ x, x ∈ (pathTrees op.key 0 t).map (T.hash H) → (x = zeroSum ∧ victim op.key 0 t = none) ∨ ∃ q ∈ t.records H 0, x = H (recordMsg q) := by
      intro x hx
      obtain ⟨t', h1, rfl⟩ := List.mem_map.1 hx
      by_cases h2 : t' = .empty
      · subst h2; exact .inl ⟨rfl, (empty_on_path op.key).1 h1⟩
      · obtain ⟨q, h3, h4⟩ := path_record op.key t' h1 h2
        exact .inr ⟨q, h3, h4⟩
    have hnew : (delete p H op.key st).1 = .ok () → Stored H (delete p H op.key st).2.storage.map 0 (del op.key 0 t) := by
      intro hok
      obtain ⟨st', _, hd⟩ := delete_leaf p env h.wf h.inn h0 ind st h.root h.valid hq (ofPrim_toPrim _)
        (HasKey.leaf (fun _ => zeroSum) 0 op.key v)
      rcases hd with ⟨hd, _, _, hst⟩ | ⟨⟨e, hd⟩, _⟩
      · rw [hd]; exact hst hs
      · rw [hd] at hok; cases hok
    cases hm : Spec.met op.key kv with
    | some k' =>
      rw [hm] at hmet
      have hheld : ∀ x, (op.onImage H ⟨kv, st.storage.map⟩).held x = (recordAt H ((del op.key 0 t).records H 0) x).or
          (if (recordAt H (t.records H 0) x).isSome then none else st.storage.map x) := by
        intro x
        rw [ed.records wd, h.ent.records h.wf]
        unfold Op.onImage eraseMet
        simp only [hop, if_neg hcond, hm]
        rfl
      refine ⟨⟨fun x => ?_⟩, fun hok => funext fun x => ?_⟩
      · rcases gm x with e | ⟨q, e, hg⟩ | ⟨hx, e⟩
        · exact .inl e
        · exact .inr (.inl (by rw [hheld, hgood x q hg, e]; rfl))
        · rcases hpath x hx with ⟨_, hv⟩ | ⟨q, h1, h2⟩
          · rw [hmet] at hv; cases hv
          · exact .inr (.inr ⟨hop, ⟨q, by rw [← h.ent.records h.wf]; exact h1, h2⟩, e⟩)
      · rw [hheld]
        cases hr : recordAt H ((del op.key 0 t).records H 0) x with
        | some q =>
          obtain ⟨h1, h2⟩ := recordAt_mem hr
          rw [← h2, (hnew hok).record q h1]; rfl
        | none =>
          rw [Option.none_or]
          cases ho : recordAt H (t.records H 0) x with
          | some q =>
            simp only [Option.isSome_some, if_true]
            obtain ⟨h1, h2⟩ := recordAt_mem ho
            rcases record_path op.key q h1 with ⟨t', h3, h4⟩ | h3
            · rcases hwr hok x (List.mem_map.2 ⟨t', h3, by rw [← h4, h2]⟩) with e | ⟨q', e, hg⟩
              · exact e
              · rw [hgood x q' hg] at hr; cases hr
            · exact absurd h2.symm (recordAt_none.1 hr q h3)
          | none =>
            simp only [Option.isSome_none, Bool.false_eq_true, if_false]
            rcases gm x with e | ⟨q, e, hg⟩ | ⟨hx, e⟩
            · exact e
            · rw [hgood x q hg] at hr; cases hr
            · rcases hpath x hx with ⟨_, hv⟩ | ⟨q, h1, h2⟩
              · rw [hmet] at hv; cases hv
              · exact absurd h2 (recordAt_none.1 ho q h1)
    | none =>
      rw [hm] at hmet
      have hdel : del op.key 0 t = t := del_none h.wf hmet
      have hheld : ∀ x, (op.onImage H ⟨kv, st.storage.map⟩).held x = if x = zeroSum then none else st.storage.map x := by
        intro x
        unfold Op.onImage
        simp only [hop, if_neg hcond, hm]
        rfl
      have hold : ∀ x q, Good H (Of H (del op.key 0 t)) x q → x ≠ zeroSum ∧ st.storage.map x = some q := by
        intro x q hg
        refine ⟨hg.ne_zero env', ?_⟩
        obtain ⟨h1, h2⟩ := hg.of env' wd (In.own ind)
        rw [h2]
        exact hs.record q (by rw [hdel] at h1; exact h1)
      refine ⟨⟨fun x => ?_⟩, fun hok => funext fun x => ?_⟩
      · rcases gm x with e | ⟨q, e, hg⟩ | ⟨hx, e⟩
        · exact .inl e
        · exact .inl (by rw [e]; exact (hold x q hg).2.symm)
        · rcases hpath x hx with ⟨hz, _⟩ | ⟨q, h1, h2⟩
          · exact .inr (.inl (by rw [hheld, if_pos hz, e]))
          · exact .inr (.inr ⟨hop, ⟨q, by rw [← h.ent.records h.wf]; exact h1, h2⟩, e⟩)
      · rw [hheld]
        by_cases hz : x = zeroSum
        · rw [if_pos hz]
          have hp : x ∈ (pathTrees op.key 0 t).map (T.hash H) := List.mem_map.2 ⟨.empty, (empty_on_path op.key).2 hmet, hz.symm⟩
          rcases hwr hok x hp with e | ⟨q, _, hg⟩
          · exact e
          · exact absurd hz (hold x q hg).1
        · rw [if_neg hz]
          rcases gm x with e | ⟨q, e, hg⟩ | ⟨hx, e⟩
          · exact e
          · rw [e]; exact (hold x q hg).2.symm
          · rcases hpath x hx with ⟨hz', _⟩ | ⟨q, h1, h2⟩
            · exact absurd hz' hz
            · have := (hnew hok).record q (by rw [hdel]; exact h1)
              rw [← h2, e] at this; cases this

/-- What one call does to the map and the contents. -/
theorem image_step (p : Profile) (env : Env H M U) (op : Op) (hu : U op.key) {st : Tree E} {t : T} {kv : Entries Bytes}
    (h : Rep H M U st t kv) (hs : Stored H st.storage.map 0 t) (hf : Fits H M (op.onImage H ⟨kv, st.storage.map⟩).kv) :
    Between H op ⟨kv, st.storage.map⟩ (op.run p H st).2.storage.map ∧
    (st.storage.Reliable → (op.run p H st).1 = .ok ()) ∧ (∀ q, (op.run p H st).1 ≠ .error (.panic q)) ∧
    (op.run p H st).2.storage.sched = st.storage.sched ∧
    ((op.run p H st).1 = .ok () → (op.run p H st).2.storage.map = (op.onImage H ⟨kv, st.storage.map⟩).held ∧
      ∃ t', Rep H M U (op.run p H st).2 t' (op.onImage H ⟨kv, st.storage.map⟩).kv ∧ Stored H (op.run p H st).2.storage.map 0 t') := by
  have hcont : Between H op ⟨kv, st.storage.map⟩ (op.run p H st).2.storage.map ∧
      ((op.run p H st).1 = .ok () → (op.run p H st).2.storage.map = (op.onImage H ⟨kv, st.storage.map⟩).held) := by
    cases op with
    | delete k =>
      exact image_delete p env (op := .delete k) rfl hu h hs hf
    | update k d =>
      by_cases hd : d = []
      · subst hd
        exact image_delete p env (op := .update k []) rfl hu h hs hf
      · have hdata : (Op.update k d).data = some d := by simp [Op.data, hd]
        have := image_update p env (k := k) hu hd h (by
          unfold Op.onImage at hf
          rw [hdata] at hf
          exact hf)
        exact ⟨this.1, this.2 hs⟩
  obtain ⟨t', so⟩ := op_step p env op hu h (by rw [← onImage_kv (H := H)]; exact hf)
  refine ⟨hcont.1, fun hr => so.live hr hs, so.nopanic, so.sched, fun hok => ⟨hcont.2 hok, t', ?_, so.kept hs (.inr hok)⟩⟩
  have := so.rep
  unfold Event.effect at this
  simp only [hok] at this
  rw [onImage_kv (H := H) (E := E) op kv st.storage.map (.ok ())]
  exact this

/-! ### Histories -/

theorem mapsThrough_solid : ∀ (ops : List Op) (s : Image), (keysOf s.kv).Nodup → Solid H s.kv → NoPhantom H ops →
    ∀ kv ∈ mapsThrough H s ops, (keysOf kv).Nodup ∧ Solid H kv := by
  intro ops
  induction ops with
  | nil =>
    intro s hn hs _ kv hkv
    simp only [mapsThrough, List.mem_singleton] at hkv
    subst hkv; exact ⟨hn, hs⟩
  | cons op ops ih =>
    intro s hn hs hp kv hkv
    rw [mapsThrough, List.mem_cons] at hkv
    rcases hkv with rfl | hkv
    · exact ⟨hn, hs⟩
    · have e := onImage_kv (E := Unit) (H := H) op s.kv s.held (.ok ())
      refine ih (op.onImage H s) ?_ ?_ (fun o ho => hp o (List.mem_cons_of_mem _ ho)) kv hkv
      · rw [e]; exact Event.attempt_nodup _ hn
      · rw [e]; exact Event.attempt_solid _ hs (hp op (List.mem_cons_self ..))

theorem mapsThrough_self (s : Image) (ops : List Op) : s.kv ∈ mapsThrough H s ops := by
  cases ops <;> simp [mapsThrough]

theorem mapsThrough_append : ∀ (a b : List Op) (s : Image) (kv : Entries Bytes), kv ∈ mapsThrough H s (a ++ b) ↔
    kv ∈ mapsThrough H s a ∨ kv ∈ mapsThrough H (imageFrom H s a) b := by
  intro a
  induction a with
  | nil =>
    intro b s kv
    simp only [List.nil_append, mapsThrough, List.mem_singleton]
    exact ⟨.inr, fun h => h.elim (fun h => h ▸ mapsThrough_self s b) id⟩
  | cons op a ih =>
    intro b s kv
    rw [List.cons_append, mapsThrough, mapsThrough, List.mem_cons, List.mem_cons, ih, or_assoc]
    rfl

theorem images_run (p : Profile) (env : Env H M U) : ∀ (ops : List Op) {st : Tree E} {t : T} {kv : Entries Bytes}, Rep H M U st t kv →
    Stored H st.storage.map 0 t → st.storage.Reliable → (∀ op ∈ ops, U op.key) →
    (∀ kv' ∈ mapsThrough H ⟨kv, st.storage.map⟩ ops, Fits H M kv') →
    ∃ st' t', runAll p H ops st = (.ok (), st') ∧ st'.storage.map = (imageFrom H ⟨kv, st.storage.map⟩ ops).held ∧
      Rep H M U st' t' (imageFrom H ⟨kv, st.storage.map⟩ ops).kv ∧ Stored H st'.storage.map 0 t' ∧ st'.storage.sched = st.storage.sched := by
  intro ops
  induction ops with
  | nil => intro st t kv h hs _ _ _; exact ⟨st, t, rfl, rfl, h, hs, rfl⟩
  | cons op ops ih =>
    intro st t kv h hs hr hu hf
    have hfo : Fits H M (op.onImage H ⟨kv, st.storage.map⟩).kv := hf _ (by
      rw [mapsThrough]; exact List.mem_cons_of_mem _ (mapsThrough_self _ _))
    obtain ⟨_, hl, _, hsc, hk⟩ := image_step p env op (hu op (List.mem_cons_self ..)) h hs hfo
    obtain ⟨hm, t', hrep, hst⟩ := hk (hl hr)
    have e : (⟨(op.onImage H ⟨kv, st.storage.map⟩).kv, (op.run p H st).2.storage.map⟩ : Image) = op.onImage H ⟨kv, st.storage.map⟩ := by
      rw [hm]
    obtain ⟨st2, t2, h1, h2, h3, h4, h5⟩ := ih hrep hst (fun n => by rw [hsc]; exact hr n) (fun o ho => hu o (List.mem_cons_of_mem _ ho))
      (fun kv' hkv' => hf kv' (by rw [mapsThrough]; rw [e] at hkv'; exact List.mem_cons_of_mem _ hkv'))
    rw [e] at h2 h3
    refine ⟨st2, t2, ?_, h2, h3, h4, h5.trans hsc⟩
    rw [runAll, Exec.bind_ok (show op.run p H st = (.ok (), (op.run p H st).2) from Prod.ext (hl hr) rfl), h1]

/-! ### Histories of a new tree -/

theorem records_msgs : ∀ {t : T} {d : Nat}, ∀ q ∈ t.records H d, recordMsg q ∈ t.msgs H := by
  intro t
  induction t with
  | empty => intro d q hq; simp [T.records] at hq
  | leaf k v =>
    intro d q hq
    simp only [T.records, List.mem_singleton] at hq
    subst hq
    exact List.mem_singleton.2 rfl
  | node l r ihl ihr =>
    intro d q hq
    simp only [T.records, List.mem_cons, List.mem_append] at hq
    rcases hq with rfl | hq | hq
    · exact List.mem_cons_self ..
    · simp [msgs, ihl q hq]
    · simp [msgs, ihr q hq]

theorem recordAt_apart {kv : Entries Bytes} (hn : (keysOf kv).Nodup) {x : Bytes32} (h : ∀ m ∈ msgsOf H kv, H m ≠ x) :
    recordAt H (recordsOf H kv) x = none := by
  obtain ⟨t, w, he⟩ := exists_tree H kv hn
  rw [recordAt_none]
  intro q hq e
  rw [← he.records w] at hq
  exact h _ (by rw [← he.msgs w]; exact records_msgs q hq) e.symm

theorem image_state (keys : List Bytes32) : ∀ (ops : List Op) (s : State) (i : Image), i.kv = s.kv → (keysOf s.kv).Nodup →
    (∀ k ∈ keys, k ∈ s.recs ↔ (i.held k).isSome) → (∀ op ∈ ops, op.key ∈ keys) →
    (∀ m ∈ msgsFrom H s ops, ∀ k ∈ keys, H m ≠ k) →
    (imageFrom H i ops).kv = (stateFrom s ops).kv ∧ ∀ kv ∈ mapsThrough H i ops, ∀ m ∈ msgsOf H kv, m ∈ msgsFrom H s ops := by
  intro ops
  induction ops with
  | nil =>
    intro s i hkv _ _ _ _
    refine ⟨hkv, fun kv h m hm => ?_⟩
    simp only [mapsThrough, List.mem_singleton] at h
    rw [h, hkv] at hm
    exact hm
  | cons op ops ih =>
    intro s i hkv hn hr hk hap
    have hsub : ∀ m ∈ msgsFrom H (op.onState s) ops, m ∈ msgsFrom H s (op :: ops) := fun m hm => by
      rw [msgsFrom]; exact List.mem_append_right _ hm
    have hown : ∀ (s : State) (ops : List Op), ∀ m ∈ msgsOf H s.kv, m ∈ msgsFrom H s ops := by
      intro s ops m hm
      cases ops with
      | nil => exact hm
      | cons op ops => rw [msgsFrom]; exact List.mem_append_left _ hm
    have hkey := hk op (List.mem_cons_self ..)
    have hrk := hr op.key hkey
    have step : (op.onImage H i).kv = (op.onState s).kv ∧ (keysOf (op.onState s).kv).Nodup ∧
        ∀ k ∈ keys, k ∈ (op.onState s).recs ↔ ((op.onImage H i).held k).isSome := by
      have happ : ∀ k ∈ keys, recordAt H (recordsOf H (op.onState s).kv) k = none ∨ ¬ (keysOf (op.onState s).kv).Nodup := by
        intro k hkk
        by_cases hnd : (keysOf (op.onState s).kv).Nodup
        · exact .inl (recordAt_apart hnd fun m hm => hap m (hsub m (hown _ _ m hm)) k hkk)
        · exact .inr hnd
      have hold : ∀ k ∈ keys, recordAt H (recordsOf H s.kv) k = none := fun k hkk =>
        recordAt_apart hn fun m hm => hap m (hown s (op :: ops) m hm) k hkk
      revert happ
      unfold Op.onImage Op.onState
      cases hd : op.data with
      | some d =>
        simp only
        intro happ
        have hnd : (keysOf (s.kv.put op.key d)).Nodup := nodup_put hn _ _
        refine ⟨by rw [hkv], hnd, fun k hkk => ?_⟩
        rw [hkv, List.mem_cons]
        by_cases e : k = op.key
        · simp [e]
        · rw [if_neg e, withRecords, (happ k hkk).resolve_right (fun h => h hnd), Option.none_or, ← hr k hkk]
          simp [e]
      | none =>
        simp only
        by_cases hc : s.kv = [] ∨ op.key ∉ s.recs
        · have hc' : i.kv = [] ∨ i.held op.key = none := hc.imp (fun h => by rw [hkv, h]) fun h => by
            rw [hrk] at h; simpa using h
          rw [if_pos hc, if_pos hc']
          exact fun _ => ⟨hkv, hn, hr⟩
        · have hc' : ¬ (i.kv = [] ∨ i.held op.key = none) := fun h => hc (h.imp (fun h => by rw [← hkv, h]) fun h => by
            rw [hrk, h]; simp)
          rw [if_neg hc, if_neg hc', hkv]
          cases Spec.met op.key s.kv with
          | some k' =>
            simp only
            intro happ
            have hnd : (keysOf (s.kv.erase k')).Nodup := nodup_erase hn _
            refine ⟨trivial, hnd, fun k hkk => ?_⟩
            rw [withRecords, (happ k hkk).resolve_right (fun h => h hnd), Option.none_or, withoutRecords, hold k hkk]
            simpa using hr k hkk
          | none =>
            simp only
            refine fun _ => ⟨trivial, hn, fun k hkk => ?_⟩
            rw [List.mem_filter]
            by_cases e : k = zero32
            · simp [e]
            · simp [e, hr k hkk]
    obtain ⟨h1, h2, h3⟩ := step
    obtain ⟨h4, h5⟩ := ih (op.onState s) (op.onImage H i) h1 h2 h3 (fun o ho => hk o (List.mem_cons_of_mem _ ho))
      (fun m hm => hap m (hsub m hm))
    refine ⟨h4, fun kv hkv' m hm => ?_⟩
    rw [mapsThrough, List.mem_cons] at hkv'
    rcases hkv' with rfl | hkv'
    · exact hown s (op :: ops) m (by rw [← hkv]; exact hm)
    · exact hsub m (h5 kv hkv' m hm)

end Sparse
end FuelMerkle
