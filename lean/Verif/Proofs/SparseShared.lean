import Verif.Proofs.SparseContents
import Verif.Spec.SparseShared

/-
Several open sparse trees on one storage.
-/
namespace FuelMerkle
namespace Sparse
open Spec T
variable {E : Type} {H : HashFn} {M : Bytes → Prop} {U : Bytes32 → Prop}

/-! ### What a removal does to other trees -/

theorem sub_record : ∀ {t : T} {d : Nat}, ∀ q ∈ t.records H d, ∃ t', Sub t' t ∧ t' ≠ .empty ∧ H (recordMsg q) = t'.hash H := by
  intro t
  induction t with
  | empty => intro d q hq; simp [T.records] at hq
  | leaf k v =>
    intro d q hq
    simp only [T.records, List.mem_singleton] at hq
    subst hq
    exact ⟨leaf k v, .refl _, by simp, rfl⟩
  | node l r ihl ihr =>
    intro d q hq
    simp only [T.records, List.mem_cons, List.mem_append] at hq
    rcases hq with rfl | hq | hq
    · exact ⟨node l r, .refl _, by simp, rfl⟩
    · obtain ⟨t', h1, h2⟩ := ihl q hq
      exact ⟨t', .left h1, h2⟩
    · obtain ⟨t', h1, h2⟩ := ihr q hq
      exact ⟨t', .right h1, h2⟩

theorem leaf_record {k v : Bytes32} : ∀ {t : T} {d : Nat}, (k, v) ∈ t.entries → (0, 0x00, k, v) ∈ t.records H d := by
  intro t
  induction t with
  | empty => intro d h; simp [entries] at h
  | leaf k' v' =>
    intro d h
    simp only [entries, List.mem_singleton, Prod.mk.injEq] at h
    rw [h.1, h.2]; exact List.mem_singleton.2 rfl
  | node l r ihl ihr =>
    intro d h
    simp only [entries, List.mem_append] at h
    simp only [T.records, List.mem_cons, List.mem_append]
    exact .inr (h.imp (fun h => ihl h) fun h => ihr h)

theorem path_entries {k k' : Bytes32} : ∀ {t : T} {d : Nat}, victim k d t = some k' → ∀ t' ∈ pathTrees k d t, ∃ v, (k', v) ∈ t'.entries := by
  intro t
  induction t with
  | empty => intro d h; simp [victim] at h
  | leaf k'' v =>
    intro d h t' ht
    simp only [pathTrees, List.mem_singleton] at ht
    subst ht
    simp only [victim, Option.some.injEq] at h
    exact ⟨v, by simp [entries, h]⟩
  | node l r ihl ihr =>
    intro d h t' ht
    rw [pathTrees_node, List.mem_append, List.mem_singleton] at ht
    rw [victim_node] at h
    rcases ht with ht | rfl
    · revert h ht
      cases keyBit k d
      · exact fun h ht => ihl h t' ht
      · exact fun h ht => ihr h t' ht
    · revert h
      have top : ∀ {u : T} {e : Nat}, ∃ t' ∈ pathTrees k e u, ∀ x ∈ t'.entries, x ∈ u.entries := by
        intro u e
        cases u with
        | empty => exact ⟨.empty, by simp [pathTrees], fun _ h => h⟩
        | leaf a b => exact ⟨leaf a b, by simp [pathTrees], fun _ h => h⟩
        | node a b => exact ⟨node a b, by rw [pathTrees_node]; simp, fun _ h => h⟩
      cases keyBit k d
      · intro h
        obtain ⟨u, h1, h2⟩ := top (u := l) (e := d + 1)
        obtain ⟨v, hv⟩ := ihl h u h1
        exact ⟨v, by simp [entries, h2 _ hv]⟩
      · intro h
        obtain ⟨u, h1, h2⟩ := top (u := r) (e := d + 1)
        obtain ⟨v, hv⟩ := ihr h u h1
        exact ⟨v, by simp [entries, h2 _ hv]⟩

theorem entries_unique {t : T} {d : Nat} (w : WF d t) {k v v' : Bytes32} (h : (k, v) ∈ t.entries) (h' : (k, v') ∈ t.entries) : v = v' := by
  have hn := T.nodup w
  have : ∀ {l : List (Bytes32 × Bytes32)}, (l.map Prod.fst).Nodup → (k, v) ∈ l → (k, v') ∈ l → v = v' := by
    intro l
    induction l with
    | nil => intro _ h; cases h
    | cons a l ih =>
      intro hn h h'
      rw [List.map_cons, List.nodup_cons] at hn
      rcases List.mem_cons.1 h with rfl | h1
      · rcases List.mem_cons.1 h' with e | h2
        · cases e; rfl
        · exact absurd (List.mem_map.2 ⟨_, h2, rfl⟩) hn.1
      · rcases List.mem_cons.1 h' with rfl | h2
        · exact absurd (List.mem_map.2 ⟨_, h1, rfl⟩) hn.1
        · exact ih hn.2 h1 h2
  exact this hn h h'

/-- Which trees a removal leaves whole. -/
theorem stored_removed (env : Env H M U) {t u : T} (w : WF 0 t) (hin : In H M t) (wu : WF 0 u) (hinu : In H M u) {k k' v : Bytes32}
    (hind : In H M (del k 0 t)) (hv : victim k 0 t = some k') (hkv : (k', v) ∈ t.entries) {m : Bytes32 → Option Prim} (hs : Stored H m 0 u) :
    Stored H (withRecords H ((del k 0 t).records H 0) (withoutRecords H (t.records H 0) m)) 0 u ↔ (k', v) ∉ u.entries := by
  have wd := (del_spec (k := k) w).1
  have hgone : (k', v) ∉ (del k 0 t).entries := fun h => by
    have := ((del_spec (k := k) w).2.1 (k', v)).1 h
    exact this.2 hv.symm
  constructor
  · intro h hu
    have h1 := h.record _ (leaf_record (H := H) hu)
    unfold withRecords at h1
    have hr : recordAt H ((del k 0 t).records H 0) (H (recordMsg (0, 0x00, k', v))) = none := by
      rw [recordAt_none]
      intro q hq e
      obtain ⟨t', h2, h3, h4⟩ := sub_record q hq
      have hl : In H M (leaf k' v) := hin.leaf_of_mem hkv
      have : leaf k' v = t' := hash_inj env hl (h2.inn hind) (show H (smtLeafMsg k' v) = _ by rw [← h4, ← e]; rfl)
      subst this
      exact hgone (h2.entries _ (by simp [entries]))
    rw [hr, Option.none_or, withoutRecords] at h1
    cases ho : recordAt H (t.records H 0) (H (recordMsg (0, 0x00, k', v))) with
    | none => exact recordAt_none.1 ho _ (leaf_record (H := H) hkv) rfl
    | some q => rw [ho] at h1; simp at h1
  · intro hu
    refine Stored.of_records fun q hq => ?_
    unfold withRecords
    cases hr : recordAt H ((del k 0 t).records H 0) (H (recordMsg q)) with
    | some q' =>
      obtain ⟨h1, h2⟩ := recordAt_mem hr
      have g := records_good wd hind q' h1
      rw [h2] at g
      rw [g.eq env (records_good wu hinu q hq)]
      rfl
    | none =>
      rw [Option.none_or, withoutRecords]
      cases ho : recordAt H (t.records H 0) (H (recordMsg q)) with
      | none => exact hs.record q hq
      | some q' =>
        exfalso
        obtain ⟨h1, h2⟩ := recordAt_mem ho
        rcases record_path k q' h1 with ⟨t', h3, h4⟩ | h3
        · obtain ⟨t'', h5, h6, h7⟩ := sub_record q hq
          have hin' := (pathTrees_in k w hin t' h3).2.1
          have : t' = t'' := hash_inj env hin' (h5.inn hinu) (by rw [← h4, h2, h7])
          subst this
          obtain ⟨v', hv'⟩ := path_entries hv t' h3
          have hsub : (k', v') ∈ t.entries := by
            have : ∀ {t : T} {d : Nat}, ∀ t' ∈ pathTrees k d t, ∀ x ∈ t'.entries, x ∈ t.entries := by
              intro t
              induction t with
              | empty => intro d t' h; simp only [pathTrees, List.mem_singleton] at h; subst h; exact fun _ h => h
              | leaf a b => intro d t' h; simp only [pathTrees, List.mem_singleton] at h; subst h; exact fun _ h => h
              | node l r ihl ihr =>
                intro d t' h x hx
                rw [pathTrees_node, List.mem_append, List.mem_singleton] at h
                rcases h with h | rfl
                · revert h
                  cases keyBit k d
                  · intro h; simp [entries, ihl t' h x hx]
                  · intro h; simp [entries, ihr t' h x hx]
                · exact hx
            exact this t' h3 _ hv'
          rw [entries_unique w hkv hsub] at hu
          exact hu (h5.entries _ hv')
        · exact recordAt_none.1 hr q' h3 h2.symm

/-- Which trees a call leaves whole. -/
theorem image_keeps (env : Env H M U) (op : Op) (hu : U op.key) {t u : T} {kv kv2 : Entries Bytes} {m : Bytes32 → Option Prim}
    (w : WF 0 t) (hin : In H M t) (he : Ent H t kv) (wu : WF 0 u) (hinu : In H M u) (heu : Ent H u kv2)
    (hf : Fits H M (op.onImage H ⟨kv, m⟩).kv) (hs : Stored H m 0 u) :
    Stored H (op.onImage H ⟨kv, m⟩).held 0 u ↔
      ¬ (op.data = none ∧ m op.key ≠ none ∧ ∃ k d, Spec.met op.key kv = some k ∧ (k, d) ∈ kv ∧ (k, H d) ∈ digests H kv2) := by
  cases hd : op.data with
  | some d =>
    refine ⟨fun _ h => (by cases h.1), fun _ => Stored.of_records fun q hq => ?_⟩
    have hf' : Fits H M (kv.put op.key d) := by
      unfold Op.onImage at hf; rw [hd] at hf; exact hf
    have ei := he.put w op.key d
    have wi := (ins_spec (k := op.key) (v := H d) w (Ag.zero op.key t) (by omega)).1
    have gq := records_good wu hinu q hq
    unfold Op.onImage
    simp only [hd]
    rw [if_neg (show ¬ H (recordMsg q) = op.key from fun e => gq.not_user env (by rw [e]; exact hu)), withRecords, ← ei.records wi]
    cases hr : recordAt H ((ins op.key (H d) 0 t).records H 0) (H (recordMsg q)) with
    | none => exact hs.record q hq
    | some q' =>
      obtain ⟨h1, h2⟩ := recordAt_mem hr
      have g := records_good wi (ei.inn wi hf') q' h1
      rw [h2] at g
      rw [g.eq env gq]; rfl
  | none =>
    by_cases hc : kv = [] ∨ m op.key = none
    · have hi : op.onImage H ⟨kv, m⟩ = ⟨kv, m⟩ := by
        unfold Op.onImage; simp only [hd]; rw [if_pos hc]
      rw [hi]
      refine ⟨fun _ ⟨_, h1, k, d, _, h2, _⟩ => ?_, fun _ => hs⟩
      rcases hc with hc | hc
      · subst hc; cases h2
      · exact h1 hc
    · have hm0 : m op.key ≠ none := fun h => hc (.inr h)
      have hmet := he.met w op.key
      cases hm : Spec.met op.key kv with
      | none =>
        refine ⟨fun _ ⟨_, _, k, d, h, _⟩ => (by cases h), fun _ => Stored.of_records fun q hq => ?_⟩
        unfold Op.onImage
        simp only [hd, if_neg hc, hm]
        rw [if_neg (show H (recordMsg q) ≠ zero32 from (records_good wu hinu q hq).ne_zero env)]
        exact hs.record q hq
      | some k' =>
        rw [hm] at hmet
        have ed := he.del w op.key
        have wd := (del_spec (k := op.key) w).1
        have hk : (op.onImage H ⟨kv, m⟩).kv = eraseMet kv op.key := by
          unfold Op.onImage eraseMet
          simp only [hd, if_neg hc, hm]
        rw [hk] at hf
        have hh : (op.onImage H ⟨kv, m⟩).held = withRecords H ((del op.key 0 t).records H 0) (withoutRecords H (t.records H 0) m) := by
          rw [ed.records wd, he.records w]
          unfold Op.onImage eraseMet
          simp only [hd, if_neg hc, hm]
        obtain ⟨v, hv⟩ := path_entries hmet t (by cases t <;> simp [pathTrees])
        obtain ⟨d, hd1, hd2⟩ := mem_digests.1 ((he.mem _).1 hv)
        rw [hh, stored_removed env w hin wu hinu (ed.inn wd hf) hmet hv hs, heu.mem]
        constructor
        · rintro h ⟨_, _, k, d', h1, h2, h3⟩
          cases h1
          have : (k', H d') ∈ t.entries := (he.mem _).2 (mem_digests.2 ⟨d', h2, rfl⟩)
          rw [entries_unique w hv this] at h
          exact h h3
        · intro h h'
          exact h ⟨rfl, hm0, k', d, rfl, hd1, by rw [← hd2]; exact h'⟩

/-! ### Open trees on one storage -/

/-- Every open tree represents its map. -/
def DeskOk (H : HashFn) (M : Bytes → Prop) (U : Bytes32 → Prop) (c : Desk E) : Prop := ∀ i, ∃ t, Rep H M U (c.tree i) t (c.kv i)

/-- All records of every open tree are in the storage. -/
def DeskFull (H : HashFn) (M : Bytes → Prop) (U : Bytes32 → Prop) (c : Desk E) : Prop :=
  ∀ i, ∃ t, Rep H M U (c.tree i) t (c.kv i) ∧ Stored H c.storage.map 0 t

theorem DeskFull.ok {c : Desk E} (h : DeskFull H M U c) : DeskOk H M U c := fun i => (h i).imp fun _ h => h.1

/-- What is asked of an action. -/
def Act.Ok (H : HashFn) (M : Bytes → Prop) (U : Bytes32 → Prop) (a : Act) (c : Desk E) : Prop :=
  match a with
  | .call _ op => U op.key ∧ Fits H M (c.attempt a)
  | .load _ j => c.kv j ≠ []

theorem Rep.move {st st' : Tree E} {t : T} {kv : Entries Bytes} (h : Rep H M U st t kv) (hr : st'.rootNode = st.rootNode)
    (hv : Valid H M U st'.storage.map) : Rep H M U st' t kv := ⟨h.wf, h.inn, h.ent, by rw [hr]; exact h.root, hv⟩

theorem desk_call (p : Profile) (i : Nat) (op : Op) (c : Desk E) : c.step p H (.call i op) =
    ((op.run p H (c.tree i)).1, { storage := (op.run p H (c.tree i)).2.storage
                                  node := fun j => if j = i then (op.run p H (c.tree i)).2.rootNode else c.node j
                                  kv := fun j => if j = i then (⟨op, (c.storage.map op.key).isSome, (op.run p H (c.tree i)).1⟩ : Event E).effect (c.kv i) else c.kv j }) := rfl

theorem load_total (s : SpStore E) (r : Bytes32) : (∀ q, (Tree.load s r).1 ≠ .error (.panic q)) ∧ (Tree.load s r).2.map = s.map ∧
    (Tree.load s r).2.sched = s.sched := by
  refine ⟨fun q => ?_, load_store s r, ?_⟩
  · unfold Tree.load
    split
    · simp
    · simp
    · split <;> simp
  · exact (load_pres (I := fun s' => s'.sched = s.sched) (fun s' k h => by
      cases hs : s'.sched s'.clock with
      | none => rw [Store.get_none _ hs]; exact h
      | some f => rw [Store.get_fault _ hs]; exact h) s r rfl).1

theorem desk_ok (p : Profile) (env : Env H M U) {c : Desk E} (h : DeskOk H M U c) {a : Act} (ha : a.Ok H M U c) :
    DeskOk H M U (c.step p H a).2 ∧ (∀ q, (c.step p H a).1 ≠ .error (.panic q)) ∧ (c.step p H a).2.storage.sched = c.storage.sched := by
  cases a with
  | call i op =>
    obtain ⟨t, hr⟩ := h i
    obtain ⟨t', so⟩ := op_step p env op ha.1 hr ha.2
    rw [desk_call]
    refine ⟨fun j => ?_, so.nopanic, so.sched⟩
    by_cases e : j = i
    · subst e
      refine ⟨t', ?_⟩
      simp only [Desk.tree, if_true]
      exact so.rep
    · obtain ⟨u, hu⟩ := h j
      refine ⟨u, ?_⟩
      simp only [Desk.tree, if_neg e]
      exact hu.move rfl so.rep.valid
  | load i j =>
    obtain ⟨t, hr⟩ := h j
    have hroot : (c.tree j).root H = t.hash H := root_toNode env hr.wf hr.inn hr.root
    have h0 : t ≠ .empty := fun e => ha ((hr.ent.nil hr.wf).1 e)
    obtain ⟨l1, l2, l3⟩ := load_total c.storage ((c.tree j).root H)
    unfold Desk.step
    simp only
    cases hl : Tree.load c.storage ((c.tree j).root H) with
    | mk r s =>
      rw [hl] at l1 l2 l3
      cases r with
      | error e => exact ⟨fun k => (h k).imp fun u hu => hu.move rfl (by rw [show ({ c with storage := s } : Desk E).tree k = ⟨c.node k, s⟩ from rfl]; rw [l2]; exact hr.valid),
          fun q e' => l1 q (by cases e'; rfl), l3⟩
      | ok st =>
        rw [hroot] at hl
        obtain ⟨g1, g2, g3⟩ := load_valid env hr.valid hr.wf hr.inn h0 hl
        refine ⟨fun k => ?_, by simp, g3⟩
        by_cases e : k = i
        · subst e
          refine ⟨t, ?_⟩
          simp only [Desk.tree, if_true]
          exact hr.move (by rw [g1]; exact hr.root.symm) (by show Valid H M U st.storage.map; rw [g2]; exact hr.valid)
        · obtain ⟨u, hu⟩ := h k
          refine ⟨u, ?_⟩
          simp only [Desk.tree, if_neg e]
          exact hu.move rfl (by show Valid H M U st.storage.map; rw [g2]; exact hr.valid)

theorem board_call (i : Nat) (op : Op) (b : Board) : b.step H (.call i op) =
    ⟨fun j => if j = i then (op.onImage H ⟨b.kv i, b.held⟩).kv else b.kv j, (op.onImage H ⟨b.kv i, b.held⟩).held⟩ := rfl

theorem desk_full (p : Profile) (env : Env H M U) {c : Desk E} (h : DeskFull H M U c) (hr : c.storage.Reliable) {a : Act} (ha : a.Ok H M U c)
    (hc : ∀ i op, a = .call i op → op.data = none → c.storage.map op.key ≠ none → ∀ k d, Spec.met op.key (c.kv i) = some k →
      (k, d) ∈ c.kv i → ∀ j, j ≠ i → (k, H d) ∉ digests H (c.kv j)) :
    DeskFull H M U (c.step p H a).2 ∧ (c.step p H a).1 = .ok () ∧ (c.step p H a).2.board = c.board.step H a := by
  cases a with
  | call i op =>
    obtain ⟨t, hrep, hst⟩ := h i
    have hf : Fits H M (op.onImage H ⟨c.kv i, (c.tree i).storage.map⟩).kv := by
      rw [onImage_kv (E := E) op _ _ (.ok ())]; exact ha.2
    obtain ⟨_, hl, _, _, hk⟩ := image_step p env op ha.1 hrep hst hf
    have hok := hl hr
    obtain ⟨hm, t', hrep', hst'⟩ := hk hok
    have heff : (⟨op, (c.storage.map op.key).isSome, (op.run p H (c.tree i)).1⟩ : Event E).effect (c.kv i) = (op.onImage H ⟨c.kv i, c.storage.map⟩).kv := by
      rw [onImage_kv (E := E) op _ _ (.ok ()), hok]; rfl
    rw [desk_call, heff]
    refine ⟨fun j => ?_, hok, ?_⟩
    · by_cases e : j = i
      · subst e
        refine ⟨t', ?_⟩
        simp only [Desk.tree, if_true]
        exact ⟨hrep', hst'⟩
      · obtain ⟨u, hu, hus⟩ := h j
        refine ⟨u, ?_⟩
        simp only [Desk.tree, if_neg e]
        refine ⟨hu.move rfl hrep'.valid, ?_⟩
        show Stored H (op.run p H (c.tree i)).2.storage.map 0 u
        rw [hm]
        refine (image_keeps env op ha.1 hrep.wf hrep.inn hrep.ent hu.wf hu.inn hu.ent hf hus).2 ?_
        rintro ⟨h1, h2, k, d, h3, h4, h5⟩
        exact hc i op rfl h1 h2 k d h3 h4 j e h5
    · rw [board_call, Desk.board, Desk.board, hm]
      rfl
  | load i j =>
    obtain ⟨t, hrep, hst⟩ := h j
    have hroot : (c.tree j).root H = t.hash H := root_toNode env hrep.wf hrep.inn hrep.root
    have h0 : t ≠ .empty := fun e => ha ((hrep.ent.nil hrep.wf).1 e)
    obtain ⟨st, s', hl⟩ : ∃ st s', Tree.load c.storage (t.hash H) = (.ok st, s') :=
      ⟨_, _, load_stored env hrep.wf hrep.inn h0 c.storage hst (hr _)⟩
    obtain ⟨g1, g2, g3⟩ := load_valid env hrep.valid hrep.wf hrep.inn h0 hl
    rw [← hroot] at hl
    unfold Desk.step
    simp only [hl]
    refine ⟨fun k => ?_, trivial, ?_⟩
    · by_cases e : k = i
      · subst e
        refine ⟨t, ?_⟩
        simp only [Desk.tree, if_true]
        refine ⟨hrep.move (by rw [g1]; exact hrep.root.symm) (by show Valid H M U st.storage.map; rw [g2]; exact hrep.valid), ?_⟩
        rw [g2]; exact hst
      · obtain ⟨u, hu, hus⟩ := h k
        refine ⟨u, ?_⟩
        simp only [Desk.tree, if_neg e]
        refine ⟨hu.move rfl (by show Valid H M U st.storage.map; rw [g2]; exact hrep.valid), ?_⟩
        rw [g2]; exact hus
    · simp only [Desk.board, g2]
      rfl

/-! ### Sequences of actions -/

theorem calls_mem {as : List Act} {i : Nat} {op : Op} (h : Act.call i op ∈ as) : op ∈ calls as := List.mem_filterMap.2 ⟨_, h, rfl⟩

theorem attempt_fits {c : Desk E} (h : DeskOk H M U c) {i : Nat} {op : Op} (hm : ∀ m ∈ msgsOf H (c.attempt (.call i op)), M m)
    (hp : ∀ d, op.data = some d → op.key = zero32 → H d ≠ zero32) : Fits H M (c.attempt (.call i op)) := by
  obtain ⟨t, hr⟩ := h i
  exact ⟨hm, Event.attempt_solid _ (Rep.solid hr) hp⟩

theorem desk_run (p : Profile) (env : Env H M U) : ∀ (as : List Act) (c : Desk E), DeskOk H M U c → (∀ kv ∈ c.maps p H as, ∀ m ∈ msgsOf H kv, M m) →
    (∀ op ∈ calls as, U op.key) → NoPhantom H (calls as) → c.Loads p H as →
    ∀ x ∈ c.run p H as, (∀ q, x.1 ≠ .error (.panic q)) ∧ DeskOk H M U x.2 := by
  intro as
  induction as with
  | nil => intro c _ _ _ _ _ x hx; cases hx
  | cons a as ih =>
    intro c h hm hu hp hl x hx
    rw [Desk.run] at hx
    have ha : a.Ok H M U c := by
      cases a with
      | call i op =>
        have hmem := calls_mem (List.mem_cons_self (a := Act.call i op) (l := as))
        exact ⟨hu op hmem, attempt_fits h (hm _ (List.mem_cons_self ..)) (hp op hmem)⟩
      | load i j => exact hl.1 i j rfl
    obtain ⟨h1, h2, _⟩ := desk_ok p env h ha
    have hsub : ∀ op ∈ calls as, op ∈ calls (a :: as) := fun op ho => by
      obtain ⟨b, hb, e⟩ := List.mem_filterMap.1 ho
      exact List.mem_filterMap.2 ⟨b, List.mem_cons_of_mem _ hb, e⟩
    rcases List.mem_cons.1 hx with rfl | hx
    · exact ⟨h2, h1⟩
    · exact ih _ h1 (fun kv hkv => hm kv (List.mem_cons_of_mem _ hkv)) (fun op ho => hu op (hsub op ho)) (fun op ho => hp op (hsub op ho)) hl.2 x hx

theorem desk_run_full (p : Profile) (env : Env H M U) : ∀ (as : List Act) (c : Desk E), DeskFull H M U c → c.storage.Reliable →
    (∀ kv ∈ c.board.maps H as, ∀ m ∈ msgsOf H kv, M m) → (∀ op ∈ calls as, U op.key) → NoPhantom H (calls as) → c.board.Considerate H as →
    (c.run p H as).map (fun x => x.2.board) = c.board.run H as ∧ ∀ x ∈ c.run p H as, x.1 = .ok () ∧ DeskFull H M U x.2 := by
  intro as
  induction as with
  | nil => intro c _ _ _ _ _ _; exact ⟨rfl, fun x hx => by cases hx⟩
  | cons a as ih =>
    intro c h hr hm hu hp hl
    have ha : a.Ok H M U c := by
      cases a with
      | call i op =>
        have hmem := calls_mem (List.mem_cons_self (a := Act.call i op) (l := as))
        refine ⟨hu op hmem, attempt_fits h.ok (fun m hm' => hm _ (List.mem_cons_self ..) m ?_) (hp op hmem)⟩
        have e : (c.board.made H (.call i op)) = c.attempt (.call i op) := by
          simp only [Board.made, board_call, if_true]
          exact onImage_kv (E := E) op _ _ (.ok ())
        rw [e]; exact hm'
      | load i j => exact hl.1
    obtain ⟨h1, h2, h3⟩ := desk_full p env h hr ha (fun i op e => by subst e; exact hl.1)
    obtain ⟨_, _, h4⟩ := desk_ok p env h.ok ha
    have hsub : ∀ op ∈ calls as, op ∈ calls (a :: as) := fun op ho => by
      obtain ⟨b, hb, e⟩ := List.mem_filterMap.1 ho
      exact List.mem_filterMap.2 ⟨b, List.mem_cons_of_mem _ hb, e⟩
    obtain ⟨g1, g2⟩ := ih (c.step p H a).2 h1 (fun n => by rw [h4]; exact hr n) (fun kv hkv => hm kv (by
      rw [h3] at hkv; exact List.mem_cons_of_mem _ hkv)) (fun op ho => hu op (hsub op ho)) (fun op ho => hp op (hsub op ho)) (by rw [h3]; exact hl.2)
    refine ⟨?_, fun x hx => ?_⟩
    · rw [Desk.run, List.map_cons, Board.run, g1, h3]
    · rw [Desk.run] at hx
      rcases List.mem_cons.1 hx with rfl | hx
      · exact ⟨h2, h1⟩
      · exact g2 x hx

theorem calls_cons {a : Act} {as : List Act} {op : Op} (h : op ∈ calls as) : op ∈ calls (a :: as) := by
  obtain ⟨b, hb, e⟩ := List.mem_filterMap.1 h
  exact List.mem_filterMap.2 ⟨b, List.mem_cons_of_mem _ hb, e⟩

theorem desk_maps (p : Profile) : ∀ (as : List Act) (c : Desk E), (∀ i, (keysOf (c.kv i)).Nodup ∧ Solid H (c.kv i)) → NoPhantom H (calls as) →
    ∀ kv ∈ c.maps p H as, (keysOf kv).Nodup ∧ Solid H kv := by
  intro as
  induction as with
  | nil => intro c _ _ kv h; cases h
  | cons a as ih =>
    intro c h hp kv hkv
    rw [Desk.maps] at hkv
    have hstep : ((keysOf (c.attempt a)).Nodup ∧ Solid H (c.attempt a)) ∧
        ∀ i, (keysOf ((c.step p H a).2.kv i)).Nodup ∧ Solid H ((c.step p H a).2.kv i) := by
      cases a with
      | call i op =>
        have hph := hp op (calls_mem (List.mem_cons_self (a := Act.call i op) (l := as)))
        refine ⟨⟨Event.attempt_nodup _ (h i).1, Event.attempt_solid _ (h i).2 hph⟩, fun j => ?_⟩
        rw [desk_call]
        by_cases e : j = i
        · simp only [if_pos e]
          exact ⟨Event.effect_nodup _ (h i).1, Event.effect_solid _ (h i).2 hph⟩
        · simp only [if_neg e]
          exact h j
      | load i j =>
        refine ⟨h j, fun k => ?_⟩
        unfold Desk.step
        simp only
        split
        · by_cases e : k = i
          · simp only [if_pos e]; exact h j
          · simp only [if_neg e]; exact h k
        · exact h k
    rcases List.mem_cons.1 hkv with rfl | hkv
    · exact hstep.1
    · exact ih _ hstep.2 (fun op ho => hp op (calls_cons ho)) kv hkv

theorem board_maps : ∀ (as : List Act) (b : Board), (∀ i, (keysOf (b.kv i)).Nodup ∧ Solid H (b.kv i)) → NoPhantom H (calls as) →
    ∀ kv ∈ b.maps H as, (keysOf kv).Nodup ∧ Solid H kv := by
  intro as
  induction as with
  | nil => intro c _ _ kv h; cases h
  | cons a as ih =>
    intro b h hp kv hkv
    rw [Board.maps] at hkv
    have hstep : ((keysOf (b.made H a)).Nodup ∧ Solid H (b.made H a)) ∧ ∀ i, (keysOf ((b.step H a).kv i)).Nodup ∧ Solid H ((b.step H a).kv i) := by
      cases a with
      | call i op =>
        have hph := hp op (calls_mem (List.mem_cons_self (a := Act.call i op) (l := as)))
        have e' := onImage_kv (E := Unit) (H := H) op (b.kv i) b.held (.ok ())
        have hi : (keysOf (op.onImage H ⟨b.kv i, b.held⟩).kv).Nodup ∧ Solid H (op.onImage H ⟨b.kv i, b.held⟩).kv := by
          rw [e']; exact ⟨Event.attempt_nodup _ (h i).1, Event.attempt_solid _ (h i).2 hph⟩
        simp only [Board.made, board_call, if_true]
        refine ⟨hi, fun j => ?_⟩
        by_cases e : j = i
        · simp only [if_pos e]; exact hi
        · simp only [if_neg e]; exact h j
      | load i j =>
        simp only [Board.made, Board.step, if_true]
        refine ⟨h j, fun k => ?_⟩
        by_cases e : k = i
        · simp only [if_pos e]; exact h j
        · simp only [if_neg e]; exact h k
    rcases List.mem_cons.1 hkv with rfl | hkv
    · exact hstep.1
    · exact ih _ hstep.2 (fun op ho => hp op (calls_cons ho)) kv hkv

theorem DeskFull.start {s : SpStore E} (hv : Valid H M U s.map) : DeskFull H M U (Desk.start s) := fun _ =>
  ⟨.empty, ⟨trivial, In.empty, Ent.empty H, rfl, hv⟩, trivial⟩

end Sparse
end FuelMerkle
