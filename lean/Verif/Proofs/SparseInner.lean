import Verif.Proofs.SparseRecover
import Verif.Spec.SparseBranch

/-
Trees opened at an inner node.
-/
namespace FuelMerkle
namespace Sparse
open Spec T
variable {E : Type} {H : HashFn} {M : Bytes → Prop} {U : Bytes32 → Prop}

/-- The tree `n` levels below on the path of `k`. -/
def descend (k : Bytes32) : Nat → Nat → T → T
  | 0, _, t => t
  | n + 1, d, .node l r => descend k n (d + 1) (if keyBit k d then r else l)
  | _ + 1, _, t => t

theorem descend_node (k : Bytes32) (n d : Nat) (l r : T) :
    descend k (n + 1) d (node l r) = descend k n (d + 1) (if keyBit k d then r else l) := by rw [descend]

theorem victim_node (k : Bytes32) (d : Nat) (l r : T) :
    victim k d (node l r) = victim k (d + 1) (if keyBit k d then r else l) := by
  rw [victim]; cases keyBit k d <;> rfl

theorem part_entries {k : Bytes32} {d : Nat} {l r : T} (w : WF d (node l r)) (x : Bytes32 × Bytes32) :
    x ∈ (if keyBit k d then r else l).entries ↔ x ∈ (node l r).entries ∧ keyBit x.1 d = keyBit k d := by
  have h4 := w.2.2.2.1 x
  have h5 := w.2.2.2.2.1 x
  rw [entries, List.mem_append]
  cases keyBit k d
  · simp only [Bool.false_eq_true, if_false]
    constructor
    · intro h; exact ⟨.inl h, h4 h⟩
    · rintro ⟨h | h, e⟩
      · exact h
      · rw [h5 h] at e; cases e
  · simp only [if_true]
    constructor
    · intro h; exact ⟨.inr h, h5 h⟩
    · rintro ⟨h | h, e⟩
      · rw [h4 h] at e; cases e
      · exact h

theorem descend_spec (k : Bytes32) : ∀ (n : Nat) {t : T} {d : Nat} {x y : Bytes32 × Bytes32}, WF d t → Ag d k t → d ≤ 256 →
    x ∈ t.entries → y ∈ t.entries → x ≠ y →
    (∀ i < n, keyBit x.1 (d + i) = keyBit k (d + i)) → (∀ i < n, keyBit y.1 (d + i) = keyBit k (d + i)) →
    d + n ≤ 256 ∧ WF (d + n) (descend k n d t) ∧ Ag (d + n) k (descend k n d t) ∧ (∃ l r, descend k n d t = node l r) ∧
    (∀ z, z ∈ (descend k n d t).entries ↔ z ∈ t.entries ∧ ∀ i < n, keyBit z.1 (d + i) = keyBit k (d + i)) ∧
    (In H M t → In H M (descend k n d t)) ∧ (∀ m, Stored H m d t → Stored H m (d + n) (descend k n d t)) ∧
    victim k (d + n) (descend k n d t) = victim k d t ∧
    (∀ v, descend k n d (ins k v d t) = ins k v (d + n) (descend k n d t)) := by
  intro n
  induction n with
  | zero =>
    intro t d x y w ag hd hx hy hne _ _
    refine ⟨hd, w, ag, ?_, fun z => by simp [descend], id, fun _ => id, rfl, fun _ => rfl⟩
    cases t with
    | empty => simp [entries] at hx
    | leaf k' v' => simp only [entries, List.mem_singleton] at hx hy; exact absurd (hx.trans hy.symm) hne
    | node l r => exact ⟨l, r, rfl⟩
  | succ n ih =>
    intro t d x y w ag hd hx hy hne hx' hy'
    cases t with
    | empty => simp [entries] at hx
    | leaf k' v' => simp only [entries, List.mem_singleton] at hx hy; exact absurd (hx.trans hy.symm) hne
    | node l r =>
      have e : ∀ i, d + (i + 1) = d + 1 + i := fun i => by omega
      have hb : ∀ (z : Bytes32 × Bytes32), (∀ i < n + 1, keyBit z.1 (d + i) = keyBit k (d + i)) ↔
          keyBit z.1 d = keyBit k d ∧ ∀ i < n, keyBit z.1 (d + 1 + i) = keyBit k (d + 1 + i) := by
        intro z
        constructor
        · intro h
          refine ⟨h 0 (by omega), fun i hi => ?_⟩
          rw [← e]; exact h (i + 1) (by omega)
        · rintro ⟨h0, h⟩ i hi
          cases i with
          | zero => exact h0
          | succ i => rw [e]; exact h i (by omega)
      have hx2 := (hb x).1 hx'
      have hy2 := (hb y).1 hy'
      obtain ⟨a1, a2, a3, a4, a5, a6, a7, a8, a9⟩ := ih (node_parts k w).1 (Ag.part ag w) w.1
        ((part_entries w x).2 ⟨hx, hx2.1⟩) ((part_entries w y).2 ⟨hy, hy2.1⟩) hne hx2.2 hy2.2
      rw [descend_node, e n]
      refine ⟨a1, a2, a3, a4, fun z => ?_, fun h => a6 (In.parts k h).1, fun m h => a7 m (h.parts k).1, ?_, fun v => ?_⟩
      · rw [a5, part_entries w, hb]; tauto
      · rw [a8, victim_node]
      · rw [ins_node, ← a9 v]
        unfold nodeOn
        cases hk : keyBit k d
        · simp only [Bool.false_eq_true, if_false, hk, descend_node]
        · simp only [if_true, hk, descend_node]

theorem pathSet_inner (p : Profile) (env : Env H M U) {leaf : Node} {k : Bytes32} (hk : HasKey leaf k) {l r : T} {d : Nat}
    (hd : d ≤ 256) (st : Tree E)
    (hroot : st.rootNode = toNode H d (node l r)) (w : WF d (node l r)) (hin : In H M (node l r)) (hv : Valid H M U st.storage.map) :
    ∃ st', Same st st' ∧
      (pathSet p leaf st = (.ok (pathNodes H k d (node l r), sideNodes H k d (node l r)), st') ∨
        (∃ e, pathSet p leaf st = (.error (.err (.childError e)), st')) ∧
          ¬ (st.storage.Reliable ∧ PathStored H st.storage.map k d (node l r))) := by
  unfold pathSet
  rw [Exec.get_bind, hroot]
  have ho : (PathIter.new storageNode p (toNode H d (node l r)) leaf : TreeM E _) st =
      (.ok ⟨leaf, some (.ok (toNode H d (node l r)), .ok (toNode H d (node l r))), d⟩, st) := by
    unfold PathIter.new
    have : (storageNode (E := E)).lift (usizeSub p (storageNode (E := E)).keySizeInBits
        ((storageNode (E := E)).height (toNode H d (node l r)))) st = (.ok d, st) := by
      show Exec.liftRes (usizeSub p 256 (256 - d)) st = _
      unfold usizeSub
      rw [if_pos (by omega), show 256 - (256 - d) = d by omega]; rfl
    rw [Exec.bind_ok this]; rfl
  rw [Exec.bind_ok ho]
  obtain ⟨st', h1, h2⟩ := collectPath_spec env hk (node l r) d d 258 st (toNode H d (node l r)) w hin hv (fun _ => rfl) hd (by omega)
  refine ⟨st', h1, ?_⟩
  have hfuel : PathIter.fuel (storageNode (E := E)) = 258 := rfl
  rw [hfuel]
  rcases h2 with h2 | ⟨⟨e, h2⟩, hn⟩
  · left
    rw [Exec.bind_ok h2]
    rw [(items_path k (node l r) d _).1, (items_path k (node l r) d _).2]
    rfl
  · right
    exact ⟨⟨e, by rw [Exec.bind_error h2]⟩, hn⟩

/-- The end of the path when no other key is met. -/
theorem updateEnd_alone (p : Profile) {k v : Bytes32} {t : T} {d : Nat} (ht : ∀ l r, t ≠ node l r)
    (hm : victim k d t = none ∨ victim k d t = some k) (n : Nat) :
    (do
      let actualKey ← Exec.liftRes (toNode H d t).leafKey
      if k ≠ actualKey then do
        let current ←
          (if (toNode H d t).isPlaceholder then pure (toNode H d (leaf k v))
           else mergeNode p H k.val (toNode H d (leaf k v)) (toNode H d t))
        let ancestorDepth ← Exec.liftRes ((toNode H d (leaf k v)).commonPathLength p (toNode H d t))
        let staleDepth := max n ancestorDepth
        let placeholdersCount := staleDepth - n
        mergeNodes p H k.val current (List.replicate placeholdersCount Node.createPlaceholder)
      else pure (toNode H d (leaf k v)) : TreeM E Node) = pure (toNode H d (leaf k v)) ∧ ins k v d t = leaf k v := by
  cases t with
  | node l r => exact absurd rfl (ht l r)
  | empty =>
    refine ⟨?_, rfl⟩
    have hk : (toNode H d .empty).leafKey = .ok zeroSum := rfl
    have hp : (toNode H d .empty).isPlaceholder = true := rfl
    have hc : (toNode H d (leaf k v)).commonPathLength p (toNode H d .empty) = .ok 0 := by
      have hl' : (toNode H d (leaf k v)).isLeaf = true := by simp [toNode, Node.isLeaf]
      unfold Node.commonPathLength
      rw [hl', rdebugAssert_true, hp]
      have : (toNode H d .empty).isLeaf = true := rfl
      rw [this, rdebugAssert_true]
      simp
    funext s
    rw [hk, Exec.liftRes_ok_bind]
    by_cases hz : k ≠ zeroSum
    · rw [if_pos hz, hp, if_pos rfl, Exec.pure_bind, hc, Exec.liftRes_ok_bind]
      simp only [Nat.max_zero, Nat.sub_self, List.replicate_zero]
      rfl
    · rw [if_neg hz]
  | leaf k' v' =>
    have hk : k = k' := by
      rcases hm with h | h
      · cases h
      · rw [victim] at h; exact (Option.some.inj h).symm
    refine ⟨?_, by rw [ins, if_pos hk]⟩
    funext s
    rw [leafKey_leaf, Exec.liftRes_ok_bind, if_neg (by simpa using hk)]

theorem victim_end (k : Bytes32) : ∀ (t : T) (d : Nat), victim k (endDepth k d t) (endTree k d t) = victim k d t := by
  intro t
  induction t with
  | empty => intro d; rfl
  | leaf k' v' => intro d; rfl
  | node l r ihl ihr =>
    intro d
    rw [endTree_node, endDepth_node, victim_node]
    cases keyBit k d
    · exact ihl _
    · exact ihr _

theorem setRootNode_inner (p : Profile) (env : Env H M U) {l r : T} {d : Nat} (w : WF d (node l r)) (hin : In H M (node l r))
    (h0 : 0 < d) (st : Tree E) :
    setRootNode p (toNode H d (node l r)) st =
      if p.debugAssertions then (.error (.panic .debugAssertion), st)
      else (.ok (), { st with rootNode := toNode H d (node l r) }) := by
  have h1 : (toNode H d (node l r)).isLeaf = false := by
    cases h : (toNode H d (node l r)).isLeaf with
    | false => rfl
    | true => exact absurd rfl ((isLeaf_toNode env w hin).1 h l r)
  have h2 : (toNode H d (node l r)).height ≠ Node.maxHeight := by
    have := w.1
    show 256 - d ≠ 256
    omega
  have : ((toNode H d (node l r)).isLeaf || decide ((toNode H d (node l r)).height = Node.maxHeight)) = false := by
    rw [h1, decide_eq_false h2]; rfl
  unfold setRootNode rdebugAssert
  rw [this]
  cases p.debugAssertions <;> rfl

theorem ins_is_node {k v : Bytes32} {l r : T} {d : Nat} : ∃ l' r', ins k v d (node l r) = node l' r' := by
  rw [ins_node]
  unfold nodeOn
  split <;> exact ⟨_, _, rfl⟩

/-- `update` of a tree opened at an inner node, when no other key is met. -/
theorem update_inner (p : Profile) (env : Env H M U) {k : Bytes32} {data : Bytes} (hdata : data.isEmpty = false) (hu : U k)
    {t : T} {d : Nat} (hnode : ∃ l r, t = node l r) (h0 : 0 < d) (hd : d ≤ 256) (w : WF d t) (ag : Ag d k t) (hin : In H M t)
    (hin' : In H M (ins k (H data) d t)) (hm : victim k d t = none ∨ victim k d t = some k)
    (st : Tree E) (hroot : st.rootNode = toNode H d t) (hv : Valid H M U st.storage.map) (hs : Stored H st.storage.map d t)
    (hr : st.storage.Reliable) :
    ∃ st', UGrow H M k (H data) st st' ∧ st'.rootNode = st.rootNode ∧
      st'.storage.map k = some (leafPrim k (H data)) ∧ Stored H st'.storage.map d (ins k (H data) d t) ∧
      update p H k data st = if p.debugAssertions then (.error (.panic .debugAssertion), st')
        else (.ok (), { st' with rootNode := toNode H d (ins k (H data) d t) }) := by
  have is := ins_spec (k := k) (v := H data) w ag hd
  have hl : In H M (leaf k (H data)) := hin'.leaf_of_mem ((is.2.1 (k, H data)).2 (.inl rfl))
  have hleaf : Node.createLeaf H k data = toNode H 0 (leaf k (H data)) := rfl
  have hprim : (toNode H 0 (leaf k (H data))).toPrim = leafPrim k (H data) := rfl
  have hg : Good H M ((leaf k (H data)).hash H) (toNode H 0 (leaf k (H data))).toPrim :=
    ⟨leaf k (H data), 0, trivial, hl, by simp, rfl, rfl⟩
  obtain ⟨h1, h2, h3, h4, h5, ⟨rest, h6⟩, h7, h8⟩ := end_spec (H := H) (M := M) k w ag hd
  have alone := updateEnd_alone (E := E) (H := H) (v := H data) p h1 (by rw [victim_end]; exact hm) (sideNodes H k d t).length
  unfold update
  rw [hdata]
  simp only [Bool.false_eq_true, if_false]
  rw [hleaf, hash_toNode env (t := leaf k (H data)) (d := 0) trivial hl]
  obtain ⟨st1, g1, i1⟩ := insert_good hg st
  obtain ⟨i1, m1⟩ : onStorage (Store.insert ((leaf k (H data)).hash H) (toNode H 0 (leaf k (H data))).toPrim) st =
      (.ok (st.storage.map ((leaf k (H data)).hash H)), st1) ∧
      st1.storage.map ((leaf k (H data)).hash H) = some (toNode H 0 (leaf k (H data))).toPrim := by
    rcases i1 with i | ⟨_, i⟩
    · exact i
    · exact absurd hr i
  rw [Exec.bind_ok i1, leafKey_leaf, Exec.liftRes_ok_bind, hprim]
  obtain ⟨st2, rt2, sc2, i2⟩ := insert_any k (leafPrim k (H data)) st1
  obtain ⟨i2, m2⟩ : onStorage (Store.insert k (leafPrim k (H data))) st1 = (.ok (st1.storage.map k), st2) ∧
      st2.storage.map = Store.upd st1.storage.map k (some (leafPrim k (H data))) := by
    rcases i2 with i | ⟨_, i, _⟩
    · exact i
    · exact absurd (g1.reliable hr) i
  rw [Exec.bind_ok i2, Exec.get_bind, rt2, g1.root, hroot]
  have ug2 : UGrow H M k (H data) st st2 := by
    refine ⟨sc2.trans g1.sched, fun x => ?_⟩
    rw [m2]
    by_cases hx : x = k
    · exact .inr (.inr ⟨hx, by rw [hx]; simp⟩)
    · rw [Store.upd_of_ne _ _ hx]; exact (g1.map x).imp id .inl
  have hk2 : st2.storage.map k = some (leafPrim k (H data)) := by rw [m2]; simp
  have hl2 : Stored H st2.storage.map 0 (leaf k (H data)) := by
    show st2.storage.map ((leaf k (H data)).hash H) = _
    rw [m2, Store.upd_of_ne]
    · exact m1
    · intro h; exact hl.hash_user env (by simp) (by rw [h]; exact hu)
  have hr2 : st2.storage.Reliable := fun n => by rw [ug2.sched]; exact hr n
  have hs2 := ug2.stored env hu w hin hs
  have hne : t ≠ .empty := by obtain ⟨l, r, rfl⟩ := hnode; simp
  rw [if_neg (fun h => hne ((isPlaceholder_toNode env w hin).1 h))]
  obtain ⟨st3, s3, i3⟩ : ∃ st3, Same st2 st3 ∧ pathSet p (toNode H 0 (leaf k (H data))) st2 =
      (.ok (pathNodes H k d t, sideNodes H k d t), st3) := by
    obtain ⟨l, r, rfl⟩ := hnode
    obtain ⟨st3, s3, i3⟩ := pathSet_inner p env (HasKey.leaf H 0 k (H data)) hd st2 (by rw [rt2, g1.root, hroot]) w hin (ug2.valid hu hv)
    rcases i3 with i3 | ⟨_, i3⟩
    · exact ⟨st3, s3, i3⟩
    · exact absurd ⟨hr2, hs2.path k⟩ i3
  rw [Exec.bind_ok i3]
  have hr3 : st3.storage.Reliable := s3.reliable hr2
  obtain ⟨st4, g4, i4⟩ := merge_sides (E := E) (v := H data) p env w ag hd hin' st3
  obtain ⟨i4, m4⟩ := i4.resolve_right (fun h => h.2 hr3)
  have ug3 : UGrow H M k (H data) st st3 := ⟨s3.sched.trans ug2.sched, fun x => by rw [s3.map]; exact ug2.map x⟩
  have hunf : updateWithPathSet p H (toNode H 0 (leaf k (H data))) (pathNodes H k d t) (sideNodes H k d t) st3 =
      (mergeNodes p H k.val (toNode H (endDepth k d t) (leaf k (H data))) (sideNodes H k d t) >>= fun c => setRootNode p c) st3 := by
    have := congrArg (fun (x : TreeM E Node) => (x >>= fun current => mergeNodes p H k.val current (sideNodes H k d t) >>=
      fun c => setRootNode p c) st3) alone.1
    rw [Exec.pure_bind] at this
    rw [← this]
    unfold updateWithPathSet
    rw [leafKey_leaf, Exec.liftRes_ok_bind, h6]
    simp only []
    rw [Exec.liftRes_ok_bind]
    simp only [Exec.bind_assoc]
    rfl
  have hst4 : Stored H st4.storage.map d (ins k (H data) d t) := by
    refine m4 ⟨?_, ?_⟩
    · rw [alone.2]; show st3.storage.map _ = _; rw [s3.map]; exact hl2
    · rw [s3.map]; exact hs2
  rw [alone.2] at i4
  rw [hunf, Exec.bind_ok i4]
  refine ⟨st4, ⟨g4.sched.trans ug3.sched, fun x => ?_⟩, ?_, ?_, hst4, ?_⟩
  · rcases g4.map x with e | e
    · rw [e]; exact ug3.map x
    · exact .inr (.inl e)
  · rw [g4.root, s3.root, rt2, g1.root, hroot]
  · rw [g4.user env hu, s3.map, hk2]
  · obtain ⟨l, r, rfl⟩ := hnode
    obtain ⟨l', r', e⟩ := ins_is_node (k := k) (v := H data) (l := l) (r := r) (d := d)
    have w' := is.1
    rw [e] at hin' w' ⊢
    exact setRootNode_inner p env w' hin' h0 st4

theorem mem_under {V : Type} {d : Nat} {k : Bytes32} {kv : Entries V} {x : Bytes32 × V} :
    x ∈ under d k kv ↔ x ∈ kv ∧ ∀ i < d, keyBit x.1 i = keyBit k i := by
  unfold under
  rw [List.mem_filter, decide_eq_true_iff]

theorem under_nodup {d : Nat} {k : Bytes32} {kv : Entries Bytes} (h : (keysOf kv).Nodup) : (keysOf (under d k kv)).Nodup :=
  h.sublist (List.filter_sublist.map _)

/-- The part of the tree of a map below an inner node. -/
theorem Ent.branch' {t : T} {kv : Entries Bytes} (h : Ent H t kv) (w : WF 0 t) {d : Nat} {k : Bytes32}
    (h2 : 2 ≤ (under d k kv).length) :
    d ≤ 256 ∧ WF d (descend k d 0 t) ∧ Ag d k (descend k d 0 t) ∧ (∃ l r, descend k d 0 t = node l r) ∧
    (In H M t → In H M (descend k d 0 t)) ∧ (∀ m, Stored H m 0 t → Stored H m d (descend k d 0 t)) ∧
    victim k d (descend k d 0 t) = Spec.met k kv ∧ (∀ v, descend k d 0 (ins k v 0 t) = ins k v d (descend k d 0 t)) ∧
    (descend k d 0 t).hash H = branchOf H d k kv ∧ ∀ x, x ∈ (descend k d 0 t).entries ↔ x ∈ digests H (under d k kv) := by
  obtain ⟨x, y, ys, hes⟩ : ∃ x y ys, under d k kv = x :: y :: ys := by
    match he : under d k kv, h2 with
    | x :: y :: ys, _ => exact ⟨x, y, ys, rfl⟩
  have hx : x ∈ under d k kv := by rw [hes]; simp
  have hy : y ∈ under d k kv := by rw [hes]; simp
  have hne : x.1 ≠ y.1 := by
    have := under_nodup (d := d) (k := k) h.nodup
    rw [hes] at this
    unfold keysOf at this
    simp only [List.map_cons, List.nodup_cons, List.mem_cons, not_or] at this
    exact this.1.1
  obtain ⟨hx1, hx2⟩ := mem_under.1 hx
  obtain ⟨hy1, hy2⟩ := mem_under.1 hy
  have hm : ∀ z : Bytes32 × Bytes, z ∈ kv → (z.1, H z.2) ∈ t.entries := fun z hz =>
    (h.mem _).2 (mem_digests.2 ⟨z.2, hz, rfl⟩)
  obtain ⟨a1, a2, a3, a4, a5, a6, a7, a8, a9⟩ := descend_spec (H := H) (M := M) k d w (Ag.zero k t) (by omega)
    (hm x hx1) (hm y hy1) (fun e => hne (Prod.mk.inj e).1) (fun i hi => by rw [Nat.zero_add]; exact hx2 i hi)
    (fun i hi => by rw [Nat.zero_add]; exact hy2 i hi)
  rw [Nat.zero_add] at a1 a2 a3 a7 a8 a9
  have hents : ∀ x, x ∈ (descend k d 0 t).entries ↔ x ∈ digests H (under d k kv) := by
    rintro ⟨zk, zv⟩
    rw [a5, h.mem, mem_digests, mem_digests]
    constructor
    · rintro ⟨⟨v, hv, e⟩, hz⟩
      exact ⟨v, mem_under.2 ⟨hv, fun i hi => by have := hz i hi; rwa [Nat.zero_add] at this⟩, e⟩
    · rintro ⟨v, hv, e⟩
      obtain ⟨b1, b2⟩ := mem_under.1 hv
      exact ⟨⟨v, b1, e⟩, fun i hi => by rw [Nat.zero_add]; exact b2 i hi⟩
  refine ⟨a1, a2, a3, a4, a6, a7, by rw [a8, h.met w], a9, ?_, hents⟩
  refine (smt_spec H k (fuel := 256 - d) a2 (by omega) (es := digests H (under d k kv)) ?_ hents).1
  show (keysOf (digests H _)).Nodup
  rw [keysOf_digests]
  exact under_nodup h.nodup

theorem Ent.branch {t : T} {kv : Entries Bytes} (h : Ent H t kv) (w : WF 0 t) {d : Nat} {k : Bytes32}
    (h2 : 2 ≤ (under d k kv).length) :
    d ≤ 256 ∧ WF d (descend k d 0 t) ∧ Ag d k (descend k d 0 t) ∧ (∃ l r, descend k d 0 t = node l r) ∧
    (In H M t → In H M (descend k d 0 t)) ∧ (∀ m, Stored H m 0 t → Stored H m d (descend k d 0 t)) ∧
    victim k d (descend k d 0 t) = Spec.met k kv ∧ (∀ v, descend k d 0 (ins k v 0 t) = ins k v d (descend k d 0 t)) ∧
    (descend k d 0 t).hash H = branchOf H d k kv := by
  obtain ⟨a1, a2, a3, a4, a5, a6, a7, a8, a9, _⟩ := h.branch' (M := M) w (d := d) (k := k) h2
  exact ⟨a1, a2, a3, a4, a5, a6, a7, a8, a9⟩

theorem load_inner {t : T} {d : Nat} (h0 : t ≠ .empty) (s : SpStore E) (hs : Stored H s.map d t) (hr : s.sched s.clock = none) :
    Tree.load s (t.hash H) = (.ok ⟨toNode H d t, { s with clock := s.clock + 1 }⟩, { s with clock := s.clock + 1 }) := by
  unfold Tree.load
  rw [Store.get_none _ hr, hs.get h0]
  simp only [ofPrim_toPrim]

end Sparse
end FuelMerkle
