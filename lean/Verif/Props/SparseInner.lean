import Verif.Proofs.SparseGraft
import Verif.Proofs.SparseCanon
import Verif.Props.SparseStore

/-
Property C76 of the sparse Merkle tree: opening a tree at the hash of an inner node.
-/
namespace FuelMerkle
namespace Props
open Sparse Spec
variable {E : Type}

/-- **C76** (1). After any history, the hash of the part of the tree below any prefix shared by
two or more keys can be loaded like a root: the result is a tree with that root. -/
theorem C76_branch_loads (p : Profile) (H : HashFn) (ops : List Op) (hi : IdealFor H ops) (d : Nat) (k : Bytes32)
    (h2 : 2 ≤ (under d k (stateOf ops).kv).length) (s : SpStore E) (hs : ∀ x, s.map x = none) (hr : s.Reliable) :
    ∃ t b s', runAll p H ops (Tree.new s) = (.ok (), t) ∧
      Tree.load t.storage (branchOf H d k (stateOf ops).kv) = (.ok b, s') ∧
      b.root H = branchOf H d k (stateOf ops).kv := by
  obtain ⟨st, t, h1, f, _⟩ := history_full p hi s hs hr
  obtain ⟨a1, a2, a3, ⟨l, r, a4⟩, a5, a6, a7, a8, a9⟩ := f.rep.ent.branch (M := (· ∈ msgsFrom H ⟨[], []⟩ ops)) f.rep.wf (d := d) (k := k) h2
  have hl := load_inner (by rw [a4]; simp) st.storage (a6 _ f.stored) (f.reliable _)
  rw [a9] at hl
  refine ⟨st, _, _, h1, hl, ?_⟩
  show (T.toNode H d _).hash H = _
  rw [T.hash_toNode hi.env a2 (a5 f.rep.inn), a9]

/-- **C76** (2). An update in such a tree, of a key with the prefix whose place is its own or
empty: with debug assertions it panics, after its records were written; without, it returns `Ok`
and the new root is the hash of the same part of the updated map. In both cases the part with
the update can be loaded, and so can the whole tree as it was. -/
theorem C76_branch_update (p : Profile) (H : HashFn) (ops : List Op) (d : Nat) (k : Bytes32) (data : Bytes) (hdata : data ≠ [])
    (hi : IdealFor H (ops ++ [.update k data])) (h0 : 0 < d) (h2 : 2 ≤ (under d k (stateOf ops).kv).length)
    (hm : met k (stateOf ops).kv = none ∨ met k (stateOf ops).kv = some k)
    (s : SpStore E) (hs : ∀ x, s.map x = none) (hr : s.Reliable) :
    ∃ t b s' b', runAll p H ops (Tree.new s) = (.ok (), t) ∧
      Tree.load t.storage (branchOf H d k (stateOf ops).kv) = (.ok b, s') ∧
      update p H k data b = (if p.debugAssertions then .error (.panic .debugAssertion) else .ok (), b') ∧
      b'.root H = (if p.debugAssertions then branchOf H d k (stateOf ops).kv
        else branchOf H d k ((stateOf ops).kv.put k data)) ∧
      (∃ c s'', Tree.load b'.storage (branchOf H d k ((stateOf ops).kv.put k data)) = (.ok c, s'') ∧
        c.root H = branchOf H d k ((stateOf ops).kv.put k data)) ∧
      (∃ c s'', Tree.load b'.storage (rootOf H (stateOf ops).kv) = (.ok c, s'') ∧ c.root H = rootOf H (stateOf ops).kv) := by
  obtain ⟨st, t, h1, f, _⟩ := full_run (E := E) p hi.env ops (Full.new s hs hr)
    (fun op ho => by simp only [List.map_append, List.mem_append, List.mem_map]; exact .inl ⟨op, ho, rfl⟩)
    (fun m hm => msgsFrom_append _ ops _ m (.inl hm)) hi.prefix.2
  change Full H _ _ st (stateOf ops) t at f
  have hu : k ∈ (ops ++ [Op.update k data]).map Op.key := by simp [Op.key]
  have hop : (Op.update k data).data = some data := by unfold Op.data; simp only [if_neg hdata]
  have hst : stateFrom ⟨[], []⟩ (ops ++ [.update k data]) = ⟨(stateOf ops).kv.put k data, k :: (stateOf ops).recs⟩ := by
    rw [stateFrom_append]
    show Op.onState (.update k data) (stateOf ops) = _
    unfold Op.onState
    rw [hop]; rfl
  have hput := f.rep.ent.put f.rep.wf k data
  have wput := (T.ins_spec (k := k) (v := H data) f.rep.wf (T.Ag.zero k t) (by omega)).1
  have input : T.In H (· ∈ msgsFrom H ⟨[], []⟩ (ops ++ [.update k data])) (T.ins k (H data) 0 t) := by
    refine hput.inn wput ⟨fun m hm => msgsFrom_append _ ops _ m (.inr ?_), ?_⟩
    · show m ∈ msgsOf H (stateOf ops).kv ++ msgsFrom H (Op.onState (.update k data) (stateOf ops)) []
      rw [List.mem_append]
      right
      unfold Op.onState
      rw [hop]
      exact hm
    · exact f.solid.put (fun hz => hi.2 (.update k data) (by simp) data hop hz)
  have h2' : 2 ≤ (under d k ((stateOf ops).kv.put k data)).length := by
    have hsub : keysOf (under d k (stateOf ops).kv) ⊆ keysOf (under d k ((stateOf ops).kv.put k data)) := by
      intro x hx
      obtain ⟨⟨a, b⟩, hab, rfl⟩ := List.mem_map.1 hx
      obtain ⟨m1, m2⟩ := mem_under.1 hab
      by_cases ha : a = k
      · exact List.mem_map.2 ⟨(k, data), mem_under.2 ⟨by simp [Entries.put], fun _ _ => rfl⟩, ha.symm⟩
      · exact List.mem_map.2 ⟨(a, b), mem_under.2 ⟨by
          unfold Entries.put Entries.erase
          rw [List.mem_cons, List.mem_filter]
          exact .inr ⟨m1, by simpa using ha⟩, m2⟩, rfl⟩
    have := (List.subperm_of_subset (under_nodup f.rep.ent.nodup) hsub).length_le
    unfold keysOf at this
    rw [List.length_map, List.length_map] at this
    omega
  obtain ⟨a1, a2, a3, a4, a5, a6, a7, a8, a9⟩ :=
    f.rep.ent.branch (M := (· ∈ msgsFrom H ⟨[], []⟩ (ops ++ [.update k data]))) f.rep.wf (d := d) (k := k) h2
  obtain ⟨_, c2, _, _, c5, _, _, _, c9⟩ :=
    hput.branch (M := (· ∈ msgsFrom H ⟨[], []⟩ (ops ++ [.update k data]))) wput (d := d) (k := k) h2'
  rw [a8] at c2 c5 c9
  have hne : descend k d 0 t ≠ T.empty := by obtain ⟨l, r, a4⟩ := a4; rw [a4]; simp
  have hl := load_inner hne st.storage (a6 _ f.stored) (f.reliable _)
  rw [a9] at hl
  obtain ⟨b', g, g1, g2, g3, g4⟩ := update_inner (E := E) p hi.env (data := data) (by simpa using hdata) hu a4 h0 a1 a2 a3 (a5 f.rep.inn) (c5 input)
    (by rw [a7]; exact hm)
    ⟨T.toNode H d (descend k d 0 t), { st.storage with clock := st.storage.clock + 1 }⟩ rfl f.rep.valid (a6 _ f.stored) f.reliable
  have hrb : b'.storage.sched = st.storage.sched := g.sched
  have ht0 : t ≠ .empty := by
    rintro rfl
    have : (stateOf ops).kv = [] := (f.rep.ent.nil f.rep.wf).1 rfl
    rw [this] at h2
    simp [under] at h2
  have l1 := load_inner (H := H) (t := T.ins k (H data) d (descend k d 0 t)) (d := d)
    (by obtain ⟨l, r, e⟩ := a4; rw [e]; obtain ⟨l', r', e'⟩ := ins_is_node (k := k) (v := H data) (l := l) (r := r) (d := d); rw [e']; simp)
    b'.storage g3 (by rw [hrb]; exact f.reliable _)
  have l2 := load_inner (H := H) ht0 b'.storage (g.stored hi.env hu f.rep.wf f.rep.inn f.stored) (by rw [hrb]; exact f.reliable _)
  rw [c9] at l1
  rw [f.rep.ent.root f.rep.wf] at l2
  have hold : (T.toNode H d (descend k d 0 t)).hash H = branchOf H d k (stateOf ops).kv := by
    rw [T.hash_toNode hi.env a2 (a5 f.rep.inn), a9]
  have hnew : (T.toNode H d (T.ins k (H data) d (descend k d 0 t))).hash H = branchOf H d k ((stateOf ops).kv.put k data) := by
    rw [T.hash_toNode hi.env c2 (c5 input), c9]
  have hc1 : ∃ c s'', Tree.load b'.storage (branchOf H d k ((stateOf ops).kv.put k data)) = (.ok c, s'') ∧
      c.root H = branchOf H d k ((stateOf ops).kv.put k data) := ⟨_, _, l1, hnew⟩
  have hc2 : ∃ c s'', Tree.load b'.storage (rootOf H (stateOf ops).kv) = (.ok c, s'') ∧ c.root H = rootOf H (stateOf ops).kv := by
    refine ⟨_, _, l2, ?_⟩
    show (T.toNode H 0 t).hash H = _
    rw [T.hash_toNode hi.env f.rep.wf f.rep.inn, f.rep.ent.root f.rep.wf]
  cases hp : p.debugAssertions with
  | true =>
    rw [hp, if_pos rfl] at g4
    refine ⟨st, _, _, b', h1, hl, by rw [if_pos rfl]; exact g4, ?_, hc1, hc2⟩
    rw [if_pos rfl]
    unfold Tree.root
    rw [g1]; exact hold
  | false =>
    rw [hp, if_neg (by simp)] at g4
    refine ⟨st, _, _, { b' with rootNode := T.toNode H d (T.ins k (H data) d (descend k d 0 t)) }, h1, hl, by rw [if_neg (by simp)]; exact g4, ?_, hc1, hc2⟩
    rw [if_neg (by simp)]
    exact hnew

/-- Keys starting with the bits 100, 110 and 101. -/
def keyP : Bytes32 := ⟨0x80 :: List.replicate 31 0, by decide⟩
def keyQ : Bytes32 := ⟨0xC0 :: List.replicate 31 0, by decide⟩
def keyR : Bytes32 := ⟨0xA0 :: List.replicate 31 0, by decide⟩
/-- A key starting with the bit 0. -/
def keyO : Bytes32 := ⟨0x40 :: List.replicate 31 0, by decide⟩

def branchOps : List Op := [.update keyO [9], .update keyP [1], .update keyQ [2]]

theorem branchOps_ideal : IdealFor Sha256.sha256 (branchOps ++ [.update keyP [3]]) :=
  ⟨⟨by decide +kernel, by decide +kernel, by decide +kernel⟩, noPhantom_of_keys (by decide +kernel)⟩

example : IdealFor Sha256.sha256 branchOps ∧ 2 ≤ (under 1 keyP (stateOf branchOps).kv).length ∧
    branchOf Sha256.sha256 1 keyP (stateOf branchOps).kv ≠ rootOf Sha256.sha256 (stateOf branchOps).kv :=
  ⟨branchOps_ideal.prefix, by decide +kernel, by decide +kernel⟩

example : IdealFor Sha256.sha256 (branchOps ++ [.update keyP [3]]) ∧ 2 ≤ (under 1 keyP (stateOf branchOps).kv).length ∧
    met keyP (stateOf branchOps).kv = some keyP :=
  ⟨branchOps_ideal, by decide +kernel, by decide +kernel⟩

/-- A tree over three keys. -/
def branchTree : Except (Fail (Sparse.Error Unit)) Unit × Tree Unit :=
  runAll ⟨true, true, .w64⟩ Sha256.sha256 branchOps (Tree.new ⟨fun _ => none, fun _ => none, 0⟩)

/-- The tree opened at the inner node above the keys that start with bit 1. -/
def strayTree : Tree Unit :=
  match (Tree.load branchTree.2.storage (branchOf Sha256.sha256 1 keyP (stateOf branchOps).kv)).1 with
  | .ok t => t
  | .error _ => branchTree.2

def strayUpdate : Except (Fail (Sparse.Error Unit)) Unit × Tree Unit := update ⟨true, true, .w64⟩ Sha256.sha256 keyR [3] strayTree
def strayDelete : Except (Fail (Sparse.Error Unit)) Unit × Tree Unit := delete ⟨true, true, .w64⟩ Sha256.sha256 keyQ strayUpdate.2

theorem stray_facts : (branchTree.1 = .ok ()) ∧
    ((Tree.load branchTree.2.storage (branchOf Sha256.sha256 1 keyP (stateOf branchOps).kv)).1.isOk = true) ∧
    (strayUpdate.1 = .ok ()) ∧
    (strayDelete.1 = .ok ()) ∧
    (strayDelete.2.root Sha256.sha256 = strayUpdate.2.root Sha256.sha256) ∧
    (strayUpdate.2.root Sha256.sha256 ≠ rootOf Sha256.sha256 ((stateOf branchOps).kv.put keyR [3])) ∧
    (strayUpdate.2.root Sha256.sha256 ≠ branchOf Sha256.sha256 1 keyR ((stateOf branchOps).kv.put keyR [3])) ∧
    (keyQ ∈ keysOf (under 1 keyP (stateOf branchOps).kv)) := by
  decide +kernel

/-- **C76 fails** (3). An update in such a tree of a new key whose place is taken by another key:
it returns `Ok` in every build, and the root belongs neither to the whole map nor to its part.
A key of the part is then lost: deleting it returns `Ok` and changes nothing. -/
theorem C76_branch_fork_corrupts (p : Profile) : ∃ t b s' b' b'',
    runAll p Sha256.sha256 branchOps (Tree.new (⟨fun _ => none, fun _ => none, 0⟩ : SpStore Unit)) = (.ok (), t) ∧
    Tree.load t.storage (branchOf Sha256.sha256 1 keyP (stateOf branchOps).kv) = (.ok b, s') ∧
    update p Sha256.sha256 keyR [3] b = (.ok (), b') ∧
    b'.root Sha256.sha256 ≠ rootOf Sha256.sha256 ((stateOf branchOps).kv.put keyR [3]) ∧
    b'.root Sha256.sha256 ≠ branchOf Sha256.sha256 1 keyR ((stateOf branchOps).kv.put keyR [3]) ∧
    keyQ ∈ keysOf (under 1 keyP (stateOf branchOps).kv) ∧
    delete p Sha256.sha256 keyQ b' = (.ok (), b'') ∧ b''.root Sha256.sha256 = b'.root Sha256.sha256 := by
  obtain ⟨h1, h2, h3, h4, h5, h6, h7, h8⟩ := stray_facts
  unfold strayDelete at h4 h5
  unfold strayUpdate at h3 h4 h5 h6 h7
  unfold strayTree at h3 h4 h5 h6 h7
  unfold branchTree at h1 h2 h3 h4 h5 h6 h7
  generalize rootOf Sha256.sha256 ((stateOf branchOps).kv.put keyR [3]) = w1 at h6 ⊢
  generalize branchOf Sha256.sha256 1 keyR ((stateOf branchOps).kv.put keyR [3]) = w2 at h7 ⊢
  generalize branchOf Sha256.sha256 1 keyP (stateOf branchOps).kv = w3 at h2 h3 h4 h5 h6 h7 ⊢
  generalize hX : runAll ⟨true, true, .w64⟩ Sha256.sha256 branchOps (Tree.new (⟨fun _ => none, fun _ => none, 0⟩ : SpStore Unit)) = X at h1 h2 h3 h4 h5 h6 h7
  obtain ⟨r, t⟩ := X
  dsimp only at h1 h2 h3 h4 h5 h6 h7
  subst h1
  generalize hL : Tree.load t.storage w3 = L at h2 h3 h4 h5 h6 h7
  obtain ⟨_ | b, s'⟩ := L
  · cases h2
  dsimp only at h3 h4 h5 h6 h7
  generalize hU : update ⟨true, true, .w64⟩ Sha256.sha256 keyR [3] b = B at h3 h4 h5 h6 h7
  obtain ⟨r, b'⟩ := B
  dsimp only at h3 h4 h5 h6 h7
  subst h3
  generalize hD : delete ⟨true, true, .w64⟩ Sha256.sha256 keyQ b' = D at h4 h5
  obtain ⟨r, b''⟩ := D
  dsimp only at h4 h5
  subst h4
  exact ⟨t, b, s', b', b'', (runAll_safe (debug_stricter p) _ _).transfer hX (by simp), hL,
    (update_safe (debug_stricter p) _ _ _).transfer hU (by simp), h6, h7, h8,
    (delete_safe (debug_stricter p) _ _).transfer hD (by simp), h5⟩

/-- The hash function behaves for a history and for the update in the part. -/
structure IdealFork (H : HashFn) (ops : List Op) (d : Nat) (k : Bytes32) (data : Bytes) (more : List Bytes) : Prop where
  ideal : Ideal H (msgsFrom H ⟨[], []⟩ ops ++ displacedRootMsgs H d k data (stateOf ops).kv ++ more) (k :: ops.map Op.key)
  calls : NoPhantom H (.update k data :: ops)

section
variable {H : HashFn} {ops : List Op} {d : Nat} {k k' : Bytes32} {data : Bytes} {more : List Bytes}

theorem IdealFork.env (h : IdealFork H ops d k data more) :
    Env H (· ∈ msgsFrom H ⟨[], []⟩ ops ++ displacedRootMsgs H d k data (stateOf ops).kv ++ more) (· ∈ k :: ops.map Op.key) := h.ideal.env

/-- What is known of the part and of the tree the update makes of it. -/
theorem fork_facts (hi : IdealFork H ops d k data more) (hdata : data ≠ []) (h2 : 2 ≤ (under d k (stateOf ops).kv).length)
    (hm : met k (stateOf ops).kv = some k') (hk : k ≠ k') {t : T} (w : T.WF 0 t) (ent : Ent H t (stateOf ops).kv)
    (inn : T.In H (· ∈ msgsFrom H ⟨[], []⟩ ops ++ displacedRootMsgs H d k data (stateOf ops).kv ++ more) t) :
    d ≤ 256 ∧ ∃ v', endTree k d (descend k d 0 t) = .leaf k' v' ∧
      T.In H (· ∈ msgsFrom H ⟨[], []⟩ ops ++ displacedRootMsgs H d k data (stateOf ops).kv ++ more)
        (graft k (H data) d 0 (descend k d 0 t)) ∧
      (graft k (H data) d 0 (descend k d 0 t)).hash H = displacedRoot H d k data (stateOf ops).kv := by
  obtain ⟨a1, a2, a3, a4, a5, a6, a7, a8, a9, a10⟩ :=
    ent.branch' (M := (· ∈ msgsFrom H ⟨[], []⟩ ops ++ displacedRootMsgs H d k data (stateOf ops).kv ++ more)) w (d := d) (k := k) h2
  have hop : (Op.update k data).data = some data := by unfold Op.data; simp only [if_neg hdata]
  obtain ⟨e1, _⟩ := end_spec (H := H) (M := fun _ => True) k a2 a3 a1
  have hv := victim_end k (descend k d 0 t) d
  rw [a7, hm] at hv
  obtain ⟨v', hend⟩ : ∃ v', endTree k d (descend k d 0 t) = .leaf k' v' := by
    revert hv e1
    cases endTree k d (descend k d 0 t) with
    | empty => intro _ h; cases h
    | leaf a b => intro _ h; rw [T.victim] at h; cases h; exact ⟨b, rfl⟩
    | node l r => intro h _; exact absurd rfl (h l r)
  have gs := graft_spec H (v := H data) hk (d := d) (j := 0) (fuel := 256 - d) (t := descend k d 0 t)
    (es := digests H (under d k (stateOf ops).kv)) (by rwa [Nat.zero_add]) (by rwa [Nat.zero_add]) (by omega) (by rwa [Nat.zero_add])
    (by
      show (keysOf (digests H _)).Nodup
      rw [keysOf_digests]
      exact under_nodup ent.nodup) a10
  refine ⟨a1, v', hend, ⟨fun m hm => ?_, fun hz => ?_⟩, gs.1⟩
  · rcases gs.2.1 m hm with h | h
    · exact (a5 inn).1 m h
    · exact List.mem_append_left _ (List.mem_append_right _ h)
  · rcases gs.2.2 _ hz with h | h
    · obtain ⟨h1, h2⟩ := Prod.mk.inj h
      exact hi.calls (.update k data) (by simp) data hop h1.symm h2.symm
    · exact (a5 inn).2 h

/-- **C76** (4). An update in such a tree, of a key whose place is taken by another key, after any
history: it returns `Ok` in every build. The root is the one of a tree in which the nodes beside
the path are as many levels too high as the part is below the root. -/
theorem C76_branch_fork (p : Profile) (hdata : data ≠ []) (hi : IdealFork H ops d k data [])
    (h2 : 2 ≤ (under d k (stateOf ops).kv).length) (hm : met k (stateOf ops).kv = some k') (hk : k ≠ k')
    (s : SpStore E) (hs : ∀ x, s.map x = none) (hr : s.Reliable) :
    ∃ t b s' b', runAll p H ops (Tree.new s) = (.ok (), t) ∧
      Tree.load t.storage (branchOf H d k (stateOf ops).kv) = (.ok b, s') ∧
      update p H k data b = (.ok (), b') ∧
      b'.root H = displacedRoot H d k data (stateOf ops).kv := by
  obtain ⟨st, t, h1, f, _⟩ := full_run (E := E) p hi.env ops (Full.new s hs hr)
    (fun op ho => List.mem_cons_of_mem _ (List.mem_map.2 ⟨op, ho, rfl⟩))
    (fun m hm => List.mem_append_left _ (List.mem_append_left _ hm)) (fun op ho => hi.calls op (List.mem_cons_of_mem _ ho))
  change Full H _ _ st (stateOf ops) t at f
  obtain ⟨a1, a2, a3, a4, a5, a6, a7, a8, a9, a10⟩ :=
    f.rep.ent.branch' (M := (· ∈ msgsFrom H ⟨[], []⟩ ops ++ displacedRootMsgs H d k data (stateOf ops).kv ++ [])) f.rep.wf (d := d) (k := k) h2
  obtain ⟨_, v', hend, hin', hroot⟩ := fork_facts hi hdata h2 hm hk f.rep.wf f.rep.ent f.rep.inn
  have hl := load_inner (by obtain ⟨l, r, a4⟩ := a4; rw [a4]; simp) st.storage (a6 _ f.stored) (f.reliable _)
  rw [a9] at hl
  obtain ⟨b', g1, g2⟩ := update_graft (E := E) p hi.env (data := data) (by simpa using hdata) (by simp) hk a4 a1 a2 a3 (a5 f.rep.inn)
    hend hin' ⟨T.toNode H d (descend k d 0 t), { st.storage with clock := st.storage.clock + 1 }⟩ rfl f.rep.valid (a6 _ f.stored) f.reliable
  refine ⟨st, _, _, b', h1, hl, g2, ?_⟩
  unfold Tree.root
  rw [g1, ← hroot]
  exact ((graft_inner (v := H data) hk (d := d) (j := 0) (t := descend k d 0 t) (by rwa [Nat.zero_add]) (by rwa [Nat.zero_add])
    (by omega) (by rwa [Nat.zero_add])).facts hi.env hin' 0).2.2

/-- **C76** (5). That root belongs to no map: it is not the root of any map, and not the hash of
any part of any map, whatever the map holds. -/
theorem C76_fork_of_no_map (hdata : data ≠ []) (kv : Entries Bytes) (hkv : (keysOf kv).Nodup)
    (hz : ∀ x ∈ kv, x.1 = zero32 → H x.2 ≠ zero32)
    (hi : IdealFork H ops d k data (msgsOf H kv)) (h0 : 0 < d)
    (h2 : 2 ≤ (under d k (stateOf ops).kv).length) (hm : met k (stateOf ops).kv = some k') (hk : k ≠ k') :
    displacedRoot H d k data (stateOf ops).kv ≠ rootOf H kv ∧
      ∀ e q, displacedRoot H d k data (stateOf ops).kv ≠ branchOf H e q kv := by
  obtain ⟨_, t, _, f, _⟩ := full_run (E := Unit) ⟨true, true, .w64⟩ hi.env ops (Full.new ⟨fun _ => none, fun _ => none, 0⟩ (fun _ => rfl) (fun _ => rfl))
    (fun op ho => List.mem_cons_of_mem _ (List.mem_map.2 ⟨op, ho, rfl⟩))
    (fun m hm => List.mem_append_left _ (List.mem_append_left _ hm)) (fun op ho => hi.calls op (List.mem_cons_of_mem _ ho))
  change Full H _ _ _ (stateOf ops) t at f
  obtain ⟨a1, a2, a3, a4, a5, a6, a7, a8, a9, a10⟩ :=
    f.rep.ent.branch' (M := (· ∈ msgsFrom H ⟨[], []⟩ ops ++ displacedRootMsgs H d k data (stateOf ops).kv ++ msgsOf H kv)) f.rep.wf (d := d) (k := k) h2
  obtain ⟨_, v', hend, hin', hroot⟩ := fork_facts hi hdata h2 hm hk f.rep.wf f.rep.ent f.rep.inn
  obtain ⟨u, wu, eu⟩ := exists_tree H kv hkv
  have iu : T.In H (· ∈ msgsFrom H ⟨[], []⟩ ops ++ displacedRootMsgs H d k data (stateOf ops).kv ++ msgsOf H kv) u :=
    eu.inn wu ⟨fun m hm => List.mem_append_right _ hm, fun h => by
      obtain ⟨b, b1, b2⟩ := mem_digests.1 h
      exact hz _ b1 rfl b2.symm⟩
  have gi := graft_inner (v := H data) hk (d := d) (j := 0) (t := descend k d 0 t) (by rwa [Nat.zero_add]) (by rwa [Nat.zero_add])
    (by omega) (by rwa [Nat.zero_add])
  have key : ∀ e (x : T), T.WF e x → T.In H (· ∈ msgsFrom H ⟨[], []⟩ ops ++ displacedRootMsgs H d k data (stateOf ops).kv ++ msgsOf H kv) x →
      displacedRoot H d k data (stateOf ops).kv ≠ x.hash H := by
    intro e x wx ix h
    rw [← hroot] at h
    have := T.hash_inj hi.env hin' ix h
    exact graft_not_WF (v := H data) (d' := e) hk h0 (j := 0) (t := descend k d 0 t) (by rwa [Nat.zero_add]) (by rwa [Nat.zero_add])
      (by omega) (by rwa [Nat.zero_add]) a4 (by rw [this]; exact wx)
  refine ⟨by rw [← eu.root wu]; exact key 0 u wu iu, fun e q => ?_⟩
  by_cases hlen : 2 ≤ (under e q kv).length
  · obtain ⟨_, b2, _, _, b5, _, _, _, b9⟩ :=
      eu.branch (M := (· ∈ msgsFrom H ⟨[], []⟩ ops ++ displacedRootMsgs H d k data (stateOf ops).kv ++ msgsOf H kv)) wu (d := e) (k := q) hlen
    rw [← b9]
    exact key e _ b2 (b5 iu)
  · have hsub : ∀ x ∈ under e q kv, x ∈ kv := fun x hx => (mem_under.1 hx).1
    unfold branchOf
    match hu : under e q kv, hlen with
    | [], _ =>
      show _ ≠ smt H (256 - e) e []
      rw [smt]
      exact key 0 .empty trivial T.In.empty
    | [x], _ =>
      show _ ≠ smt H (256 - e) e [(x.1, H x.2)]
      rw [smt]
      exact key 0 (.leaf x.1 (H x.2)) trivial (iu.leaf_of_mem ((eu.mem _).2 (mem_digests.2 ⟨x.2, hsub x (by rw [hu]; simp), rfl⟩)))
    | x :: y :: ys, h => exact absurd (by simp) h

end

theorem fork_ideal : IdealFork Sha256.sha256 branchOps 1 keyR [3] (msgsOf Sha256.sha256 ((stateOf branchOps).kv.put keyR [3])) :=
  ⟨⟨by decide +kernel, by decide +kernel, by decide +kernel⟩, noPhantom_of_keys (by decide +kernel)⟩

example : IdealFork Sha256.sha256 branchOps 1 keyR [3] [] ∧ 2 ≤ (under 1 keyR (stateOf branchOps).kv).length ∧
    met keyR (stateOf branchOps).kv = some keyP ∧ keyR ≠ keyP :=
  ⟨⟨⟨fun a ha b hb => fork_ideal.ideal.distinct a (List.mem_append_left _ (by simpa using ha)) b (List.mem_append_left _ (by simpa using hb)),
    fun a ha => fork_ideal.ideal.nonzero a (List.mem_append_left _ (by simpa using ha)),
    fun a ha => fork_ideal.ideal.apart a (List.mem_append_left _ (by simpa using ha))⟩, fork_ideal.calls⟩,
    by decide +kernel, by decide +kernel, by decide +kernel⟩

/-- The update of the example above. -/
example : displacedRoot Sha256.sha256 1 keyR [3] (stateOf branchOps).kv = strayUpdate.2.root Sha256.sha256 := by decide +kernel

example : (keysOf ((stateOf branchOps).kv.put keyR [3])).Nodup ∧
    (∀ x ∈ (stateOf branchOps).kv.put keyR [3], x.1 = zero32 → Sha256.sha256 x.2 ≠ zero32) := by
  constructor <;> decide +kernel

end Props
end FuelMerkle
