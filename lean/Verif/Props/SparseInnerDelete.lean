import Verif.Proofs.SparseInnerDelete
import Verif.Props.SparseInner
import Verif.Props.SparseRoot

/-
Property C76 of the sparse Merkle tree, continued: deletes in a tree opened at an inner node.
-/
namespace FuelMerkle
namespace Props
open Sparse Spec
variable {E : Type}

theorem under_erase (d : Nat) (k : Bytes32) (kv : Entries Bytes) : under d k (kv.erase k) = (under d k kv).erase k := by
  unfold under Entries.erase
  rw [List.filter_filter, List.filter_filter]
  congr 1
  funext x
  rw [Bool.and_comm]

/-- A delete in a part of a tree, of a key of the part. -/
theorem delete_part (p : Profile) {H : HashFn} {M : Bytes → Prop} {U : Bytes32 → Prop} (env : Env H M U) {d : Nat} {k : Bytes32} (hu : U k)
    {st : Tree E} {s : State} {t : T} (f : Full H M U st s t) (hfit : Fits H M (s.kv.erase k)) (h0 : 0 < d)
    (h2 : 2 ≤ (under d k s.kv).length) (hk : k ∈ keysOf s.kv) (hrec : k ∈ s.recs) :
    ∃ b s' b', Tree.load st.storage (branchOf H d k s.kv) = (.ok b, s') ∧
      (if p.debugAssertions = true ∧ 2 ≤ (under d k (s.kv.erase k)).length then
          delete p H k b = (.error (.panic .debugAssertion), b') ∧ b'.root H = branchOf H d k s.kv
        else delete p H k b = (.ok (), b') ∧ b'.root H = branchOf H d k (s.kv.erase k)) ∧
      (∃ c s'', Tree.load b'.storage (branchOf H d k (s.kv.erase k)) = (.ok c, s'') ∧
        c.root H = branchOf H d k (s.kv.erase k)) ∧
      (∃ c, Tree.load b'.storage (rootOf H s.kv) = (.ok c, c.storage) ∧ Rep H M U c t s.kv ∧ c.storage.Reliable ∧
        c.storage.map = b'.storage.map) ∧
      (∃ l r, descend k d 0 t = .node l r) ∧
      (∀ x, U x → x ≠ zero32 → (st.storage.map x).isSome = true → (b'.storage.map x).isSome = true) ∧
      ∃ y, y = (descend k d 0 t).hash H ∧ y ≠ zero32 ∧ b'.storage.map y = none := by
  have hmet : met k s.kv = some k := met_self f.rep.ent.nodup hk
  have hem : eraseMet s.kv k = s.kv.erase k := by unfold eraseMet; rw [hmet]
  have hdel := f.rep.ent.del f.rep.wf k
  rw [hem] at hdel
  have wdel := (T.del_spec (k := k) f.rep.wf).1
  have indel := hdel.inn wdel hfit
  obtain ⟨a1, a2, a3, a4, a5, a6, a7, a8, a9, a10⟩ :=
    f.rep.ent.branch' (M := M) f.rep.wf (d := d) (k := k) h2
  have indel' := del_descend_in k d a4 indel
  rw [Nat.zero_add] at indel'
  have hne : descend k d 0 t ≠ T.empty := by obtain ⟨l, r, a4⟩ := a4; rw [a4]; simp
  obtain ⟨w', hent, _⟩ := T.del_spec (k := k) a2
  rw [a7, hmet] at hent
  have hents : ∀ x, x ∈ (T.del k d (descend k d 0 t)).entries ↔ x ∈ digests H (under d k (s.kv.erase k)) := by
    rintro ⟨x, v⟩
    rw [hent, a10, under_erase, mem_digests, mem_digests]
    unfold Entries.erase
    constructor
    · rintro ⟨⟨y, hy, e⟩, hx⟩
      exact ⟨y, List.mem_filter.2 ⟨hy, by simpa using hx⟩, e⟩
    · rintro ⟨y, hy, e⟩
      obtain ⟨y1, y2⟩ := List.mem_filter.1 hy
      exact ⟨⟨y, y1, e⟩, by simpa using y2⟩
  have hnd : (keysOf (digests H (under d k (s.kv.erase k)))).Nodup := by
    rw [keysOf_digests]
    exact under_nodup hdel.nodup
  have hnew : (T.del k d (descend k d 0 t)).hash H = branchOf H d k (s.kv.erase k) :=
    (T.smt_spec H k (fuel := 256 - d) w' (by omega) hnd hents).1
  have hlen : (T.del k d (descend k d 0 t)).entries.length = (under d k (s.kv.erase k)).length := by
    have : (digests H (under d k (s.kv.erase k))).length = (under d k (s.kv.erase k)).length := by
      simp [digests]
    rw [← this]
    refine ((List.perm_ext_iff_of_nodup ?_ ?_).2 hents).length_eq
    · exact List.Nodup.of_map _ (T.nodup w')
    · exact List.Nodup.of_map _ hnd
  have hlen1 : 1 ≤ (under d k (s.kv.erase k)).length := by
    obtain ⟨x, y, ys, hes⟩ : ∃ x y ys, under d k s.kv = x :: y :: ys := by
      match he : under d k s.kv, h2 with
      | x :: y :: ys, _ => exact ⟨x, y, ys, rfl⟩
    have hnu := under_nodup (d := d) (k := k) f.rep.ent.nodup
    rw [hes] at hnu
    unfold keysOf at hnu
    simp only [List.map_cons, List.nodup_cons, List.mem_cons, not_or] at hnu
    rw [under_erase, hes]
    by_cases hx : x.1 = k
    · exact List.length_pos_of_mem (a := y) (List.mem_filter.2 ⟨by simp, by simpa [← hx] using fun e => hnu.1.1 e.symm⟩)
    · exact List.length_pos_of_mem (a := x) (List.mem_filter.2 ⟨by simp, by simpa using hx⟩)
  have hne' : T.del k d (descend k d 0 t) ≠ T.empty := by
    intro e
    rw [e] at hlen
    simp only [T.entries, List.length_nil] at hlen
    omega
  have hl := load_inner hne st.storage (a6 _ f.stored) (f.reliable _)
  rw [a9] at hl
  obtain ⟨v, hv⟩ : ∃ v, st.storage.map k = some (leafPrim k v) := by
    obtain ⟨q, hq⟩ := Option.isSome_iff_exists.1 ((f.recs k hu).2 hrec)
    obtain ⟨v, rfl⟩ := f.rep.valid.user_rec env hu hq
    exact ⟨v, hq⟩
  obtain ⟨b', g1, g2, g3, g4, gone, g5⟩ := delete_inner (E := E) p env a4 h0 a1 a2 (a5 f.rep.inn) indel'
    ⟨T.toNode H d (descend k d 0 t), { st.storage with clock := st.storage.clock + 1 }⟩ rfl f.rep.valid (a6 _ f.stored) f.reliable hv
  have hrb : b'.storage.sched = st.storage.sched := g2
  have ht0 : t ≠ .empty := by
    rintro rfl
    have : s.kv = [] := (f.rep.ent.nil f.rep.wf).1 rfl
    rw [this] at h2
    simp [under] at h2
  have l1 := load_inner (H := H) hne' b'.storage g4 (by rw [hrb]; exact f.reliable _)
  rw [hnew] at l1
  have hold : (T.toNode H d (descend k d 0 t)).hash H = branchOf H d k s.kv := by
    rw [T.hash_toNode env a2 (a5 f.rep.inn), a9]
  have hnew' : (T.toNode H d (T.del k d (descend k d 0 t))).hash H = branchOf H d k (s.kv.erase k) := by
    rw [T.hash_toNode env w' indel', hnew]
  have hc1 : ∃ c s'', Tree.load b'.storage (branchOf H d k (s.kv.erase k)) = (.ok c, s'') ∧
      c.root H = branchOf H d k (s.kv.erase k) := ⟨_, _, l1, hnew'⟩
  have hrootrec : b'.storage.map (t.hash H) = some (T.toNode H 0 t).toPrim := by
    rcases g3 (t.hash H) with e | ⟨q, e, hg⟩ | ⟨hm, _⟩
    · rw [e]; exact f.stored.get ht0
    · rw [e, hg.unique env f.rep.wf f.rep.inn rfl]
    · exfalso
      obtain ⟨q, hq, e⟩ := List.mem_map.1 hm
      have := T.hash_inj env (pathTrees_in k a2 (a5 f.rep.inn) q hq).2.1 f.rep.inn e
      subst this
      have e1 := pathTrees_size k _ hq
      have e2 := descend_smaller h0 a4
      omega
  have hvalid : Valid H M U b'.storage.map := by
    intro x q hx
    rcases g3 x with e | ⟨q', e, hg⟩ | ⟨_, e⟩
    · rw [e] at hx; exact f.rep.valid x q hx
    · rw [e] at hx; cases hx; exact .inl hg
    · rw [e] at hx; cases hx
  have hgone : b'.storage.map ((descend k d 0 t).hash H) = none := gone (by rw [a7, hmet]; simp)
  have hc2 : ∃ c, Tree.load b'.storage (rootOf H s.kv) = (.ok c, c.storage) ∧ Rep H M U c t s.kv ∧ c.storage.Reliable ∧
      c.storage.map = b'.storage.map := by
    rw [f.rep.ent.root f.rep.wf] at hrootrec
    refine ⟨⟨T.toNode H 0 t, { b'.storage with clock := b'.storage.clock + 1 }⟩, ?_, ⟨f.rep.wf, f.rep.inn, f.rep.ent, rfl, hvalid⟩,
      fun n => by show b'.storage.sched n = none; rw [hrb]; exact f.reliable n, rfl⟩
    unfold Tree.load
    rw [Store.get_none _ (by rw [hrb]; exact f.reliable _), hrootrec]
    simp only [ofPrim_toPrim]
  rw [hlen] at g5
  have hkeep : ∀ x, U x → x ≠ zero32 → (st.storage.map x).isSome = true → (b'.storage.map x).isSome = true := by
    intro x hx hx0 h
    rcases g3 x with e | ⟨q', e, _⟩ | ⟨hm, _⟩
    · rw [e]; exact h
    · rw [e]; rfl
    · exfalso
      obtain ⟨q, hq, rfl⟩ := List.mem_map.1 hm
      have hinq := (pathTrees_in k a2 (a5 f.rep.inn) q hq).2.1
      by_cases hqe : q = .empty
      · subst hqe; exact hx0 rfl
      · exact hinq.hash_user env hqe hx
  have hgone' : ∃ y, y = (descend k d 0 t).hash H ∧ y ≠ zero32 ∧ b'.storage.map y = none :=
    ⟨_, rfl, fun e => (a5 f.rep.inn).hash_ne env hne (e.trans zeroSum_eq.symm), hgone⟩
  by_cases hc : p.debugAssertions = true ∧ 2 ≤ (under d k (s.kv.erase k)).length
  · rw [if_pos (by simp [hc.1, hc.2])] at g5
    refine ⟨_, _, b', hl, ?_, hc1, hc2, a4, hkeep, hgone'⟩
    rw [if_pos hc]
    refine ⟨g5, ?_⟩
    unfold Tree.root
    rw [g1]; exact hold
  · rw [if_neg (by simpa using hc)] at g5
    refine ⟨_, _, { b' with rootNode := T.toNode H d (T.del k d (descend k d 0 t)) }, hl, ?_, hc1, hc2, a4, hkeep, hgone'⟩
    rw [if_neg hc]
    exact ⟨g5, hnew'⟩

/-- **C76** (6). A delete in such a tree, of a key of the part: with debug assertions it panics if
two or more keys of the part remain, after its records were written and removed; otherwise it
returns `Ok` and the new root is the hash of the part of the map without the key. In both cases
the part without the key can be loaded, and the root of the whole tree as it was is still
accepted by `load`. -/
theorem C76_branch_delete (p : Profile) (H : HashFn) (ops : List Op) (d : Nat) (k : Bytes32)
    (hi : IdealFor H (ops ++ [.delete k])) (h0 : 0 < d) (h2 : 2 ≤ (under d k (stateOf ops).kv).length)
    (hk : k ∈ keysOf (stateOf ops).kv) (hz : k ≠ zero32)
    (s : SpStore E) (hs : ∀ x, s.map x = none) (hr : s.Reliable) :
    ∃ t b s' b', runAll p H ops (Tree.new s) = (.ok (), t) ∧
      Tree.load t.storage (branchOf H d k (stateOf ops).kv) = (.ok b, s') ∧
      (if p.debugAssertions = true ∧ 2 ≤ (under d k ((stateOf ops).kv.erase k)).length then
          delete p H k b = (.error (.panic .debugAssertion), b') ∧ b'.root H = branchOf H d k (stateOf ops).kv
        else delete p H k b = (.ok (), b') ∧ b'.root H = branchOf H d k ((stateOf ops).kv.erase k)) ∧
      (∃ c s'', Tree.load b'.storage (branchOf H d k ((stateOf ops).kv.erase k)) = (.ok c, s'') ∧
        c.root H = branchOf H d k ((stateOf ops).kv.erase k)) ∧
      (∃ c s'', Tree.load b'.storage (rootOf H (stateOf ops).kv) = (.ok c, s'') ∧ c.root H = rootOf H (stateOf ops).kv) := by
  obtain ⟨st, t, h1, f, _⟩ := full_run (E := E) p hi.env ops (Full.new s hs hr)
    (fun op ho => by simp only [List.map_append, List.mem_append, List.mem_map]; exact .inl ⟨op, ho, rfl⟩)
    (fun m hm => msgsFrom_append _ ops _ m (.inl hm)) hi.prefix.2
  change Full H _ _ st (stateOf ops) t at f
  have hu : k ∈ (ops ++ [Op.delete k]).map Op.key := by simp [Op.key]
  have hrec : k ∈ (stateOf ops).recs := stored_recs ops k (stateKeys_stored ops k hk) hz
  have hfit : Fits H (· ∈ msgsFrom H ⟨[], []⟩ (ops ++ [.delete k])) ((stateOf ops).kv.erase k) := by
    refine ⟨fun m hm => msgsFrom_append _ ops _ m (.inr ?_), f.solid.erase k⟩
    show m ∈ msgsOf H (stateOf ops).kv ++ msgsFrom H (Op.onState (.delete k) (stateOf ops)) []
    rw [List.mem_append, onState_delete_present f.rep.ent.nodup hk hrec]
    exact .inr hm
  obtain ⟨b, s', b', g1, g2, g3, ⟨c, g4, g5, _⟩, _⟩ := delete_part p hi.env hu f hfit h0 h2 hk hrec
  exact ⟨st, b, s', b', h1, g1, g2, g3, c, _, g4, g5.root_eq hi.env⟩

/-- The hash function behaves for a history, for a delete in a part and for a call on the whole
tree after it. -/
structure IdealAfter (H : HashFn) (ops : List Op) (k : Bytes32) (op : Op) : Prop where
  ideal : Ideal H (msgsFrom H ⟨[], []⟩ (ops ++ [.delete k]) ++ msgsFrom H ⟨[], []⟩ (ops ++ [op])) ((op :: .delete k :: ops).map Op.key)
  calls : NoPhantom H (op :: ops)

/-- **C76** (7). After such a delete, on storage that answers every request, the root of the whole
tree is accepted by `load`, but every update and every delete of a key with the prefix for which
there is a record returns an error. -/
theorem C76_branch_delete_breaks (p : Profile) (H : HashFn) (ops : List Op) (d : Nat) (k : Bytes32) (op : Op)
    (hi : IdealAfter H ops k op) (h0 : 0 < d) (h2 : 2 ≤ (under d k (stateOf ops).kv).length)
    (hk : k ∈ keysOf (stateOf ops).kv) (hz : k ≠ zero32)
    (hpre : ∀ i < d, keyBit op.key i = keyBit k i)
    (hop : op.data ≠ none ∨ op.key ≠ zero32 ∧ op.key ∈ keysOf (stateOf ops).kv)
    (s : SpStore E) (hs : ∀ x, s.map x = none) (hr : s.Reliable) :
    ∃ t b s' r b' c s'' e c', runAll p H ops (Tree.new s) = (.ok (), t) ∧
      Tree.load t.storage (branchOf H d k (stateOf ops).kv) = (.ok b, s') ∧
      delete p H k b = (r, b') ∧
      Tree.load b'.storage (rootOf H (stateOf ops).kv) = (.ok c, s'') ∧
      op.run p H c = (.error (.err (.childError e)), c') := by
  have henv := hi.ideal.env
  obtain ⟨st, t, h1, f, _⟩ := full_run (E := E) p henv ops (Full.new s hs hr)
    (fun o ho => by simp only [List.map_cons, List.mem_cons, List.mem_map]; exact .inr (.inr ⟨o, ho, rfl⟩))
    (fun m hm => List.mem_append_left _ (msgsFrom_append _ ops _ m (.inl hm))) (fun o ho => hi.calls o (List.mem_cons_of_mem _ ho))
  change Full H _ _ st (stateOf ops) t at f
  have hu : k ∈ (op :: Op.delete k :: ops).map Op.key := by simp [Op.key]
  have hu' : op.key ∈ (op :: Op.delete k :: ops).map Op.key := by simp
  have hrec : k ∈ (stateOf ops).recs := stored_recs ops k (stateKeys_stored ops k hk) hz
  have hfit : Fits H (· ∈ msgsFrom H ⟨[], []⟩ (ops ++ [.delete k]) ++ msgsFrom H ⟨[], []⟩ (ops ++ [op])) ((stateOf ops).kv.erase k) := by
    refine ⟨fun m hm => List.mem_append_left _ (msgsFrom_append _ ops _ m (.inr ?_)), f.solid.erase k⟩
    show m ∈ msgsOf H (stateOf ops).kv ++ msgsFrom H (Op.onState (.delete k) (stateOf ops)) []
    rw [List.mem_append, onState_delete_present f.rep.ent.nodup hk hrec]
    exact .inr hm
  obtain ⟨b, s', b', g1, g2, _, ⟨c, g4, g5, g6, g7⟩, a4, keep, y, hy, hy0, hgone⟩ := delete_part p henv hu f hfit h0 h2 hk hrec
  obtain ⟨_, a2, _, _, a5, _⟩ :=
    f.rep.ent.branch' (M := (· ∈ msgsFrom H ⟨[], []⟩ (ops ++ [.delete k]) ++ msgsFrom H ⟨[], []⟩ (ops ++ [op]))) f.rep.wf (d := d) (k := k) h2
  have inpart := a5 f.rep.inn
  have hkey : op.key ≠ y := by
    intro e
    refine inpart.hash_user henv (by obtain ⟨l, r, e⟩ := a4; rw [e]; simp) ?_
    rw [← hy, ← e]
    exact hu'
  have hnil : (stateOf ops).kv ≠ [] := by intro e; rw [e] at hk; simp [keysOf] at hk
  have hnone : op.data = none → (stateOf ops).kv ≠ [] ∧ (c.storage.map op.key).isSome = true := by
    intro hn
    obtain ⟨o1, o2⟩ := hop.resolve_left (fun h => h hn)
    refine ⟨hnil, ?_⟩
    rw [g7]
    exact keep _ hu' o1 ((f.recs _ hu').2 (stored_recs ops _ (stateKeys_stored ops _ o2) o1))
  have htarget : op.target (⟨(stateOf ops).kv, c.storage⟩ : Machine E) = (op.onState (stateOf ops)).kv := by
    unfold Op.target Op.onState
    cases hd : op.data with
    | some data => rfl
    | none =>
      obtain ⟨o1, o2⟩ := hop.resolve_left (fun h => h hd)
      have hm : met op.key (stateOf ops).kv = some op.key := met_self f.rep.ent.nodup o2
      have hr' : op.key ∈ (stateOf ops).recs := stored_recs ops _ (stateKeys_stored ops _ o2) o1
      simp only [(hnone hd).2, if_true, hm]
      rw [if_neg (by simp [hnil, hr'])]
  have hsolid : Solid H (op.onState (stateOf ops)).kv := by
    rw [← htarget]
    unfold Op.target
    cases hd : op.data with
    | some data => exact f.solid.put (fun h => hi.calls op (by simp) data hd h)
    | none =>
      obtain ⟨o1, o2⟩ := hop.resolve_left (fun h => h hd)
      have hm : met op.key (stateOf ops).kv = some op.key := met_self f.rep.ent.nodup o2
      simp only [(hnone hd).2, if_true, hm]
      exact f.solid.erase _
  have hfit' : Fits H (· ∈ msgsFrom H ⟨[], []⟩ (ops ++ [.delete k]) ++ msgsFrom H ⟨[], []⟩ (ops ++ [op])) (op.onState (stateOf ops)).kv := by
    refine ⟨fun m hm => List.mem_append_right _ (msgsFrom_append _ ops _ m (.inr ?_)), hsolid⟩
    show m ∈ msgsOf H (stateOf ops).kv ++ msgsFrom H (op.onState (stateOf ops)) []
    exact List.mem_append_right _ hm
  obtain ⟨⟨e1, e2⟩, _⟩ := op_agrees p henv op hu' g5 (by rw [htarget]; exact hfit')
  have hway : ∃ x ∈ wayPairs H op.key (stateOf ops).kv, x.1 = y := by
    rw [← (f.rep.ent.way henv op.key f.rep.wf f.rep.inn).2.1, hy]
    exact part_on_way k op.key d h0 a4 (fun i hi => by rw [Nat.zero_add]; exact hpre i hi)
  obtain ⟨e, he⟩ := onMachine_missing (H := H) op (stateOf ops).kv c.storage g6 hy0 (by rw [g7]; exact hgone) hway (by
    intro data hd
    refine ⟨hkey, fun e => ?_⟩
    have hput := f.rep.ent.put f.rep.wf op.key data
    have is := T.ins_spec (k := op.key) (v := H data) f.rep.wf (T.Ag.zero op.key t) (by omega)
    have hf : Fits H (· ∈ msgsFrom H ⟨[], []⟩ (ops ++ [.delete k]) ++ msgsFrom H ⟨[], []⟩ (ops ++ [op])) ((stateOf ops).kv.put op.key data) := by
      have := hfit'
      unfold Op.onState at this
      rw [hd] at this
      exact this
    have hl := (hput.inn is.1 hf).leaf_of_mem ((is.2.1 (op.key, H data)).2 (.inl rfl))
    have := T.hash_inj henv hl inpart (e.trans hy)
    obtain ⟨l, r, e⟩ := a4
    rw [e] at this
    cases this) hnone
  rw [he] at e1
  exact ⟨st, b, s', (delete p H k b).1, b', c, _, e, _, h1, g1, by split at g2 <;> rw [g2.1], g4, Prod.ext e1 rfl⟩

theorem branchDelete_ideal : IdealFor Sha256.sha256 (branchOps ++ [.delete keyP]) :=
  ⟨⟨by decide +kernel, by decide +kernel, by decide +kernel⟩, noPhantom_of_keys (by decide +kernel)⟩

example : IdealFor Sha256.sha256 (branchOps ++ [.delete keyP]) ∧ 2 ≤ (under 1 keyP (stateOf branchOps).kv).length ∧
    keyP ∈ keysOf (stateOf branchOps).kv ∧ keyP ≠ zero32 ∧ (under 1 keyP ((stateOf branchOps).kv.erase keyP)).length = 1 :=
  ⟨branchDelete_ideal, by decide +kernel, by decide +kernel, by decide +kernel, by decide +kernel⟩

example : IdealAfter Sha256.sha256 branchOps keyP (.update keyR [3]) ∧ (∀ i < 1, keyBit keyR i = keyBit keyP i) ∧
    (Op.update keyR [3]).data ≠ none :=
  ⟨⟨⟨by decide +kernel, by decide +kernel, by decide +kernel⟩, noPhantom_of_keys (by decide +kernel)⟩, by decide +kernel, by decide⟩

example : IdealAfter Sha256.sha256 branchOps keyP (.delete keyQ) ∧ (∀ i < 1, keyBit keyQ i = keyBit keyP i) ∧
    keyQ ≠ zero32 ∧ keyQ ∈ keysOf (stateOf branchOps).kv :=
  ⟨⟨⟨by decide +kernel, by decide +kernel, by decide +kernel⟩, noPhantom_of_keys (by decide +kernel)⟩, by decide +kernel,
    by decide +kernel, by decide +kernel⟩

def deepOps : List Op := branchOps ++ [.update keyR [3]]

/-- The same with two keys remaining. -/
example : IdealFor Sha256.sha256 (deepOps ++ [.delete keyP]) ∧ 2 ≤ (under 1 keyP (stateOf deepOps).kv).length ∧
    keyP ∈ keysOf (stateOf deepOps).kv ∧ keyP ≠ zero32 ∧ (under 1 keyP ((stateOf deepOps).kv.erase keyP)).length = 2 :=
  ⟨⟨⟨by decide +kernel, by decide +kernel, by decide +kernel⟩, noPhantom_of_keys (by decide +kernel)⟩,
    by decide +kernel, by decide +kernel, by decide +kernel, by decide +kernel⟩

def strayErase : Except (Fail (Sparse.Error Unit)) Unit × Tree Unit := delete ⟨true, true, .w64⟩ Sha256.sha256 keyP strayTree

/-- The whole tree, opened after the delete in the part. -/
def holedTree : Tree Unit :=
  match (Tree.load strayErase.2.storage (rootOf Sha256.sha256 (stateOf branchOps).kv)).1 with
  | .ok t => t
  | .error _ => branchTree.2

def isErr : Except (Fail (Sparse.Error Unit)) Unit → Bool
  | .error (.err _) => true
  | _ => false

theorem holed_facts : (branchTree.1 = .ok ()) ∧
    ((Tree.load branchTree.2.storage (branchOf Sha256.sha256 1 keyP (stateOf branchOps).kv)).1.isOk = true) ∧
    (strayErase.1 = .ok ()) ∧
    ((Tree.load strayErase.2.storage (rootOf Sha256.sha256 (stateOf branchOps).kv)).1.isOk = true) ∧
    (isErr (update ⟨true, true, .w64⟩ Sha256.sha256 keyR [3] holedTree).1 = true) ∧
    (isErr (delete ⟨true, true, .w64⟩ Sha256.sha256 keyQ holedTree).1 = true) := by
  decide +kernel

/-- **C76 fails** (8). The same in an example with SHA-256. A delete in the part takes away records of the whole tree: its root is still
accepted by `load`, but an update, or the delete of a key that was not touched, returns an error,
although the storage answers every request. -/
theorem C76_branch_delete_breaks_sha256 (p : Profile) : ∃ t b s' b' c s'' e e' c1 c2,
    runAll p Sha256.sha256 branchOps (Tree.new (⟨fun _ => none, fun _ => none, 0⟩ : SpStore Unit)) = (.ok (), t) ∧
    Tree.load t.storage (branchOf Sha256.sha256 1 keyP (stateOf branchOps).kv) = (.ok b, s') ∧
    delete p Sha256.sha256 keyP b = (.ok (), b') ∧
    Tree.load b'.storage (rootOf Sha256.sha256 (stateOf branchOps).kv) = (.ok c, s'') ∧
    update p Sha256.sha256 keyR [3] c = (.error (.err e), c1) ∧
    delete p Sha256.sha256 keyQ c = (.error (.err e'), c2) := by
  obtain ⟨h1, h2, h3, h4, h5, h6⟩ := holed_facts
  unfold holedTree at h5 h6
  unfold strayErase at h3 h4 h5 h6
  unfold strayTree at h3 h4 h5 h6
  unfold branchTree at h1 h2 h3 h4 h5 h6
  generalize rootOf Sha256.sha256 (stateOf branchOps).kv = w1 at h4 h5 h6 ⊢
  generalize branchOf Sha256.sha256 1 keyP (stateOf branchOps).kv = w3 at h2 h3 h4 h5 h6 ⊢
  generalize hX : runAll ⟨true, true, .w64⟩ Sha256.sha256 branchOps (Tree.new (⟨fun _ => none, fun _ => none, 0⟩ : SpStore Unit)) = X at h1 h2 h3 h4 h5 h6
  obtain ⟨r, t⟩ := X
  dsimp only at h1 h2 h3 h4 h5 h6
  subst h1
  generalize hL : Tree.load t.storage w3 = L at h2 h3 h4 h5 h6
  obtain ⟨_ | b, s'⟩ := L
  · cases h2
  dsimp only at h3 h4 h5 h6
  generalize hU : delete ⟨true, true, .w64⟩ Sha256.sha256 keyP b = B at h3 h4 h5 h6
  obtain ⟨r, b'⟩ := B
  dsimp only at h3 h4 h5 h6
  subst h3
  generalize hC : Tree.load b'.storage w1 = C at h4 h5 h6
  obtain ⟨_ | c, s''⟩ := C
  · cases h4
  dsimp only at h5 h6
  generalize hV : update ⟨true, true, .w64⟩ Sha256.sha256 keyR [3] c = V at h5
  generalize hW : delete ⟨true, true, .w64⟩ Sha256.sha256 keyQ c = W at h6
  obtain ⟨r, c1⟩ := V
  obtain ⟨r', c2⟩ := W
  dsimp only at h5 h6
  rcases r with (e | _) | _ <;> simp only [isErr] at h5 <;> try cases h5
  rcases r' with (e' | _) | _ <;> simp only [isErr] at h6 <;> try cases h6
  exact ⟨t, b, s', b', c, s'', e, e', c1, c2, (runAll_safe (debug_stricter p) _ _).transfer hX (by simp), hL,
    (delete_safe (debug_stricter p) _ _).transfer hU (by simp), hC,
    (update_safe (debug_stricter p) _ _ _).transfer hV (by simp),
    (delete_safe (debug_stricter p) _ _).transfer hW (by simp)⟩

end Props
end FuelMerkle
