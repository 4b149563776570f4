import Verif.Proofs.SparseRecover
import Verif.Proofs.SparseCommit
import Verif.Proofs.Profiles
import Verif.Props.SparseRoot
import Verif.Model.Binary

/-
Properties C35-C43 of the sparse Merkle tree: loading, failing storage, commitment, keys that are
node hashes, panics, encodings.
-/
namespace FuelMerkle
namespace Props
open Sparse Spec
variable {E : Type}

/-! ### C35: loading the current root -/

/-- **C35**. If the map is not empty, `load(storage, root())` succeeds and the loaded tree cannot
be told apart from the original: under every continuation, with every pattern `f` of storage
failures, both give the same results, the same root and the same records. No assumption is made
about what the continuation hashes. -/
theorem C35_load_current (p : Profile) (H : HashFn) (ops : List Op) (hi : IdealFor H ops) (hne : (stateOf ops).kv ≠ [])
    (s : SpStore E) (hs : ∀ k, s.map k = none) (hr : s.Reliable) :
    ∃ t t' s', runAll p H ops (Tree.new s) = (.ok (), t) ∧ Tree.load t.storage (t.root H) = (.ok t', s') ∧
      t'.root H = t.root H ∧ t'.storage.map = t.storage.map ∧
      ∀ (f : Nat → Option (Fault E)) (more : List Op),
        (run p H more (t'.failing f)).1 = (run p H more (t.failing f)).1 ∧
        (run p H more (t'.failing f)).2.root H = (run p H more (t.failing f)).2.root H ∧
        (run p H more (t'.failing f)).2.storage.map = (run p H more (t.failing f)).2.storage.map := by
  obtain ⟨st, t, h1, h2, _⟩ := history_full p hi s hs hr
  have h0 : t ≠ .empty := fun e => hne ((h2.rep.ent.nil h2.rep.wf).1 e)
  have hl := load_stored hi.env h2.rep.wf h2.rep.inn h0 st.storage h2.stored (h2.reliable _)
  rw [← root_toNode hi.env h2.rep.wf h2.rep.inn h2.rep.root] at hl
  refine ⟨st, _, _, h1, hl, ?_, rfl, fun f more => ?_⟩
  · unfold Tree.root; rw [h2.rep.root]
  · obtain ⟨a, b⟩ := run_alike (H := H) p more _ _
      (alike_failing (t := st) (t' := ⟨T.toNode H 0 t, { st.storage with clock := st.storage.clock + 1 }⟩) h2.rep.root.symm rfl f)
    exact ⟨a, by unfold Tree.root; rw [b.root], b.map⟩

example : IdealFor Sha256.sha256 cleanOps ∧ (stateOf cleanOps).kv ≠ [] := ⟨cleanOps_ideal, by decide +kernel⟩

/-- **C35 fails for the empty map**: loading the root of an empty tree is a `LoadError`, unless
the zero key was stored before. -/
theorem C35_load_empty (p : Profile) (H : HashFn) (ops : List Op) (hi : IdealFor H ops) (he : (stateOf ops).kv = [])
    (hz : zero32 ∉ stored ops) (s : SpStore E) (hs : ∀ k, s.map k = none) (hr : s.Reliable) :
    ∃ t s', runAll p H ops (Tree.new s) = (.ok (), t) ∧ t.root H = zero32 ∧
      Tree.load t.storage (t.root H) = (.error (.err (.loadError zero32)), s') := by
  have env : Env H (· ∈ msgsFrom H ⟨[], []⟩ ops) (fun k => k ∈ ops.map Op.key ∨ k = zero32) :=
    ⟨hi.env.inj, hi.env.nz, fun a k ha hk => hk.elim (hi.env.sep a k ha) fun e => e ▸ hi.env.nz a ha⟩
  obtain ⟨st, t, h1, h2, _⟩ := full_run p env ops (Full.new s hs hr) (fun op ho => .inl (List.mem_map.2 ⟨op, ho, rfl⟩)) (fun _ h => h) hi.2
  have h0 : t = .empty := (h2.rep.ent.nil h2.rep.wf).2 he
  have hroot : st.root H = zero32 := by
    rw [root_toNode env h2.rep.wf h2.rep.inn h2.rep.root, h0]; rfl
  have hmap : st.storage.map zero32 = none := by
    cases hm : st.storage.map zero32 with
    | none => rfl
    | some q =>
      have := (h2.recs zero32 (.inr rfl)).1 (by rw [hm]; rfl)
      exact absurd (recs_stored ops _ this) hz
  refine ⟨st, { st.storage with clock := st.storage.clock + 1 }, h1, hroot, ?_⟩
  rw [hroot]
  unfold Tree.load
  rw [Store.get_none _ (h2.reliable _), hmap]

example : IdealFor Sha256.sha256 staleOps ∧ (stateOf staleOps).kv = [] ∧ zero32 ∉ stored staleOps :=
  ⟨staleOps_ideal, by decide +kernel, by decide +kernel⟩

/-- **C35 fails worse for the zero key**: after storing and deleting the zero key the tree is
empty, and loading its root brings the deleted leaf back. -/
theorem C35_load_empty_resurrects (p : Profile) (H : HashFn) (d : Bytes) (hd : d ≠ [])
    (hi : IdealFor H ([] ++ [.update zero32 d] ++ [.delete zero32])) (s : SpStore E) (hs : ∀ k, s.map k = none) (hr : s.Reliable) :
    ∃ t t' s', runAll p H ([] ++ [.update zero32 d] ++ [.delete zero32]) (Tree.new s) = (.ok (), t) ∧ t.root H = zero32 ∧
      Tree.load t.storage (t.root H) = (.ok t', s') ∧ t'.root H = rootOf H [(zero32, d)] ∧ t'.root H ≠ zero32 := by
  obtain ⟨t, h1, _, h3⟩ := C44_residue p H [] zero32 d hd hi s hs hr
  obtain ⟨t2, h4, h5⟩ := C28_root_of_history p H _ hi s hs hr
  rw [h1] at h4
  obtain rfl : t = t2 := by injection h4
  have hst : (stateOf ([] ++ [Op.update zero32 d] ++ [.delete zero32])).kv = [] := by
    have hm : met zero32 [(zero32, d)] = some zero32 := rfl
    simp [stateOf, stateFrom, Op.onState, Op.data, hd, Op.key, Entries.put, Entries.erase, hm]
  have hroot : t.root H = zero32 := by rw [h5, hst]; rfl
  have hrel : t.storage.Reliable := by
    obtain ⟨st, _, a, b, _⟩ := history_full p hi s hs hr
    rw [h1] at a
    obtain rfl : t = st := by injection a
    exact b.reliable
  have hnz : H d ≠ zero32 := hi.2 (.update zero32 d) (by simp) d (by simp [Op.data, hd]) rfl
  have hleaf : Tree.root H (⟨⟨0, .leaf, zero32, H d⟩, { t.storage with clock := t.storage.clock + 1 }⟩ : Tree E) =
      H (smtLeafMsg zero32 (H d)) := by
    unfold Tree.root Node.hash Node.isPlaceholder
    have : (decide (H d = zeroSum)) = false := decide_eq_false hnz
    rw [if_neg (by simp only [this]; simp)]
    simp [sumAll, smtLeafMsg, Prefix.bytes]
  refine ⟨t, _, { t.storage with clock := t.storage.clock + 1 }, h1, hroot, ?_, hleaf, ?_⟩
  · rw [hroot]
    unfold Tree.load
    rw [Store.get_none _ (hrel _), h3]
    rfl
  · rw [hleaf]
    refine hi.1.nonzero _ (msgsFrom_append _ [Op.update zero32 d] [.delete zero32] _ (.inr (msgsFrom_head _ _ _ ?_)))
    have : (stateFrom ⟨[], []⟩ [Op.update zero32 d]).kv = [(zero32, d)] := by
      simp [stateFrom, Op.onState, Op.data, hd, Op.key, Entries.put, Entries.erase]
    rw [this]; exact List.mem_singleton.2 rfl

example : IdealFor Sha256.sha256 ([] ++ [.update zero32 [1]] ++ [.delete zero32]) :=
  ⟨⟨by decide +kernel, by decide +kernel, by decide +kernel⟩, noPhantom_of_data (by decide +kernel)⟩

/-! ### C36: the errors of load -/

/-- **C36**. `load` fails with `LoadError` exactly when the read works and there is no record. -/
theorem C36_load_error (s : SpStore E) (root x : Bytes32) :
    (Tree.load s root).1 = .error (.err (.loadError x)) ↔ x = root ∧ s.sched s.clock = none ∧ s.map root = none := by
  unfold Tree.load
  cases hs : s.sched s.clock with
  | some f => rw [Store.get_fault _ hs]; simp
  | none =>
    rw [Store.get_none _ hs]
    cases hm : s.map root with
    | none => simp [eq_comm]
    | some q =>
      simp only
      cases Node.ofPrim q <;> simp

/-- **C36**. `load` fails with `DeserializeError` exactly when the read works and finds a record
whose prefix byte is neither 0 nor 1; the error names the byte. -/
theorem C36_deserialize_error (s : SpStore E) (root : Bytes32) (e : DeserializeError) :
    (Tree.load s root).1 = .error (.err (.deserializeError e)) ↔
      s.sched s.clock = none ∧ ∃ height byte lo hi, s.map root = some (height, byte, lo, hi) ∧ byte ≠ 0 ∧ byte ≠ 1 ∧
        e = .invalidPrefix byte := by
  unfold Tree.load
  cases hs : s.sched s.clock with
  | some f => rw [Store.get_fault _ hs]; simp
  | none =>
    rw [Store.get_none _ hs]
    cases hm : s.map root with
    | none => simp
    | some q =>
      obtain ⟨h, b, lo, hi⟩ := q
      simp only [Node.ofPrim, Prefix.ofU8]
      by_cases h1 : b = 1
      · subst h1; simp [Bind.bind, Except.bind, pure, Except.pure]
      · by_cases h0 : b = 0
        · subst h0; simp [Bind.bind, Except.bind, pure, Except.pure]
        · simp [h1, h0, Bind.bind, Except.bind, eq_comm]

/-- **C36**. `load` fails with `StorageError` exactly when the read fails. -/
theorem C36_storage_error (s : SpStore E) (root : Bytes32) (e : E) :
    (Tree.load s root).1 = .error (.err (.storageError e)) ↔ ∃ f, s.sched s.clock = some f ∧ f.err = e := by
  unfold Tree.load
  cases hs : s.sched s.clock with
  | some f => rw [Store.get_fault _ hs]; simp
  | none =>
    rw [Store.get_none _ hs]
    cases hm : s.map root with
    | none => simp
    | some q =>
      simp only
      cases Node.ofPrim q <;> simp

/-- **C36**. In all other cases `load` succeeds, with the node of the record; it never fails in
another way and never changes the records. -/
theorem C36_load_total (s : SpStore E) (root : Bytes32) :
    ((∃ t, (Tree.load s root).1 = .ok t ∧ (∃ q, s.map root = some q ∧ t.rootNode.toPrim = q) ∧ t.storage.map = s.map) ∨
      (Tree.load s root).1 = .error (.err (.loadError root)) ∨
      (∃ e, (Tree.load s root).1 = .error (.err (.deserializeError e))) ∨
      (∃ e, (Tree.load s root).1 = .error (.err (.storageError e)))) ∧ (Tree.load s root).2.map = s.map := by
  unfold Tree.load
  cases hs : s.sched s.clock with
  | some f => rw [Store.get_fault _ hs]; simp
  | none =>
    rw [Store.get_none _ hs]
    cases hm : s.map root with
    | none => simp
    | some q =>
      obtain ⟨h, b, lo, hi⟩ := q
      simp only [Node.ofPrim, Prefix.ofU8]
      by_cases h1 : b = 1
      · subst h1; simp [Bind.bind, Except.bind, pure, Except.pure, Node.toPrim, Prefix.toU8]
      · by_cases h0 : b = 0
        · subst h0; simp [Bind.bind, Except.bind, pure, Except.pure, Node.toPrim, Prefix.toU8]
        · simp [h1, h0, Bind.bind, Except.bind]

example : (Tree.load (⟨fun _ => some (0, 7, zero32, zero32), fun _ => none, 0⟩ : SpStore Unit) zero32).1 =
    .error (.err (.deserializeError (.invalidPrefix 7))) :=
  (C36_deserialize_error _ _ _).2 ⟨rfl, 0, 7, zero32, zero32, rfl, by decide, by decide, rfl⟩

/-! ### C37: loading an older root -/

/-- **C37**. After any history `pre` and any further updates `post` (no removals), the root
reached after `pre` can still be loaded, has the same root node as then, and goes on correctly:
every continuation `more` succeeds and leads to the canonical root computed from the map of that
time. -/
theorem C37_old_root (p : Profile) (H : HashFn) (pre post more : List Op) (hpost : ∀ op ∈ post, op.data ≠ none)
    (hne : (stateOf pre).kv ≠ [])
    (hi : Ideal H (msgsFrom H ⟨[], []⟩ (pre ++ post) ++ msgsFrom H ⟨(stateOf pre).kv, (stateOf (pre ++ post)).recs⟩ more)
      ((pre ++ post ++ more).map Op.key)) (hnp : NoPhantom H (pre ++ post ++ more))
    (s : SpStore E) (hs : ∀ k, s.map k = none) (hr : s.Reliable) :
    ∃ t1 t2 t3 t4 s', runAll p H pre (Tree.new s) = (.ok (), t1) ∧ runAll p H post t1 = (.ok (), t2) ∧
      Tree.load t2.storage (t1.root H) = (.ok t3, s') ∧ t3.rootNode = t1.rootNode ∧ t3.root H = t1.root H ∧
      runAll p H more t3 = (.ok (), t4) ∧
      t4.root H = rootOf H (stateFrom ⟨(stateOf pre).kv, (stateOf (pre ++ post)).recs⟩ more).kv := by
  have env := hi.env
  have hk : ∀ (l : List Op) (op : Op), op ∈ l → (∀ o ∈ l, o ∈ pre ++ post ++ more) → op.key ∈ (pre ++ post ++ more).map Op.key :=
    fun l op ho hl => List.mem_map.2 ⟨op, hl op ho, rfl⟩
  obtain ⟨st1, t1, h1, f1, _⟩ := full_run p env pre (Full.new s hs hr) (fun op ho => hk pre op ho (by simp; tauto))
    (fun m hm => List.mem_append.2 (.inl (msgsFrom_append _ _ _ m (.inl hm)))) (fun o ho => hnp o (by simp; tauto))
  obtain ⟨st2, t2, h2, f2, o2⟩ := full_run p env post f1 (fun op ho => hk post op ho (by simp; tauto))
    (fun m hm => List.mem_append.2 (.inl (msgsFrom_append _ _ _ m (.inr hm)))) (fun o ho => hnp o (by simp; tauto))
  have h0 : t1 ≠ .empty := fun e => hne ((f1.rep.ent.nil f1.rep.wf).1 e)
  have hst := o2 hpost t1 0 f1.rep.wf f1.rep.inn f1.stored
  have hl := load_stored env f1.rep.wf f1.rep.inn h0 st2.storage hst (f2.reliable _)
  rw [← root_toNode env f1.rep.wf f1.rep.inn f1.rep.root] at hl
  rw [← stateFrom_append] at f2
  have f3 : Full H (· ∈ msgsFrom H ⟨[], []⟩ (pre ++ post) ++ msgsFrom H ⟨(stateOf pre).kv, (stateOf (pre ++ post)).recs⟩ more)
      (· ∈ (pre ++ post ++ more).map Op.key) (⟨T.toNode H 0 t1, { st2.storage with clock := st2.storage.clock + 1 }⟩ : Tree E)
      ⟨(stateOf pre).kv, (stateOf (pre ++ post)).recs⟩ t1 :=
    ⟨⟨f1.rep.wf, f1.rep.inn, f1.rep.ent, rfl, f2.rep.valid⟩, hst, f2.reliable, f2.recs⟩
  obtain ⟨st4, t4, h4, f4, _⟩ := full_run p env more f3 (fun op ho => hk more op ho (by simp; tauto))
    (fun m hm => List.mem_append.2 (.inr hm)) (fun o ho => hnp o (by simp; tauto))
  exact ⟨st1, st2, _, st4, _, h1, h2, hl, f1.rep.root.symm, by unfold Tree.root; rw [f1.rep.root], h4, f4.rep.root_eq env⟩

example : (∀ op ∈ [Op.update keyA [3]], op.data ≠ none) ∧ (stateOf [.update keyA [1], .update keyB [2]]).kv ≠ [] ∧
    Ideal Sha256.sha256 (msgsFrom Sha256.sha256 ⟨[], []⟩ ([.update keyA [1], .update keyB [2]] ++ [.update keyA [3]]) ++
      msgsFrom Sha256.sha256 ⟨(stateOf [.update keyA [1], .update keyB [2]]).kv,
        (stateOf ([.update keyA [1], .update keyB [2]] ++ [.update keyA [3]])).recs⟩ [.delete keyA])
      (([.update keyA [1], .update keyB [2]] ++ [.update keyA [3]] ++ [.delete keyA] : List Op).map Op.key) :=
  ⟨by decide +kernel, by decide +kernel, by decide +kernel, by decide +kernel, by decide +kernel⟩

/-! ### C38: interrupted updates -/

/-- **C38, C39**. A call that fails, in whatever way, leaves the root of the open tree as it was:
every tree state, every storage content, every failure. -/
theorem C38_failed_call_keeps_root (p : Profile) (H : HashFn) (op : Op) (t t' : Tree E) (e : Fail (Error E))
    (h : op.run p H t = (.error e, t')) : t'.root H = t.root H := by
  unfold Tree.root
  rw [FailKeeps.op p op t e t' h]

/-- **C38**. Any history on a new tree whose storage may fail at any calls, in which no removal
fails (any number of updates may). Then the root is that of the map made by the successful calls;
once storage works again the root can be loaded; and all further calls `more`, on the open tree or
on the loaded one, in particular a retry, succeed and give the canonical root. -/
theorem C38_interrupted_updates (p : Profile) (H : HashFn) (ops more : List Op) (s : SpStore E) (hs : ∀ k, s.map k = none)
    (hi : Ideal H (eventMsgs H [] ((run p H ops (Tree.new s)).1 ++ (run p H more (run p H ops (Tree.new s)).2.recovered).1))
      ((ops ++ more).map Op.key)) (hnp : NoPhantom H (ops ++ more))
    (hdel : ∀ e ∈ (run p H ops (Tree.new s)).1, e.op.data = none → e.out = .ok ()) :
    (run p H ops (Tree.new s)).2.root H = rootOf H (contents (run p H ops (Tree.new s)).1) ∧
    (contents (run p H ops (Tree.new s)).1 ≠ [] → ∃ t' s',
      Tree.load (run p H ops (Tree.new s)).2.recovered.storage ((run p H ops (Tree.new s)).2.root H) = (.ok t', s') ∧
      run p H more t' = ((run p H more (run p H ops (Tree.new s)).2.recovered).1, (run p H more t').2) ∧
      (run p H more t').2.root H = (run p H more (run p H ops (Tree.new s)).2.recovered).2.root H) ∧
    (∀ e ∈ (run p H more (run p H ops (Tree.new s)).2.recovered).1, e.out = .ok ()) ∧
    (run p H more (run p H ops (Tree.new s)).2.recovered).2.root H =
      rootOf H (contents ((run p H ops (Tree.new s)).1 ++ (run p H more (run p H ops (Tree.new s)).2.recovered).1)) := by
  have env := hi.env
  obtain ⟨⟨t1, r1, st1⟩, _⟩ := run_kept p env ops (Tree.new s) .empty [] (Rep.new s hs) trivial
    (fun op ho => List.mem_map.2 ⟨op, by simp [ho], rfl⟩) (fun o ho => hnp o (by simp [ho])) (Solid.nil H)
    (fun m hm => eventMsgs_append _ _ _ m (.inl hm)) (.inr hdel)
  generalize hrun : run p H ops (Tree.new s) = X at *
  have hsol : Solid H (contents X.1) := by
    rw [← hrun]; exact run_solid p (fun o ho => hnp o (by simp [ho])) _ (Solid.nil H)
  have r1' : Rep H _ _ X.2.recovered t1 (contents X.1) := r1.congr rfl rfl
  obtain ⟨⟨t2, r2, st2⟩, h2⟩ := run_kept p env more X.2.recovered t1 (contents X.1) r1' st1
    (fun op ho => List.mem_map.2 ⟨op, by simp [ho], rfl⟩) (fun o ho => hnp o (by simp [ho])) hsol
    (fun m hm => eventMsgs_append _ _ _ m (.inr hm)) (.inl (recovered_reliable _))
  obtain ⟨rel2, ok2⟩ := h2 (recovered_reliable _)
  refine ⟨r1.root_eq env, fun hne => ?_, ok2, ?_⟩
  · have h0 : t1 ≠ .empty := fun e => hne ((r1.ent.nil r1.wf).1 e)
    have hl := load_stored env r1.wf r1.inn h0 X.2.recovered.storage st1 (recovered_reliable _ _)
    rw [← root_toNode env r1.wf r1.inn r1.root] at hl
    obtain ⟨a, b⟩ := run_alike (H := H) p more X.2.recovered
      ⟨T.toNode H 0 t1, { X.2.recovered.storage with clock := X.2.recovered.storage.clock + 1 }⟩
      (alike_reliable r1'.root.symm rfl (recovered_reliable _) (fun _ => rfl))
    exact ⟨_, _, hl, by rw [← a], by unfold Tree.root; rw [b.root]⟩
  · rw [r2.root_eq env]
    show _ = rootOf H (contents (X.1 ++ _))
    unfold contents
    rw [List.foldl_append]

/-- Storage that fails at one call; `applied`: the write of that call nevertheless happened. -/
def failsOnce (n : Nat) (applied : Bool) : SpStore Unit :=
  { map := fun _ => none, sched := fun m => if m = n then some ⟨(), applied⟩ else none, clock := 0 }

/-- The second update fails at its last write, is retried, and the first key is deleted. -/
example : ((run ⟨true, true, .w64⟩ Sha256.sha256 [.update keyA [1], .update keyB [2]] (Tree.new (failsOnce 4 true))).1.map
      fun e => (e.out matches .ok _)) = [true, false] ∧
    Ideal Sha256.sha256 (eventMsgs Sha256.sha256 []
      ((run ⟨true, true, .w64⟩ Sha256.sha256 [.update keyA [1], .update keyB [2]] (Tree.new (failsOnce 4 true))).1 ++
        (run ⟨true, true, .w64⟩ Sha256.sha256 [.update keyB [2], .delete keyA]
          (run ⟨true, true, .w64⟩ Sha256.sha256 [.update keyA [1], .update keyB [2]] (Tree.new (failsOnce 4 true))).2.recovered).1))
      (([.update keyA [1], .update keyB [2]] ++ [.update keyB [2], .delete keyA] : List Op).map Op.key) :=
  ⟨by decide +kernel, by decide +kernel, by decide +kernel, by decide +kernel⟩

/-! ### C39: interrupted deletes -/

/-- **C39** (what holds). Any history on a new tree whose storage may fail at any calls, in any
operations: the root of the open tree is always the canonical root of the map made by the
successful calls. -/
theorem C39_root_after_failures (p : Profile) (H : HashFn) (ops : List Op) (s : SpStore E) (hs : ∀ k, s.map k = none)
    (hi : Ideal H (eventMsgs H [] (run p H ops (Tree.new s)).1) (ops.map Op.key)) (hnp : NoPhantom H ops) :
    (run p H ops (Tree.new s)).2.root H = rootOf H (contents (run p H ops (Tree.new s)).1) := by
  obtain ⟨⟨t, h⟩, _⟩ := run_spec p hi.env ops (Tree.new s) .empty [] (Rep.new s hs)
    (fun op ho => List.mem_map.2 ⟨op, ho, rfl⟩) hnp (Solid.nil H) (fun m hm => hm)
  exact h.root_eq hi.env

/-- **C39 fails** (1): a delete interrupted at its last storage call, whose write happened. The
open tree still has the old root, but this root cannot be loaded any more. -/
theorem C39_interrupted_delete_loses_root (p : Profile) : ∃ t t',
    runAll p Sha256.sha256 [.update keyA [1], .update keyB [2]] (Tree.new (failsOnce 9 true)) = (.ok (), t) ∧
    delete p Sha256.sha256 keyA t = (.error (.err (.storageError ())), t') ∧
    t'.root Sha256.sha256 = t.root Sha256.sha256 ∧
    (Tree.load t'.recovered.storage (t'.root Sha256.sha256)).1 = .error (.err (.loadError (t.root Sha256.sha256))) := by
  have h1 : (runAll ⟨true, true, .w64⟩ Sha256.sha256 [.update keyA [1], .update keyB [2]] (Tree.new (failsOnce 9 true))).1 = .ok () := by
    decide +kernel
  have h2 : (delete ⟨true, true, .w64⟩ Sha256.sha256 keyA
      (runAll ⟨true, true, .w64⟩ Sha256.sha256 [.update keyA [1], .update keyB [2]] (Tree.new (failsOnce 9 true))).2).1 =
      .error (.err (.storageError ())) := by
    decide +kernel
  have h3 : (delete ⟨true, true, .w64⟩ Sha256.sha256 keyA
      (runAll ⟨true, true, .w64⟩ Sha256.sha256 [.update keyA [1], .update keyB [2]] (Tree.new (failsOnce 9 true))).2).2.storage.map
        ((runAll ⟨true, true, .w64⟩ Sha256.sha256 [.update keyA [1], .update keyB [2]] (Tree.new (failsOnce 9 true))).2.root Sha256.sha256) =
      none := by
    decide +kernel
  generalize hT : runAll ⟨true, true, .w64⟩ Sha256.sha256 [.update keyA [1], .update keyB [2]] (Tree.new (failsOnce 9 true)) = T at h1 h2 h3
  obtain ⟨r, t⟩ := T
  dsimp only at h1 h2 h3
  subst h1
  generalize hD : delete ⟨true, true, .w64⟩ Sha256.sha256 keyA t = D at h2 h3
  obtain ⟨r', t'⟩ := D
  dsimp only at h2 h3
  subst h2
  have hroot := C38_failed_call_keeps_root _ _ (.delete keyA) _ _ _ hD
  refine ⟨t, t', (runAll_safe (debug_stricter p) _ _).transfer hT (by simp), (delete_safe (debug_stricter p) _ _).transfer hD (by simp), hroot, ?_⟩
  rw [hroot]
  exact (C36_load_error _ _ _).2 ⟨rfl, rfl, h3⟩

/-- **C39 fails** (2): the same delete, the last write did not happen. The old root can be
loaded, but retrying the delete on it fails: a node of the tree is gone. -/
theorem C39_interrupted_delete_loses_node (p : Profile) : ∃ t t' t'' x,
    runAll p Sha256.sha256 [.update keyA [1], .update keyB [2]] (Tree.new (failsOnce 9 false)) = (.ok (), t) ∧
    delete p Sha256.sha256 keyA t = (.error (.err (.storageError ())), t') ∧
    (Tree.load t'.recovered.storage (t'.root Sha256.sha256)).1 = .ok t'' ∧
    (delete p Sha256.sha256 keyA t'').1 = .error (.err (.childError (.childNotFound x))) ∧
    (delete p Sha256.sha256 keyA t'.recovered).1 = .error (.err (.childError (.childNotFound x))) := by
  have h1 : (runAll ⟨true, true, .w64⟩ Sha256.sha256 [.update keyA [1], .update keyB [2]] (Tree.new (failsOnce 9 false))).1 = .ok () := by
    decide +kernel
  have h2 : (delete ⟨true, true, .w64⟩ Sha256.sha256 keyA
      (runAll ⟨true, true, .w64⟩ Sha256.sha256 [.update keyA [1], .update keyB [2]] (Tree.new (failsOnce 9 false))).2).1 =
      .error (.err (.storageError ())) := by
    decide +kernel
  have h3 : (match (Tree.load (delete ⟨true, true, .w64⟩ Sha256.sha256 keyA
      (runAll ⟨true, true, .w64⟩ Sha256.sha256 [.update keyA [1], .update keyB [2]] (Tree.new (failsOnce 9 false))).2).2.recovered.storage ((delete ⟨true, true, .w64⟩ Sha256.sha256 keyA
      (runAll ⟨true, true, .w64⟩ Sha256.sha256 [.update keyA [1], .update keyB [2]] (Tree.new (failsOnce 9 false))).2).2.root Sha256.sha256)).1 with
      | .ok t'' => decide ((delete ⟨true, true, .w64⟩ Sha256.sha256 keyA t'').1 =
          .error (.err (.childError (.childNotFound (Sha256.sha256 (smtLeafMsg keyA (Sha256.sha256 [1])))))))
      | .error _ => false) = true := by
    decide +kernel
  have h4 : (delete ⟨true, true, .w64⟩ Sha256.sha256 keyA (delete ⟨true, true, .w64⟩ Sha256.sha256 keyA
      (runAll ⟨true, true, .w64⟩ Sha256.sha256 [.update keyA [1], .update keyB [2]] (Tree.new (failsOnce 9 false))).2).2.recovered).1 =
      .error (.err (.childError (.childNotFound (Sha256.sha256 (smtLeafMsg keyA (Sha256.sha256 [1])))))) := by
    decide +kernel
  generalize hT : runAll ⟨true, true, .w64⟩ Sha256.sha256 [.update keyA [1], .update keyB [2]] (Tree.new (failsOnce 9 false)) = T at h1 h2 h3 h4
  obtain ⟨r, t⟩ := T
  dsimp only at h1 h2 h3 h4
  subst h1
  generalize hD : delete ⟨true, true, .w64⟩ Sha256.sha256 keyA t = D at h2 h3 h4
  obtain ⟨r', t'⟩ := D
  dsimp only at h2 h3 h4
  subst h2
  generalize Sha256.sha256 (smtLeafMsg keyA (Sha256.sha256 [1])) = x at h3 h4
  cases hl : (Tree.load t'.recovered.storage (t'.root Sha256.sha256)).1 with
  | error e => rw [hl] at h3; cases h3
  | ok t'' =>
    rw [hl] at h3
    have hs : Exec.Safe (delete (E := Unit) _ Sha256.sha256 keyA) (delete p Sha256.sha256 keyA) := delete_safe (debug_stricter p) _ _
    refine ⟨t, t', t'', x, (runAll_safe (debug_stricter p) _ _).transfer hT (by simp), hs.transfer hD (by simp), hl, ?_, ?_⟩
    · rw [hs.transfer (Prod.ext (of_decide_eq_true h3) rfl) (by simp)]
    · rw [hs.transfer (Prod.ext h4 rfl) (by simp)]

/-! ### C40: the root commits to the map -/

/-- **C40**. Two maps with the same root have the same entries (key and digest of the data),
unless two different messages among the finitely many hashed for them collide or one of them
hashes to zero. -/
theorem C40_root_commits (H : HashFn) (kv kv' : Entries Bytes) (hn : (keysOf kv).Nodup) (hn' : (keysOf kv').Nodup)
    (h : rootOf H kv = rootOf H kv') :
    (∀ k v, (k, v) ∈ digests H kv ↔ (k, v) ∈ digests H kv') ∨ Collide H (msgsOf H kv) (msgsOf H kv') ∨
      ∃ m ∈ msgsOf H kv ++ msgsOf H kv', H m = zero32 := by
  rcases smtRoot_commit (by rw [keysOf_digests]; exact hn) (by rw [keysOf_digests]; exact hn') h with h | h | h
  · exact .inl fun k v => h (k, v)
  · exact .inr (.inl h)
  · exact .inr (.inr h)

/-- **C40** for trees: two histories that end with the same root end with maps that have the same
entries (key and digest), unless two different messages of the two maps collide. -/
theorem C40_equal_roots (p p' : Profile) (H : HashFn) (ops ops' : List Op) (hi : IdealFor H ops) (hi' : IdealFor H ops')
    (s s' : SpStore E) (hs : ∀ k, s.map k = none) (hr : s.Reliable) (hs' : ∀ k, s'.map k = none) (hr' : s'.Reliable) :
    ∃ t t', runAll p H ops (Tree.new s) = (.ok (), t) ∧ runAll p' H ops' (Tree.new s') = (.ok (), t') ∧
      (t.root H = t'.root H → (∀ k v, (k, v) ∈ digests H (stateOf ops).kv ↔ (k, v) ∈ digests H (stateOf ops').kv) ∨
        Collide H (msgsOf H (stateOf ops).kv) (msgsOf H (stateOf ops').kv)) := by
  obtain ⟨t, h1, h2⟩ := C28_root_of_history p H ops hi s hs hr
  obtain ⟨t', h1', h2'⟩ := C28_root_of_history p' H ops' hi' s' hs' hr'
  refine ⟨t, t', h1, h1', fun h => ?_⟩
  rcases C40_root_commits H _ _ (stateOf_nodup ops) (stateOf_nodup ops') (by rw [← h2, ← h2', h]) with h | h | ⟨m, hm, hz⟩
  · exact .inl h
  · exact .inr h
  · exfalso
    rw [List.mem_append] at hm
    rcases hm with hm | hm
    · refine hi.1.nonzero m ?_ hz
      have := msgsFrom_append (H := H) ⟨[], []⟩ ops [] m (.inr hm)
      simpa using this
    · refine hi'.1.nonzero m ?_ hz
      have := msgsFrom_append (H := H) ⟨[], []⟩ ops' [] m (.inr hm)
      simpa using this

/-- The hypotheses of `C40_equal_roots` are met by histories with different roots. -/
example : IdealFor Sha256.sha256 staleOps ∧ IdealFor Sha256.sha256 cleanOps ∧
    ¬ Collide Sha256.sha256 (msgsOf Sha256.sha256 (stateOf cleanOps).kv) (msgsOf Sha256.sha256 (stateOf orderOps).kv) := by
  refine ⟨staleOps_ideal, cleanOps_ideal, ?_⟩
  have h : ∀ x ∈ msgsOf Sha256.sha256 (stateOf cleanOps).kv, ∀ y ∈ msgsOf Sha256.sha256 (stateOf orderOps).kv,
      Sha256.sha256 x = Sha256.sha256 y → x = y := by decide +kernel
  rintro ⟨x, hx, y, hy, hne, he⟩
  exact hne (h x hx y hy he)

/-! ### C41: keys that are hashes of nodes -/

theorem stored_leaf {H : HashFn} {m : Bytes32 → Option Prim} {k v : Bytes32} : ∀ {t : T} {d : Nat}, Stored H m d t → (k, v) ∈ t.entries →
    m (H (smtLeafMsg k v)) = some (leafPrim k v) := by
  intro t
  induction t with
  | empty => intro d _ h; simp [T.entries] at h
  | leaf k' v' =>
    intro d hs h
    simp only [T.entries, List.mem_singleton, Prod.mk.injEq] at h
    obtain ⟨rfl, rfl⟩ := h
    exact hs
  | node l r ihl ihr =>
    intro d hs h
    simp only [T.entries, List.mem_append] at h
    rcases h with h | h
    · exact ihl hs.2.1 h
    · exact ihr hs.2.2 h

/-- **C41 fails** (1): `delete(h)` where `h` is the hash of the leaf of a present key `k` deletes
`k`, although `h` was never stored. -/
theorem C41_delete_leaf_hash (p : Profile) (H : HashFn) (ops : List Op) (k : Bytes32) (d : Bytes) (hi : IdealFor H (ops ++ [.delete k]))
    (hk : (k, d) ∈ (stateOf ops).kv) (hz : k ≠ zero32) (s : SpStore E) (hs : ∀ k, s.map k = none) (hr : s.Reliable) :
    ∃ t t', runAll p H ops (Tree.new s) = (.ok (), t) ∧ delete p H (H (smtLeafMsg k (H d))) t = (.ok (), t') ∧
      H (smtLeafMsg k (H d)) ∉ stored ops ∧ t'.root H = rootOf H ((stateOf ops).kv.erase k) := by
  have env := hi.env
  obtain ⟨st, t, h1, f, _⟩ := full_run p env ops (Full.new s hs hr) (fun op ho => by simp; exact .inl ⟨op, ho, rfl⟩)
    (fun m hm => msgsFrom_append _ _ _ m (.inl hm)) hi.prefix.2
  have hkey : k ∈ keysOf (stateOf ops).kv := mem_keysOf.2 ⟨d, hk⟩
  have hmem : (k, H d) ∈ t.entries := (f.rep.ent.mem _).2 (mem_digests.2 ⟨d, hk, rfl⟩)
  have h0 : t ≠ .empty := by rintro rfl; simp [T.entries] at hmem
  have hx := stored_leaf f.stored hmem
  have hmet : met k (stateOf ops).kv = some k := met_self (stateOf_nodup ops) hkey
  have herase : eraseMet (stateOf ops).kv k = (stateOf ops).kv.erase k := by unfold eraseMet; rw [hmet]
  have hst := onState_delete_present (stateOf_nodup ops) hkey (stored_recs ops k (stateKeys_stored ops k hkey) hz)
  have wd := (T.del_spec (k := k) f.rep.wf).1
  have ed := f.rep.ent.del f.rep.wf k
  have hfit : Fits H (· ∈ msgsFrom H ⟨[], []⟩ (ops ++ [.delete k])) (eraseMet (stateOf ops).kv k) := by
    have : eraseMet (stateOf ops).kv k = ((Op.delete k).onState (stateOf ops)).kv := by rw [herase, hst]
    rw [this]
    exact ⟨fun m hm => msgsFrom_append _ _ _ m (.inr (by rw [msgsFrom, List.mem_append]; exact .inr hm)),
      onState_solid _ f.solid (hi.2 _ (by simp))⟩
  have ind := ed.inn wd hfit
  have hmsg : smtLeafMsg k (H d) ∈ msgsFrom H ⟨[], []⟩ (ops ++ [.delete k]) := by
    refine f.rep.inn.1 _ ?_
    clear * - hmem
    induction t with
    | empty => simp [T.entries] at hmem
    | leaf k' v' =>
      simp only [T.entries, List.mem_singleton, Prod.mk.injEq] at hmem
      simp [T.msgs, hmem]
    | node l r ihl ihr =>
      simp only [T.entries, List.mem_append] at hmem
      simp only [T.msgs, List.mem_cons, List.mem_append]
      rcases hmem with h | h
      · exact .inr (.inl (ihl h))
      · exact .inr (.inr (ihr h))
  obtain ⟨st', g, hd⟩ := delete_leaf p env f.rep.wf f.rep.inn h0 ind st f.rep.root f.rep.valid hx (ofPrim_toPrim _)
    (HasKey.leaf (fun _ => zeroSum) 0 k (H d))
  rcases hd with ⟨hd, hroot, _, _⟩ | ⟨_, _, hn⟩
  · refine ⟨st, st', h1, hd, ?_, ?_⟩
    · intro hst
      have : ∀ (l : List Op) (y : Bytes32), y ∈ stored l → y ∈ l.map Op.key := by
        intro l
        induction l with
        | nil => intro y hy; simp [stored] at hy
        | cons x xs ih =>
          intro y hy
          rw [stored] at hy
          rw [List.map_cons, List.mem_cons]
          cases hx : x.data with
          | some _ =>
            rw [hx] at hy
            rcases List.mem_cons.1 hy with h | h
            · exact .inl h
            · exact .inr (ih y h)
          | none => rw [hx] at hy; exact .inr (ih y hy)
      exact hi.1.apart _ hmsg _ (by rw [List.map_append, List.mem_append]; exact .inl (this ops _ hst)) rfl
    · rw [root_toNode env wd ind hroot, ed.root wd, ← herase]; rfl
  · exact absurd ⟨f.reliable, f.stored⟩ hn

example : IdealFor Sha256.sha256 ([.update keyA [1], .update keyB [2]] ++ [.delete keyA]) ∧
    (keyA, [1]) ∈ (stateOf [.update keyA [1], .update keyB [2]]).kv :=
  ⟨staleOps_ideal.prefix (b := [.delete keyA]), by decide +kernel⟩

/-- **C41 fails** (2): `delete(root())` panics whenever the map has two keys or more. -/
theorem C41_delete_root_panics (p : Profile) (H : HashFn) (ops : List Op) (hi : IdealFor H ops) (h2 : 2 ≤ (stateOf ops).kv.length)
    (s : SpStore E) (hs : ∀ k, s.map k = none) (hr : s.Reliable) :
    ∃ t t', runAll p H ops (Tree.new s) = (.ok (), t) ∧ delete p H (t.root H) t = (.error (.panic .assertion), t') := by
  obtain ⟨st, t, h1, f, _⟩ := history_full p hi s hs hr
  have env := hi.env
  have hroot := root_toNode env f.rep.wf f.rep.inn f.rep.root
  have hnode : ∃ l r, t = .node l r := by
    cases t with
    | empty => rw [(f.rep.ent.nil f.rep.wf).1 rfl] at h2; simp at h2
    | leaf k v =>
      exfalso
      match hkv : (stateOf ops).kv, h2 with
      | a :: b :: l, _ =>
        have hn := f.rep.ent.nodup
        have hm := f.rep.ent.mem
        rw [hkv] at hn hm
        have ha := (hm (a.1, H a.2)).2 (by simp [digests])
        have hb := (hm (b.1, H b.2)).2 (by simp [digests])
        simp only [T.entries, List.mem_singleton, Prod.mk.injEq] at ha hb
        simp only [keysOf, List.map_cons, List.nodup_cons, List.mem_cons, not_or] at hn
        exact hn.1.1 (ha.1.trans hb.1.symm)
    | node l r => exact ⟨l, r, rfl⟩
  obtain ⟨l, r, rfl⟩ := hnode
  have h0 : T.node l r ≠ .empty := by simp
  have hrec := f.stored.get h0
  rw [← hroot] at hrec
  refine ⟨st, { st with storage := { st.storage with clock := st.storage.clock + 1 } }, h1, ?_⟩
  unfold delete
  rw [Exec.get_bind, if_neg (by rw [hroot]; exact f.rep.inn.hash_ne env h0)]
  have hget : onStorage (Store.get (st.root H)) st = (.ok (st.storage.map (st.root H)), { st with storage := { st.storage with clock := st.storage.clock + 1 } }) := by
    unfold onStorage; rw [Store.get_none _ (f.reliable _)]
  rw [Exec.bind_ok hget, hrec]
  simp only [ofPrim_toPrim]
  refine Exec.bind_error ?_
  unfold pathSet
  rw [Exec.get_bind]
  have hleaf : (T.toNode H 0 (T.node l r)).isLeaf = false := by
    have := T.isLeaf_toNode (e := 0) env f.rep.wf f.rep.inn
    rw [← Bool.not_eq_true, this]
    exact fun h => h l r rfl
  have hn : (PathIter.next (storageNode (E := E)) ⟨T.toNode H 0 (T.node l r), some (.ok (T.toNode H 0 (T.node l r)), .ok (T.toNode H 0 (T.node l r))), 0⟩)
      { st with storage := { st.storage with clock := st.storage.clock + 1 } } =
      (.error (.panic .assertion), { st with storage := { st.storage with clock := st.storage.clock + 1 } }) := by
    unfold PathIter.next
    simp only
    rw [if_pos (by simp [storageNode, T.toNode, Node.isNode])]
    refine Exec.bind_error ?_
    show (Exec.liftRes (Node.leafKey _) >>= _) _ = _
    unfold Node.leafKey
    rw [hleaf]; rfl
  have hnew : (PathIter.new storageNode p st.rootNode (T.toNode H 0 (T.node l r)) : TreeM E _)
      { st with storage := { st.storage with clock := st.storage.clock + 1 } } =
      (.ok ⟨T.toNode H 0 (T.node l r), some (.ok (T.toNode H 0 (T.node l r)), .ok (T.toNode H 0 (T.node l r))), 0⟩,
        { st with storage := { st.storage with clock := st.storage.clock + 1 } }) := by
    rw [f.rep.root]
    unfold PathIter.new
    show (Exec.liftRes (usizeSub p 256 (256 - 0)) >>= _) _ = _
    simp [usizeSub]
  rw [Exec.bind_ok hnew]
  refine Exec.bind_error ?_
  show collectPath (257 + 1) _ _ = _
  rw [collectPath]
  exact Exec.bind_error hn

example : IdealFor Sha256.sha256 orderOps ∧ 2 ≤ (stateOf orderOps).kv.length :=
  ⟨⟨⟨by decide +kernel, by decide +kernel, by decide +kernel⟩, noPhantom_of_keys (by decide +kernel)⟩, by decide +kernel⟩

/-- **C41 fails** (3): storing data under the hash of a leaf can destroy that leaf. Here the third
update loses the first key: the root is that of the map without it. -/
theorem C41_update_leaf_hash_loses_key (p : Profile) : ∃ t x,
    runAll p Sha256.sha256 [.update keyA [1], .update keyB [2], .update x [9]] (Tree.new (Store.empty : SpStore Empty)) = (.ok (), t) ∧
    x = Sha256.sha256 (smtLeafMsg keyA (Sha256.sha256 [1])) ∧
    t.root Sha256.sha256 = rootOf Sha256.sha256 [(x, [9]), (keyB, [2])] ∧
    t.root Sha256.sha256 ≠ rootOf Sha256.sha256 (mapOf [.update keyA [1], .update keyB [2], .update x [9]]) := by
  let x := Sha256.sha256 (smtLeafMsg keyA (Sha256.sha256 [1]))
  have h1 : (runAll ⟨true, true, .w64⟩ Sha256.sha256 [.update keyA [1], .update keyB [2], .update x [9]]
      (Tree.new (Store.empty : SpStore Empty))).1 = .ok () := by
    decide +kernel
  have h2 : (runAll ⟨true, true, .w64⟩ Sha256.sha256 [.update keyA [1], .update keyB [2], .update x [9]]
      (Tree.new (Store.empty : SpStore Empty))).2.root Sha256.sha256 = rootOf Sha256.sha256 [(x, [9]), (keyB, [2])] := by
    decide +kernel
  have h3 : rootOf Sha256.sha256 [(x, [9]), (keyB, [2])] ≠
      rootOf Sha256.sha256 (mapOf [.update keyA [1], .update keyB [2], .update x [9]]) := by decide +kernel
  generalize hT : runAll ⟨true, true, .w64⟩ Sha256.sha256 [.update keyA [1], .update keyB [2], .update x [9]]
      (Tree.new (Store.empty : SpStore Empty)) = T at h1 h2
  obtain ⟨r, t⟩ := T
  dsimp only at h1 h2
  subst h1
  exact ⟨t, x, (runAll_safe (debug_stricter p) _ _).transfer hT (by simp), rfl, h2, by rw [h2]; exact h3⟩

/-! ### C42: no panics -/

/-- **C42**. Along any history, with any storage failures, in every build profile, no call of
`update` or `delete` panics. (`root` cannot panic: it is a total function.) -/
theorem C42_never_panics (p : Profile) (H : HashFn) (ops : List Op) (s : SpStore E) (hs : ∀ k, s.map k = none)
    (hi : Ideal H (eventMsgs H [] (run p H ops (Tree.new s)).1) (ops.map Op.key)) (hnp : NoPhantom H ops) :
    ∀ e ∈ (run p H ops (Tree.new s)).1, ∀ q, e.out ≠ .error (.panic q) :=
  (run_spec p hi.env ops (Tree.new s) .empty [] (Rep.new s hs) (fun op ho => List.mem_map.2 ⟨op, ho, rfl⟩) hnp (Solid.nil H)
    (fun m hm => hm)).2

/-- **C42**. `load` never panics, whatever the storage holds. -/
theorem C42_load_never_panics (s : SpStore E) (root : Bytes32) (q : Panic) : (Tree.load s root).1 ≠ .error (.panic q) := by
  rcases (C36_load_total s root).1 with ⟨t, h, _⟩ | h | ⟨e, h⟩ | ⟨e, h⟩ <;> rw [h] <;> simp

/-- A history whose third call fails half-way. -/
example : Ideal Sha256.sha256 (eventMsgs Sha256.sha256 []
      (run ⟨true, true, .w64⟩ Sha256.sha256 [.update keyA [1], .update keyB [2], .delete keyA, .delete keyB] (Tree.new (failsOnce 9 true))).1)
      (([.update keyA [1], .update keyB [2], .delete keyA, .delete keyB] : List Op).map Op.key) ∧
    ((run ⟨true, true, .w64⟩ Sha256.sha256 [.update keyA [1], .update keyB [2], .delete keyA, .delete keyB] (Tree.new (failsOnce 9 true))).1.map
      fun e => (e.out matches .ok _)) = [true, true, false, false] :=
  ⟨⟨by decide +kernel, by decide +kernel, by decide +kernel⟩, by decide +kernel⟩

/-! ### C43: encodings -/

/-- **C43**. Sparse nodes survive the round trip through their stored form. -/
theorem C43_sparse_round_trip (n : Node) : Node.ofPrim n.toPrim = .ok n := ofPrim_toPrim n

/-- **C43**. Decoding accepts exactly the prefixes 0 and 1, and re-encoding gives back what was
decoded. -/
theorem C43_sparse_decode (height : Nat) (byte : UInt8) (lo hi : Bytes32) :
    (byte = 0 ∨ byte = 1 → ∃ n, Node.ofPrim (height, byte, lo, hi) = .ok n ∧ n.toPrim = (height, byte, lo, hi)) ∧
    (byte ≠ 0 → byte ≠ 1 → Node.ofPrim (height, byte, lo, hi) = .error (.invalidPrefix byte)) := by
  constructor
  · rintro (rfl | rfl)
    · exact ⟨⟨height, .leaf, lo, hi⟩, rfl, rfl⟩
    · exact ⟨⟨height, .node, lo, hi⟩, rfl, rfl⟩
  · intro h0 h1
    simp only [Node.ofPrim, Prefix.ofU8, h0, h1, if_false]
    rfl

/-- **C43**. Binary nodes survive the round trip in both directions. -/
theorem C43_binary_round_trip (n : Binary.Node) (q : Binary.Prim) :
    Binary.Node.ofPrim n.toPrim = n ∧ (Binary.Node.ofPrim q).toPrim = q := ⟨rfl, rfl⟩

end Props
end FuelMerkle
