import Verif.Props.SparseSessions
import Verif.Proofs.SparseRebuild

/-
Property C61: a delete may destroy other trees in the same storage; a new tree is sound whatever
happened before.
-/
namespace FuelMerkle
namespace Props
open Sparse Spec
variable {E : Type}

theorem live_session (p : Profile) {H : HashFn} (z : Session E) (g : Log E) {M : Bytes → Prop} {U : Bytes32 → Prop} (env : Env H M U)
    (hok : LogOk H M U g) (hz : z.Known g)
    (hst : ∀ r, z.opens = some r → ∃ t, T.WF 0 t ∧ T.In H M t ∧ r = t.hash H ∧ Stored H g.store.map 0 t)
    (hf : ∀ n, z.faults n = none) (hc : Covered H M U (z.run p H g).acks) :
    ∃ kv t s' acks, z.tree g = (.ok (kv, t), s') ∧ t.root H = z.opens.getD zero32 ∧ t.root H = rootOf H kv ∧
      (z.run p H g).acks = g.acks ++ acks ∧ acks.map (fun a => a.event.op) = z.calls ∧ (∀ a ∈ acks, a.event.out = .ok ()) ∧
      ∀ a, acks.getLast? = some a → ∃ t', T.WF 0 t' ∧ T.In H M t' ∧ a.root = t'.hash H ∧ Stored H (z.run p H g).store.map 0 t' := by
  have hopen : ∃ kv t s', z.tree g = (.ok (kv, t), s') ∧ t.root H = z.opens.getD zero32 := by
    unfold Session.tree
    cases ho : z.opens with
    | none => exact ⟨_, _, _, rfl, rfl⟩
    | some r =>
      obtain ⟨hr, _⟩ := hz r ho
      obtain ⟨t, w, hin, hroot, hs⟩ := hst r ho
      have h0 : t ≠ .empty := by rintro rfl; exact hr hroot
      have := load_stored env w hin h0 (z.start g.store) hs (hf _)
      rw [← hroot] at this
      simp only
      rw [this]
      exact ⟨_, _, _, rfl, (root_toNode env w hin rfl).trans hroot.symm⟩
  obtain ⟨kv, t, s', h1, h2⟩ := hopen
  obtain ⟨t0, hrep, hm, hsched, _⟩ := tree_ok env hok z hz h1
  have hstored : Stored H t.storage.map 0 t0 := by
    rw [hm]
    have hroot := root_toNode env hrep.wf hrep.inn hrep.root
    rw [h2] at hroot
    cases ho : z.opens with
    | none =>
      rw [ho] at hroot
      have := (hash_zero env hrep.inn).1 hroot.symm
      subst this
      trivial
    | some r =>
      obtain ⟨t, w, hin, hr, hs⟩ := hst r ho
      rw [ho] at hroot
      have := T.hash_inj env hrep.inn hin (hroot.symm.trans hr)
      subst this
      exact hs
  have hrel : t.storage.Reliable := fun n => by rw [hsched]; exact hf _
  have hrun : (z.run p H g).acks = g.acks ++ (follow p H z.calls kv t).1 := by
    unfold Session.run; rw [h1]
  have hrun2 : (z.run p H g).store = (follow p H z.calls kv t).2 := by
    unfold Session.run; rw [h1]
  have hcov : Covered H M U (follow p H z.calls kv t).1 := fun a ha => hc a (by rw [hrun]; exact List.mem_append.2 (.inr ha))
  refine ⟨kv, t, s', (follow p H z.calls kv t).1, h1, h2, hrep.root_eq env, hrun, ?_, ?_, ?_⟩
  · clear * -
    induction z.calls generalizing kv t with
    | nil => rfl
    | cons op ops ih => rw [follow, List.map_cons, ih]
  · exact follow_live p env z.calls kv t t0 hrep hstored hrel hcov
  · rw [hrun2]; exact follow_last p env z.calls kv t t0 hrep hstored hrel hcov

/-- **C61**. Whatever happened on a storage before (any sessions, any failures, interrupted deletes
too), a session on a new tree over it with storage working makes all its calls successfully, with
canonical roots; and the tree it leaves, if not empty, can be opened again: a further session on
working storage that loads it makes all its calls successfully. -/
theorem C61_new_tree_sound (p : Profile) (H : HashFn) (zs : List (Session E)) (z z' : Session E) (s : SpStore E) (hs : ∀ k, s.map k = none)
    (hk : AllKnown p H zs ⟨s, []⟩) (hnew : z.opens = none) (hf : ∀ n, z.faults n = none) (hf' : ∀ n, z'.faults n = none)
    (a : Ack E) (ha : (z.run p H (sessions p H zs ⟨s, []⟩)).acks.getLast? = some a) (hz : z.calls ≠ []) (h0 : a.root ≠ zero32)
    (hz' : z'.opens = some a.root)
    (hi : IdealLog H (z'.run p H (z.run p H (sessions p H zs ⟨s, []⟩)))) :
    ∃ acks acks' kv t s', (z.run p H (sessions p H zs ⟨s, []⟩)).acks = (sessions p H zs ⟨s, []⟩).acks ++ acks ∧
      acks.map (fun a => a.event.op) = z.calls ∧ (∀ a ∈ acks, a.event.out = .ok () ∧ a.root = rootOf H a.after) ∧
      z'.tree (z.run p H (sessions p H zs ⟨s, []⟩)) = (.ok (kv, t), s') ∧ t.root H = a.root ∧ rootOf H kv = a.root ∧
      (z'.run p H (z.run p H (sessions p H zs ⟨s, []⟩))).acks = (z.run p H (sessions p H zs ⟨s, []⟩)).acks ++ acks' ∧
      acks'.map (fun a => a.event.op) = z'.calls ∧ (∀ a ∈ acks', a.event.out = .ok () ∧ a.root = rootOf H a.after) := by
  have env := hi.1.env
  have hc := hi.covered
  obtain ⟨l', hl'⟩ := session_acks (H := H) p z' (z.run p H (sessions p H zs ⟨s, []⟩))
  obtain ⟨l, hl⟩ := session_acks (H := H) p z (sessions p H zs ⟨s, []⟩)
  have hc' := hc
  rw [hl'] at hc
  have hc1 := hc.left
  have hc2 := hc1
  rw [hl] at hc2
  have hc2 := hc2.left
  have hl0 : LogOk H (· ∈ (z'.run p H (z.run p H (sessions p H zs ⟨s, []⟩))).msgs H)
      (· ∈ (z'.run p H (z.run p H (sessions p H zs ⟨s, []⟩))).ops.map Op.key) (⟨s, []⟩ : Log E) :=
    ⟨(fun x q h => by rw [show s.map x = none from hs x] at h; cases h), by simp⟩
  have hok := sessions_ok p env zs ⟨s, []⟩ hl0 hk hc2
  clear hl hl'
  generalize sessions p H zs ⟨s, []⟩ = g at *
  have hzk : z.Known g := fun r hr => by rw [hnew] at hr; cases hr
  have hok1 := session_ok p env hok z hzk hc1
  obtain ⟨kv, t, s1, acks, q1, q2, q3, q4, q5, q6, q7⟩ := live_session p z g env hok hzk (fun r hr => by rw [hnew] at hr; cases hr) hf hc1
  have hne : acks ≠ [] := by
    rintro rfl
    exact hz q5.symm
  have ha' : acks.getLast? = some a := by
    rw [q4, List.getLast?_append] at ha
    cases hh : acks.getLast? with
    | none => exact absurd (List.getLast?_eq_none_iff.1 hh) hne
    | some b => rw [hh] at ha; simpa using ha
  have ham : a ∈ (z.run p H g).acks := by rw [q4]; exact List.mem_append.2 (.inr (List.mem_of_getLast? ha'))
  have hzk' : z'.Known (z.run p H g) := fun r hr => by
    rw [hz'] at hr
    cases hr
    exact ⟨h0, a, ham, rfl⟩
  obtain ⟨kv', t', s2, acks', r1, r2, r3, r4, r5, r6, _⟩ := live_session p z' (z.run p H g) env hok1 hzk' (fun r hr => by
    rw [hz'] at hr
    cases hr
    exact q7 a ha') hf' hc'
  have hok2 := session_ok p env hok1 z' hzk' hc'
  refine ⟨acks, acks', kv', t', s2, q4, q5, fun b hb => ⟨q6 b hb, (hok1.acks b (by rw [q4]; exact List.mem_append.2 (.inr hb))).root_eq⟩, r1, ?_, ?_, r4, r5,
    fun b hb => ⟨r6 b hb, (hok2.acks b (by rw [r4]; exact List.mem_append.2 (.inr hb))).root_eq⟩⟩
  · rw [r2, hz']; rfl
  · rw [← r3, r2, hz']; rfl

/-- The sessions of C57 and two more: the first is cut off while deleting, the second opens a new
tree, and the third opens what the second left. -/
def cutSession : Session Unit :=
  ⟨some (rootOf Tests.toyHash [(keyB, [5]), (keyA, [1])]), fun n => if 5 ≤ n then some ⟨(), true⟩ else none, [.delete keyA]⟩
def newSession : Session Unit := ⟨none, fun _ => none, [.update keyB [3], .update keyA [1], .delete keyA, .update keyA [6]]⟩
def nextSession : Session Unit := ⟨some (rootOf Tests.toyHash [(keyA, [6]), (keyB, [3])]), fun _ => none, [.delete keyB]⟩

example : (sessions ⟨true, true, .w64⟩ Tests.toyHash (demoSessions ++ [cutSession, newSession, nextSession]) ⟨demoEmpty, []⟩).acks.map
    (fun a => (a.event.out.toBool, a.after)) =
    [(true, [(keyA, [1])]), (false, [(keyA, [1])]), (true, [(keyB, [3]), (keyA, [1])]), (false, [(keyA, [1])]), (true, [(keyB, [5]), (keyA, [1])]),
     (false, [(keyB, [5]), (keyA, [1])]),
     (true, [(keyB, [3])]), (true, [(keyA, [1]), (keyB, [3])]), (true, [(keyB, [3])]), (true, [(keyA, [6]), (keyB, [3])]), (true, [(keyA, [6])])] := by
  decide +kernel

example : (∀ k, demoEmpty.map k = none) ∧ AllKnown ⟨true, true, .w64⟩ Tests.toyHash (demoSessions ++ [cutSession]) ⟨demoEmpty, []⟩ ∧ newSession.opens = none ∧
    (∀ n, newSession.faults n = none) ∧ (∀ n, nextSession.faults n = none) ∧ newSession.calls ≠ [] ∧
    (newSession.run ⟨true, true, .w64⟩ Tests.toyHash (sessions ⟨true, true, .w64⟩ Tests.toyHash (demoSessions ++ [cutSession]) ⟨demoEmpty, []⟩)).acks.getLast?.map (·.root) =
      nextSession.opens ∧ nextSession.opens ≠ some zero32 ∧
    IdealLog Tests.toyHash (nextSession.run ⟨true, true, .w64⟩ Tests.toyHash (newSession.run ⟨true, true, .w64⟩ Tests.toyHash
      (sessions ⟨true, true, .w64⟩ Tests.toyHash (demoSessions ++ [cutSession]) ⟨demoEmpty, []⟩))) :=
  ⟨fun _ => rfl, by decide +kernel, rfl, fun _ => rfl, fun _ => rfl, by decide, by decide +kernel, by decide +kernel,
    ⟨by decide +kernel, by decide +kernel, by decide +kernel⟩, noPhantom_of_keys (by decide +kernel)⟩

/-- **C61**. A successful delete takes the leaf out of storage, not only out of this tree: after any
history, once `delete(k)` has removed `k` with the data `d`, the tree that holds `k` and `d` alone
cannot be loaded any more, whatever tree on this storage had that root. -/
theorem C61_delete_unloads (p : Profile) (H : HashFn) (ops : List Op) (k : Bytes32) (d : Bytes) (hi : IdealFor H (ops ++ [.delete k]))
    (hd : (k, d) ∈ (stateOf ops).kv) (hrec : k ∈ (stateOf ops).recs) (s : SpStore E) (hs : ∀ k, s.map k = none) (hr : s.Reliable) :
    ∃ t t' s', runAll p H ops (Tree.new s) = (.ok (), t) ∧ delete p H k t = (.ok (), t') ∧
      Tree.load t'.storage (rootOf H [(k, d)]) = (.error (.err (.loadError (rootOf H [(k, d)]))), s') := by
  obtain ⟨st, t, h1, h2, _⟩ := full_run p hi.env ops (Full.new s hs hr) (fun op ho => by simp; exact .inl ⟨op, ho, rfl⟩)
    (fun m hm => msgsFrom_append _ _ _ m (.inl hm)) hi.prefix.2
  have hf : Fits H (· ∈ msgsFrom H ⟨[], []⟩ (ops ++ [.delete k])) ((Op.delete k).onState (stateFrom ⟨[], []⟩ ops)).kv :=
    ⟨fun m hm => msgsFrom_append _ _ _ m (.inr (by
      rw [msgsFrom, List.mem_append]; exact .inr hm)), onState_solid _ h2.solid (hi.2 _ (by simp))⟩
  obtain ⟨st', t', h3, h4, _, h6⟩ := full_step p hi.env (.delete k) (by simp [Op.key]) h2 hf
  have hsome := (h2.recs k (by simp [Op.key])).2 hrec
  have hent : (k, H d) ∈ t.entries := (h2.rep.ent.mem _).2 (mem_digests.2 ⟨d, hd, rfl⟩)
  have hin : T.In H (· ∈ msgsFrom H ⟨[], []⟩ (ops ++ [.delete k])) (T.del k 0 t) := by
    refine (h2.rep.ent.del h2.rep.wf k).inn (T.del_spec h2.rep.wf).1 ?_
    have hmet : met k (stateFrom ⟨[], []⟩ ops).kv = some k := met_present (mem_keysOf.2 ⟨d, hd⟩) h2.rep.wf h2.rep.ent
    have : ((Op.delete k).onState (stateFrom ⟨[], []⟩ ops)).kv = eraseMet (stateFrom ⟨[], []⟩ ops).kv k := by
      unfold Op.onState eraseMet
      have hne : (stateFrom ⟨[], []⟩ ops).kv ≠ [] := fun e => by
        have : (k, d) ∈ (stateFrom ⟨[], []⟩ ops).kv := hd
        rw [e] at this; cases this
      have hrec' : k ∈ (stateFrom ⟨[], []⟩ ops).recs := hrec
      simp [Op.data, Op.key, hne, hrec', hmet]
    rw [← this]
    exact hf
  have hgone := delete_leaf_gone p hi.env h2.rep (d := d) (by simp [Op.key]) hd hin hsome h3
  have hroot : rootOf H [(k, d)] = (T.leaf k (H d)).hash H := by
    simp [rootOf, digests, smtRoot, smt, T.hash]
  refine ⟨st, st', { st'.storage with clock := st'.storage.clock + 1 }, h1, h3, ?_⟩
  · rw [hroot]
    unfold Tree.load
    rw [Store.get_none _ (h4.reliable _), hgone]

example : IdealFor Sha256.sha256 ([.update keyA [1], .update keyB [2], .update keyA [3]] ++ [.delete keyB]) ∧
    (keyB, [2]) ∈ (stateOf [.update keyA [1], .update keyB [2], .update keyA [3]]).kv ∧
    keyB ∈ (stateOf [.update keyA [1], .update keyB [2], .update keyA [3]]).recs := ⟨cleanOps_ideal, by decide +kernel, by decide +kernel⟩

/-- A tree of one key; another session adds a key to it; a third takes the first key out of the
result. All calls succeed. A fourth cannot open the first tree any more. -/
def sharedSessions (H : HashFn) : List (Session Unit) :=
  [⟨none, fun _ => none, [.update keyA [1]]⟩,
   ⟨some (rootOf H [(keyA, [1])]), fun _ => none, [.update keyB [2]]⟩,
   ⟨some (rootOf H [(keyB, [2]), (keyA, [1])]), fun _ => none, [.delete keyA]⟩]

/-- **C61**. So trees that share a storage are not independent once one of them deletes: here all
calls of three sessions succeed, every root reported is right, and yet the first tree, whose root
was reported and which no session changed since, is gone (real SHA-256). -/
theorem C61_delete_breaks_other_trees : ∃ g : Log Unit,
    g = sessions ⟨true, true, .w64⟩ Sha256.sha256 (sharedSessions Sha256.sha256) ⟨demoEmpty, []⟩ ∧
    AllKnown ⟨true, true, .w64⟩ Sha256.sha256 (sharedSessions Sha256.sha256) ⟨demoEmpty, []⟩ ∧
    g.acks.map (fun a => a.event.out.toBool) = [true, true, true] ∧ (∀ a ∈ g.acks, a.root = rootOf Sha256.sha256 a.after) ∧
    (g.acks.head?.map (·.root)) = some (rootOf Sha256.sha256 [(keyA, [1])]) ∧
    ∃ s', Tree.load g.store (rootOf Sha256.sha256 [(keyA, [1])]) = (.error (.err (.loadError (rootOf Sha256.sha256 [(keyA, [1])]))), s') := by
  have h : ∀ g : Log Unit, g = sessions ⟨true, true, .w64⟩ Sha256.sha256 (sharedSessions Sha256.sha256) ⟨demoEmpty, []⟩ →
      g.acks.map (fun a => a.event.out.toBool) = [true, true, true] ∧ (∀ a ∈ g.acks, a.root = rootOf Sha256.sha256 a.after) ∧
      (g.acks.head?.map (·.root)) = some (rootOf Sha256.sha256 [(keyA, [1])]) ∧
      g.store.map (rootOf Sha256.sha256 [(keyA, [1])]) = none ∧ (g.store.sched g.store.clock).map (·.applied) = none := by
    intro g hg
    rw [hg]
    clear hg g
    decide +kernel
  have hk : AllKnown ⟨true, true, .w64⟩ Sha256.sha256 (sharedSessions Sha256.sha256) ⟨demoEmpty, []⟩ := by decide +kernel
  generalize hg : sessions ⟨true, true, .w64⟩ Sha256.sha256 (sharedSessions Sha256.sha256) ⟨demoEmpty, []⟩ = g at h
  obtain ⟨a, b, c, h1, h2⟩ := h g rfl
  refine ⟨g, rfl, hk, a, b, c, ?_⟩
  refine ⟨{ g.store with clock := g.store.clock + 1 }, ?_⟩
  unfold Tree.load
  rw [Store.get_none _ (Option.map_eq_none_iff.1 h2), h1]

end Props
end FuelMerkle
