import Verif.Proofs.SparseSessions
import Verif.Props.SparseStore
import Verif.Tests.ToyHash

/-
Properties C54-C57 of the sparse Merkle tree: what is in storage, on any storage with any
failures, and sessions.
-/
namespace FuelMerkle
namespace Props
open Sparse Spec
variable {E : Type}

/-! ### C54: storage is addressed by content -/

/-- **C54**. Whatever sessions are run on a storage (trees new or loaded at any value whatsoever,
any calls, any failures) and whatever the hash function, every record stays filed under its own
hash, or under its key if it is a leaf. An empty storage is filed, so this holds from the start. -/
theorem C54_filed (p : Profile) (H : HashFn) (zs : List (Session E)) (g : Log E) (h : Filed H g.store) :
    Filed H (sessions p H zs g).store :=
  sessions_pres p (fun s k => filed_kept.get s k) (fun _ _ h => h) zs (fun z _ op _ => .op filed_kept p op) g h

example : Filed (E := Unit) Tests.toyHash ⟨fun _ => none, fun _ => none, 0⟩ := fun _ _ h => by cases h

/-- **C54**. A tree loaded from such a storage at `r` has root `r`, except if there is a leaf
record filed under its key `r`. Then the tree is the tree of that one leaf: its root is the hash of
the leaf and not the value asked for. -/
theorem C54_load_root (H : HashFn) (s s' : SpStore E) (h : Filed H s) (r : Bytes32) (t : Tree E) (hl : Tree.load s r = (.ok t, s')) :
    t.root H = r ∨ ∃ height v, s.map r = some (height, 0x00, r, v) ∧ t.root H = smtRoot H [(r, v)] := by
  unfold Tree.load at hl
  cases hs : s.sched s.clock with
  | some f => rw [Store.get_fault _ hs] at hl; cases hl
  | none =>
    rw [Store.get_none _ hs] at hl
    cases hm : s.map r with
    | none => rw [hm] at hl; cases hl
    | some q =>
      rw [hm] at hl
      obtain ⟨height, byte, lo, hi⟩ := q
      have hroot : ∀ n : Node, n.bytesLo = lo → n.bytesHi = hi → n.pfx.toU8 = byte → t = ⟨n, { s with clock := s.clock + 1 }⟩ →
          t.root H = if lo = zero32 ∧ hi = zero32 then zero32 else H ([byte] ++ lo.val ++ hi.val) := by
        rintro ⟨_, pfx, lo', hi'⟩ e1 e2 e3 e4
        simp only at e1 e2 e3
        subst e1 e2 e3 e4
        unfold Tree.root Node.hash Node.isPlaceholder
        by_cases hz : lo' = zero32 ∧ hi' = zero32
        · rw [if_pos hz, if_pos (by simp only [Bool.and_eq_true, decide_eq_true_eq]; exact hz)]; rfl
        · rw [if_neg hz, if_neg (by simp only [Bool.and_eq_true, decide_eq_true_eq]; exact hz)]
          cases pfx <;> simp [sumAll, Prefix.toU8, Prefix.bytes]
      have hn : ∃ n : Node, n.bytesLo = lo ∧ n.bytesHi = hi ∧ n.pfx.toU8 = byte ∧ t = ⟨n, { s with clock := s.clock + 1 }⟩ := by
        unfold Node.ofPrim Prefix.ofU8 at hl
        simp only at hl
        by_cases h0 : byte = 0
        · subst h0
          cases hl
          exact ⟨_, rfl, rfl, rfl, rfl⟩
        · by_cases h1 : byte = 1
          · subst h1
            cases hl
            exact ⟨_, rfl, rfl, rfl, rfl⟩
          · simp [h0, h1, Bind.bind, Except.bind] at hl
      obtain ⟨n, n1, n2, n3, n4⟩ := hn
      rw [hroot n n1 n2 n3 n4]
      rcases h r _ hm with ⟨hb, e⟩ | ⟨_, hz, e⟩ | ⟨_, h1, h2, e⟩
      · subst hb; subst e
        by_cases hz : r = zero32 ∧ hi = zero32
        · rw [if_pos hz]; exact .inl hz.1.symm
        · rw [if_neg hz]; exact .inr ⟨height, hi, rfl, rfl⟩
      · rw [if_neg (by rintro ⟨a, b⟩; rcases hz with hz | hz <;> contradiction)]
        exact .inl e.symm
      · rw [if_pos ⟨h1, h2⟩]; exact .inl e.symm

example : ∃ s : SpStore Unit, Filed Tests.toyHash s ∧ ∃ t s', Tree.load s keyA = (.ok t, s') :=
  ⟨⟨fun k => if k = keyA then some (0, 0, keyA, keyB) else none, fun _ => none, 0⟩, (fun x q h => by
    simp only at h
    split at h
    · rename_i e; cases h; exact .inl ⟨rfl, e⟩
    · cases h), _, _, rfl⟩

theorem entry_msg {H : HashFn} {k v : Bytes32} {t : T} (h : (k, v) ∈ t.entries) : smtLeafMsg k v ∈ t.msgs H := by
  induction t with
  | empty => simp [T.entries] at h
  | leaf k' v' =>
    simp only [T.entries, List.mem_singleton, Prod.mk.injEq] at h
    simp [T.msgs, h]
  | node l r ihl ihr =>
    simp only [T.entries, List.mem_append] at h
    simp only [T.msgs, List.mem_cons, List.mem_append]
    rcases h with h | h
    · exact .inr (.inl (ihl h))
    · exact .inr (.inr (ihr h))

/-- **C54**: the exception happens. After any history ending in `update(k, d)`, loading the key `k`
as if it were a root succeeds, and gives the tree of `k` alone: every other key is lost. -/
theorem C54_load_key (p : Profile) (H : HashFn) (ops : List Op) (k : Bytes32) (d : Bytes) (hd : d ≠ [])
    (hi : IdealFor H (ops ++ [.update k d])) (s : SpStore E) (hs : ∀ k, s.map k = none) (hr : s.Reliable) :
    ∃ t t' s', runAll p H (ops ++ [.update k d]) (Tree.new s) = (.ok (), t) ∧ Tree.load t.storage k = (.ok t', s') ∧
      t'.root H = rootOf H [(k, d)] ∧ t'.root H ≠ k := by
  obtain ⟨t, h1, h2⟩ := C44_update_records p H ops k d hd hi s hs hr
  obtain ⟨st, _, a, f, _⟩ := history_full p hi s hs hr
  rw [h1] at a
  obtain rfl : t = st := by injection a
  have hroot : Tree.root H (⟨⟨0, .leaf, k, H d⟩, { t.storage with clock := t.storage.clock + 1 }⟩ : Tree E) = rootOf H [(k, d)] := by
    have hnz : ¬ (k = zeroSum ∧ H d = zeroSum) := fun h => hi.2 (.update k d) (by simp) d (by simp [Op.data, hd]) h.1 h.2
    unfold Tree.root Node.hash Node.isPlaceholder
    rw [if_neg (by simp only [Bool.and_eq_true, decide_eq_true_eq]; exact hnz)]
    simp [sumAll, Prefix.bytes, rootOf, digests, smtRoot, smt, smtLeafMsg]
  refine ⟨t, ⟨⟨0, .leaf, k, H d⟩, { t.storage with clock := t.storage.clock + 1 }⟩, { t.storage with clock := t.storage.clock + 1 }, h1, ?_, hroot, ?_⟩
  · unfold Tree.load
    rw [Store.get_none _ (f.reliable _), h2]
    rfl
  · rw [hroot]
    have hm := entry_msg (H := H) ((f.rep.ent.mem (k, H d)).2 (by
      rw [stateOf, stateFrom_append]
      simp [stateFrom, Op.onState, Op.data, hd, Op.key, Entries.put, digests]))
    exact hi.1.apart _ (f.rep.inn.1 _ hm) k (by simp [Op.key])

example : IdealFor Sha256.sha256 ([.update keyA [1]] ++ [.update keyB [2]]) := cleanOps_ideal.prefix (b := [.update keyA [3], .delete keyB])

/-! ### C55: updates never take anything away -/

/-- **C55**. Sessions that only update (with data that is not empty), whatever fails in them,
remove no record; a record they replace is replaced by one filed under its own hash or key. -/
theorem C55_updates_keep_records (p : Profile) (H : HashFn) (zs : List (Session E)) (hz : ∀ z ∈ zs, ∀ op ∈ z.calls, op.data ≠ none)
    (g : Log E) (x : Bytes32) :
    (sessions p H zs g).store.map x = g.store.map x ∨ ∃ q, (sessions p H zs g).store.map x = some q ∧ FiledUnder H x q := by
  refine sessions_pres (I := fun s => s.map x = g.store.map x ∨ ∃ q, s.map x = some q ∧ FiledUnder H x q) p
    (fun s k => (record_kept x _).get s k) (fun _ _ h => h) zs (fun z hzz op ho => ?_) g (.inl rfl)
  have := hz z hzz op ho
  cases op with
  | delete k => exact absurd rfl this
  | update k d =>
    refine Pres.update (record_kept x _) p k ?_
    rintro rfl
    exact this rfl

example : ∀ z ∈ ([⟨none, fun n => if n = 2 then some ⟨(), true⟩ else none, [.update keyA [1], .update keyB [2]]⟩] : List (Session Unit)),
    ∀ op ∈ z.calls, op.data ≠ none := by decide

/-! ### C56: calls end -/

/-- **C56**. On any storage, with any contents and any failures, an update makes at most 771
storage calls and its loops end. -/
theorem C56_update_cost (p : Profile) (H : HashFn) (k : Bytes32) (d : Bytes) (hd : d ≠ []) (t : Tree E) :
    (update p H k d t).2.storage.clock ≤ t.storage.clock + 771 ∧ (update p H k d t).1 ≠ .error (.panic .diverges) :=
  ⟨(Bounded.update p k hd).clock t, (Bounded.update p k hd).ends t⟩

example : ([1] : Bytes) ≠ [] := by decide

/-- **C56**. On any storage, with any contents and any failures, a delete makes at most 1026
storage calls and its loops end. -/
theorem C56_delete_cost (p : Profile) (H : HashFn) (k : Bytes32) (t : Tree E) :
    (delete p H k t).2.storage.clock ≤ t.storage.clock + 1026 ∧ (delete p H k t).1 ≠ .error (.panic .diverges) :=
  ⟨(Bounded.delete p k).clock t, (Bounded.delete p k).ends t⟩

/-! ### C57: sessions -/

/-- The hash function behaves on everything that was hashed or used as a key in the sessions. -/
def IdealLog (H : HashFn) (g : Log E) : Prop := Ideal H (g.msgs H) (g.ops.map Op.key) ∧ NoPhantom H g.ops

theorem IdealLog.covered {H : HashFn} {g : Log E} (h : IdealLog H g) : Covered H (· ∈ g.msgs H) (· ∈ g.ops.map Op.key) g.acks := by
  intro a ha
  have hop : a.event.op ∈ g.ops := List.mem_map.2 ⟨a, ha, rfl⟩
  exact ⟨fun m hm => List.mem_flatMap.2 ⟨a, ha, hm⟩, List.mem_map.2 ⟨_, hop, rfl⟩, h.2 _ hop⟩

/-- **C57**. Any number of sessions on one storage, each on a new tree or on one loaded at any
root reported by any earlier session (not necessarily the last one, so histories may branch), with
any calls and any failures and crashes: every root reported is the canonical root of the map the
calls acknowledged on that branch lead to, and no call panics. -/
theorem C57_sessions_safe (p : Profile) (H : HashFn) (zs : List (Session E)) (s : SpStore E) (hs : ∀ k, s.map k = none)
    (hk : AllKnown p H zs ⟨s, []⟩) (hi : IdealLog H (sessions p H zs ⟨s, []⟩)) :
    ∀ a ∈ (sessions p H zs ⟨s, []⟩).acks, a.root = rootOf H a.after ∧ ∀ q, a.event.out ≠ .error (.panic q) := by
  have h := sessions_ok p hi.1.env zs ⟨s, []⟩ ⟨(fun x q h => by rw [show s.map x = none from hs x] at h; cases h), by simp⟩ hk hi.covered
  exact fun a ha => ⟨(h.acks a ha).root_eq, (h.acks a ha).nopanic⟩

/-- Store two keys, the second call being cut off; load the first root and store another key;
load the first root again. -/
def demoSessions : List (Session Unit) :=
  [⟨none, fun n => if 3 ≤ n then some ⟨(), false⟩ else none, [.update keyA [1], .update keyB [2]]⟩,
   ⟨some (rootOf Tests.toyHash [(keyA, [1])]), fun _ => none, [.update keyB [3]]⟩,
   ⟨some (rootOf Tests.toyHash [(keyA, [1])]), fun n => if n = 3 then some ⟨(), true⟩ else none, [.update keyB [4], .update keyB [5]]⟩]

def demoEmpty : SpStore Unit := ⟨fun _ => none, fun _ => none, 0⟩

instance {z : Session E} {g : Log E} : Decidable (z.Known g) :=
  match h : z.opens with
  | none => .isTrue fun r hr => by rw [h] at hr; cases hr
  | some r => if hc : r ≠ zero32 ∧ ∃ a ∈ g.acks, a.root = r then
      .isTrue fun r' hr => by rw [h] at hr; cases hr; exact hc
    else .isFalse fun hk => hc (hk r h)

instance AllKnown.dec (p : Profile) (H : HashFn) : (zs : List (Session E)) → (g : Log E) → Decidable (AllKnown p H zs g)
  | [], _ => .isTrue trivial
  | z :: zs, g => @instDecidableAnd _ _ _ (AllKnown.dec p H zs (z.run p H g))

theorem demo_known : AllKnown ⟨true, true, .w64⟩ Tests.toyHash demoSessions ⟨demoEmpty, []⟩ := by decide +kernel

example : (sessions ⟨true, true, .w64⟩ Tests.toyHash demoSessions ⟨demoEmpty, []⟩).acks.map (fun a => (a.event.out.toBool, a.after)) =
    [(true, [(keyA, [1])]), (false, [(keyA, [1])]), (true, [(keyB, [3]), (keyA, [1])]), (false, [(keyA, [1])]), (true, [(keyB, [5]), (keyA, [1])])] := by
  decide +kernel

theorem demo_ideal : IdealLog Tests.toyHash (sessions ⟨true, true, .w64⟩ Tests.toyHash demoSessions ⟨demoEmpty, []⟩) :=
  ⟨⟨by decide +kernel, by decide +kernel, by decide +kernel⟩, noPhantom_of_keys (by decide +kernel)⟩

example : AllKnown ⟨true, true, .w64⟩ Tests.toyHash demoSessions ⟨demoEmpty, []⟩ ∧
    IdealLog Tests.toyHash (sessions ⟨true, true, .w64⟩ Tests.toyHash demoSessions ⟨demoEmpty, []⟩) := ⟨demo_known, demo_ideal⟩

/-- **C57**. If the sessions so far only updated, whatever failed in them, then every tree reported
is still there: a session on working storage opens it, gets the root it asked for, and all its
calls (deletes too) succeed. -/
theorem C57_sessions_live (p : Profile) (H : HashFn) (zs : List (Session E)) (z : Session E) (s : SpStore E) (hs : ∀ k, s.map k = none)
    (hu : ∀ z ∈ zs, ∀ op ∈ z.calls, op.data ≠ none) (hk : AllKnown p H zs ⟨s, []⟩) (hz : z.Known (sessions p H zs ⟨s, []⟩))
    (hf : ∀ n, z.faults n = none) (hi : IdealLog H (z.run p H (sessions p H zs ⟨s, []⟩))) :
    ∃ kv t s' acks, z.tree (sessions p H zs ⟨s, []⟩) = (.ok (kv, t), s') ∧ t.root H = z.opens.getD zero32 ∧ t.root H = rootOf H kv ∧
      (z.run p H (sessions p H zs ⟨s, []⟩)).acks = (sessions p H zs ⟨s, []⟩).acks ++ acks ∧
      acks.map (fun a => a.event.op) = z.calls ∧ ∀ a ∈ acks, a.event.out = .ok () := by
  have env := hi.1.env
  have hc := hi.covered
  obtain ⟨l, hl⟩ := session_acks (H := H) p z (sessions p H zs ⟨s, []⟩)
  have hc' := hc
  rw [hl] at hc
  have h0 : LogOk H (· ∈ (z.run p H (sessions p H zs ⟨s, []⟩)).msgs H) (· ∈ (z.run p H (sessions p H zs ⟨s, []⟩)).ops.map Op.key) (⟨s, []⟩ : Log E) :=
    ⟨(fun x q h => by rw [show s.map x = none from hs x] at h; cases h), by simp⟩
  have hok := sessions_ok p env zs ⟨s, []⟩ h0 hk hc.left
  have hst := sessions_stored p env zs ⟨s, []⟩ h0 (fun a ha => by simp at ha) hk hu hc.left
  generalize sessions p H zs ⟨s, []⟩ = g at *
  have hopen : ∃ kv t s', z.tree g = (.ok (kv, t), s') ∧ t.root H = z.opens.getD zero32 := by
    unfold Session.tree
    cases ho : z.opens with
    | none => exact ⟨_, _, _, rfl, rfl⟩
    | some r =>
      obtain ⟨hr, a, ha, har⟩ := hz r ho
      obtain ⟨t, w, hin, he, hroot⟩ := (hok.acks a ha).tree
      have h0 : t ≠ .empty := by rintro rfl; exact hr (har.symm.trans hroot)
      have := load_stored env w hin h0 (z.start g.store) (hst a ha t w hin hroot) (hf _)
      rw [← hroot, har] at this
      simp only
      rw [this]
      exact ⟨_, _, _, rfl, (root_toNode env w hin rfl).trans (hroot.symm.trans har)⟩
  obtain ⟨kv, t, s', h1, h2⟩ := hopen
  obtain ⟨t0, hrep, hm, hsched, hst0⟩ := tree_ok env hok z hz h1
  have hstored : Stored H t.storage.map 0 t0 := by
    rcases hst0 with rfl | ⟨a, ha, hr⟩
    · trivial
    · rw [hm]; exact hst a ha t0 hrep.wf hrep.inn hr
  have hrun : (z.run p H g).acks = g.acks ++ (follow p H z.calls kv t).1 := by
    unfold Session.run; rw [h1]
  refine ⟨kv, t, s', (follow p H z.calls kv t).1, h1, h2, hrep.root_eq env, hrun, ?_, ?_⟩
  · clear * -
    induction z.calls generalizing kv t with
    | nil => rfl
    | cons op ops ih => rw [follow, List.map_cons, ih]
  · refine follow_live p env z.calls kv t t0 hrep hstored (fun n => by rw [hsched]; exact hf _) fun a ha => hc' a ?_
    rw [hrun]; exact List.mem_append.2 (.inr ha)

/-- A last session, which goes back to the second tree and deletes its keys. -/
def demoLast : Session Unit := ⟨some (rootOf Tests.toyHash [(keyB, [3]), (keyA, [1])]), fun _ => none, [.delete keyA, .delete keyB]⟩

example : (∀ z ∈ demoSessions, ∀ op ∈ z.calls, op.data ≠ none) ∧ AllKnown ⟨true, true, .w64⟩ Tests.toyHash demoSessions ⟨demoEmpty, []⟩ ∧
    demoLast.Known (sessions ⟨true, true, .w64⟩ Tests.toyHash demoSessions ⟨demoEmpty, []⟩) ∧ (∀ n, demoLast.faults n = none) ∧
    IdealLog Tests.toyHash (demoLast.run ⟨true, true, .w64⟩ Tests.toyHash (sessions ⟨true, true, .w64⟩ Tests.toyHash demoSessions ⟨demoEmpty, []⟩)) :=
  ⟨by decide, demo_known, by decide +kernel, fun _ => rfl, ⟨by decide +kernel, by decide +kernel, by decide +kernel⟩, noPhantom_of_keys (by decide +kernel)⟩

end Props
end FuelMerkle
