import Verif.Proofs.SparseCanon
import Verif.Spec.Sha256

/-
Properties C28-C34, C44 of the sparse Merkle tree: which root a history of calls leads to.

`IdealFor H ops` (Spec/SparseApi.lean) says of the finitely many messages the history hashes
that no two collide, none hashes to zero and none hashes to a key used in the history.
`stateOf` is the exact machine, `mapOf` the plain key/value map.
-/
namespace FuelMerkle
namespace Props
open Sparse Spec
variable {E : Type}

/-! ### A history for the examples, with SHA-256 -/

def keyA : Bytes32 := ⟨List.replicate 32 0x11, by decide⟩
def keyB : Bytes32 := ⟨List.replicate 32 0x91, by decide⟩

theorem noPhantom_of_keys {H : HashFn} {ops : List Op} (h : ∀ op ∈ ops, op.key ≠ zero32) : NoPhantom H ops :=
  fun op ho _ _ hk => absurd hk (h op ho)

/-- Two keys, one of them deleted twice. -/
def staleOps : List Op := [.update keyA [1], .update keyB [2], .delete keyA, .delete keyA]

theorem staleOps_ideal : IdealFor Sha256.sha256 staleOps :=
  ⟨⟨by decide +kernel, by decide +kernel, by decide +kernel⟩, noPhantom_of_keys (by decide +kernel)⟩

/-- Insert, overwrite, delete. -/
def cleanOps : List Op := [.update keyA [1], .update keyB [2], .update keyA [3], .delete keyB]

theorem cleanOps_ideal : IdealFor Sha256.sha256 cleanOps :=
  ⟨⟨by decide +kernel, by decide +kernel, by decide +kernel⟩, noPhantom_of_keys (by decide +kernel)⟩

theorem cleanOps_clean : Clean cleanOps := by
  intro pre op post e hd
  have h4 : pre.length < 4 := by
    have := congrArg List.length e
    simp [cleanOps] at this
    omega
  have hop : cleanOps[pre.length]? = some op := by rw [e]; simp
  have hpre : pre = cleanOps.take pre.length := by rw [e]; simp
  match hn : pre.length, h4 with
  | 0, _ | 1, _ | 2, _ =>
    rw [hn] at hop
    simp only [cleanOps, List.getElem?_cons_zero, List.getElem?_cons_succ, Option.some.injEq] at hop
    subst hop; cases hd
  | 3, _ =>
    rw [hn] at hop hpre
    simp only [cleanOps, List.getElem?_cons_zero, List.getElem?_cons_succ, Option.some.injEq] at hop
    subst hop; left; rw [hpre]; decide +kernel

/-! ### C28: the root after a history -/

/-- **C28** (what the code does). After any history of updates and deletes on a new tree every
call returns `Ok` and the root is the canonical root of the map in the state the history leads
to. -/
theorem C28_root_of_history (p : Profile) (H : HashFn) (ops : List Op) (hi : IdealFor H ops) (s : SpStore E)
    (hs : ∀ k, s.map k = none) (hr : s.Reliable) :
    ∃ t, runAll p H ops (Tree.new s) = (.ok (), t) ∧ t.root H = rootOf H (stateOf ops).kv := by
  obtain ⟨st, t, h1, h2, _⟩ := history_full p hi s hs hr
  exact ⟨st, h1, h2.rep.root_eq hi.env⟩

/-- **C28** for histories without stale deletes: the root is the canonical root of the
key/value map the history denotes. -/
theorem C28_root_canonical (p : Profile) (H : HashFn) (ops : List Op) (hi : IdealFor H ops) (hc : Clean ops) (s : SpStore E)
    (hs : ∀ k, s.map k = none) (hr : s.Reliable) :
    ∃ t, runAll p H ops (Tree.new s) = (.ok (), t) ∧ t.root H = rootOf H (mapOf ops) := by
  obtain ⟨t, h1, h2⟩ := C28_root_of_history p H ops hi s hs hr
  rw [(Clean.state ops hc).1] at h2
  exact ⟨t, h1, h2⟩

example : IdealFor Sha256.sha256 cleanOps ∧ Clean cleanOps ∧ mapOf cleanOps = [(keyA, [3])] :=
  ⟨cleanOps_ideal, cleanOps_clean, by decide +kernel⟩

/-- **C28**: deletes of present or never stored keys, and any updates, never make a history
stale. -/
theorem C28_updates_clean (ops : List Op) (h : ∀ op ∈ ops, op.data ≠ none) : Clean ops := Clean.of_updates h

theorem stale_state {k1 k2 : Bytes32} (hne : k1 ≠ k2) {d1 d2 : Bytes} (h1 : d1 ≠ []) (h2 : d2 ≠ []) :
    (stateOf [.update k1 d1, .update k2 d2, .delete k1, .delete k1]).kv = [] ∧
      mapOf [.update k1 d1, .update k2 d2, .delete k1, .delete k1] = [(k2, d2)] := by
  have hs : stateOf [.update k1 d1, .update k2 d2] = ⟨[(k2, d2), (k1, d1)], [k2, k1]⟩ := by
    simp [stateOf, stateFrom, Op.onState, Op.data, h1, h2, Op.key, Entries.put, Entries.erase, hne]
  have hm : met k1 [(k2, d2), (k1, d1)] = some k1 := met_self (by simp [keysOf, hne.symm]) (by simp [keysOf])
  have hm' : met k1 [(k2, d2)] = some k2 := rfl
  constructor
  · rw [show [Op.update k1 d1, .update k2 d2, .delete k1, .delete k1] = [.update k1 d1, .update k2 d2] ++ [.delete k1, .delete k1] from rfl,
      stateOf_append, hs]
    simp [stateFrom, Op.onState, Op.data, Op.key, hm, Entries.erase, hne.symm, hm']
  · simp [mapOf, Op.onMap, Op.data, h1, h2, Op.key, Entries.put, Entries.erase, hne, hne.symm]

/-- **C28, C31 fail for stale deletes**: put two keys, delete the first one twice. Every call
returns `Ok`, the map is `{k2 ↦ d2}`, and the tree is empty: the second delete removed `k2`. -/
theorem C28_stale_delete_loses_key (p : Profile) (H : HashFn) {k1 k2 : Bytes32} (hne : k1 ≠ k2) {d1 d2 : Bytes}
    (h1 : d1 ≠ []) (h2 : d2 ≠ []) (hi : IdealFor H [.update k1 d1, .update k2 d2, .delete k1, .delete k1]) (s : SpStore E)
    (hs : ∀ k, s.map k = none) (hr : s.Reliable) :
    ∃ t, runAll p H [.update k1 d1, .update k2 d2, .delete k1, .delete k1] (Tree.new s) = (.ok (), t) ∧
      t.root H = zero32 ∧ rootOf H (mapOf [.update k1 d1, .update k2 d2, .delete k1, .delete k1]) ≠ zero32 := by
  obtain ⟨t, e1, e2⟩ := C28_root_of_history p H _ hi s hs hr
  obtain ⟨s1, s2⟩ := stale_state hne h1 h2
  refine ⟨t, e1, by rw [e2, s1]; rfl, ?_⟩
  rw [s2]
  have hstate : (stateOf [Op.update k1 d1, .update k2 d2, .delete k1]).kv = [(k2, d2)] := by
    have hm : met k1 [(k2, d2), (k1, d1)] = some k1 := met_self (by simp [keysOf, hne.symm]) (by simp [keysOf])
    simp [stateOf, stateFrom, Op.onState, Op.data, h1, h2, Op.key, Entries.put, Entries.erase, hne, hne.symm, hm]
  have hmem : smtLeafMsg k2 (H d2) ∈ msgsFrom H ⟨[], []⟩ [.update k1 d1, .update k2 d2, .delete k1, .delete k1] := by
    refine msgsFrom_append _ [Op.update k1 d1, .update k2 d2, .delete k1] [.delete k1] _ (.inr (msgsFrom_head _ _ _ ?_))
    show _ ∈ msgsOf H (stateOf [Op.update k1 d1, .update k2 d2, .delete k1]).kv
    rw [hstate]; exact List.mem_singleton.2 rfl
  exact hi.1.nonzero _ hmem

example : IdealFor Sha256.sha256 [.update keyA [1], .update keyB [2], .delete keyA, .delete keyA] := staleOps_ideal

/-! ### C29: order does not matter -/

/-- **C29**. Two histories that lead to maps with the same entries give the same root. -/
theorem C29_same_state_same_root (p p' : Profile) (H : HashFn) (ops ops' : List Op) (hi : IdealFor H ops) (hi' : IdealFor H ops')
    (he : ∀ x, x ∈ (stateOf ops).kv ↔ x ∈ (stateOf ops').kv) (s s' : SpStore E)
    (hs : ∀ k, s.map k = none) (hr : s.Reliable) (hs' : ∀ k, s'.map k = none) (hr' : s'.Reliable) :
    ∃ t t', runAll p H ops (Tree.new s) = (.ok (), t) ∧ runAll p' H ops' (Tree.new s') = (.ok (), t') ∧ t.root H = t'.root H := by
  obtain ⟨t, h1, h2⟩ := C28_root_of_history p H ops hi s hs hr
  obtain ⟨t', h1', h2'⟩ := C28_root_of_history p' H ops' hi' s' hs' hr'
  exact ⟨t, t', h1, h1', by rw [h2, h2', rootOf_congr (stateOf_nodup _) (stateOf_nodup _) he]⟩

/-- **C29** for histories without stale deletes, in particular update histories: same final map,
same root. -/
theorem C29_same_map_same_root (p p' : Profile) (H : HashFn) (ops ops' : List Op) (hi : IdealFor H ops) (hi' : IdealFor H ops')
    (hc : Clean ops) (hc' : Clean ops') (he : ∀ x, x ∈ mapOf ops ↔ x ∈ mapOf ops') (s s' : SpStore E)
    (hs : ∀ k, s.map k = none) (hr : s.Reliable) (hs' : ∀ k, s'.map k = none) (hr' : s'.Reliable) :
    ∃ t t', runAll p H ops (Tree.new s) = (.ok (), t) ∧ runAll p' H ops' (Tree.new s') = (.ok (), t') ∧ t.root H = t'.root H :=
  C29_same_state_same_root p p' H ops ops' hi hi' (by rw [(Clean.state ops hc).1, (Clean.state ops' hc').1]; exact he)
    s s' hs hr hs' hr'

/-- **C29** for update histories. -/
theorem C29_update_order (p p' : Profile) (H : HashFn) (ops ops' : List Op) (hi : IdealFor H ops) (hi' : IdealFor H ops')
    (hu : ∀ op ∈ ops, op.data ≠ none) (hu' : ∀ op ∈ ops', op.data ≠ none) (he : ∀ x, x ∈ mapOf ops ↔ x ∈ mapOf ops')
    (s s' : SpStore E) (hs : ∀ k, s.map k = none) (hr : s.Reliable) (hs' : ∀ k, s'.map k = none) (hr' : s'.Reliable) :
    ∃ t t', runAll p H ops (Tree.new s) = (.ok (), t) ∧ runAll p' H ops' (Tree.new s') = (.ok (), t') ∧ t.root H = t'.root H :=
  C29_same_map_same_root p p' H ops ops' hi hi' (.of_updates hu) (.of_updates hu') he s s' hs hr hs' hr'

def orderOps : List Op := [.update keyB [2], .update keyA [3]]
def orderOps' : List Op := [.update keyA [1], .update keyB [2], .update keyA [3]]

example : IdealFor Sha256.sha256 orderOps ∧ IdealFor Sha256.sha256 orderOps' ∧ (∀ op ∈ orderOps ++ orderOps', op.data ≠ none) ∧
    mapOf orderOps = mapOf orderOps' :=
  ⟨⟨⟨by decide +kernel, by decide +kernel, by decide +kernel⟩, noPhantom_of_keys (by decide +kernel)⟩,
    cleanOps_ideal.prefix (a := orderOps') (b := [.delete keyB]), by decide +kernel, by decide +kernel⟩

/-! ### C30: deleting a present key -/

theorem onState_delete_present {s : State} (h : (keysOf s.kv).Nodup) {k : Bytes32} (hk : k ∈ keysOf s.kv) (hr : k ∈ s.recs) :
    (Op.delete k).onState s = ⟨s.kv.erase k, s.recs⟩ := by
  have hne : s.kv ≠ [] := by intro e; rw [e] at hk; simp [keysOf] at hk
  unfold Op.onState
  rw [show (Op.delete k).data = none from rfl, show (Op.delete k).key = k from rfl]
  simp only []
  rw [if_neg (by simp [hne, hr]), met_self h hk]

/-- **C30**. Deleting a present key gives the root of the map without it. The key must not be
the zero key, unless the history has no stale deletes (`C30_delete_present_clean`). -/
theorem C30_delete_present (p : Profile) (H : HashFn) (ops : List Op) (k : Bytes32) (hi : IdealFor H (ops ++ [.delete k]))
    (hk : k ∈ keysOf (stateOf ops).kv) (hz : k ≠ zero32) (s : SpStore E) (hs : ∀ k, s.map k = none) (hr : s.Reliable) :
    ∃ t, runAll p H (ops ++ [.delete k]) (Tree.new s) = (.ok (), t) ∧ t.root H = rootOf H ((stateOf ops).kv.erase k) := by
  obtain ⟨t, h1, h2⟩ := C28_root_of_history p H _ hi s hs hr
  rw [stateOf_snoc, onState_delete_present (stateOf_nodup ops) hk (stored_recs ops k (stateKeys_stored ops k hk) hz)] at h2
  exact ⟨t, h1, h2⟩

/-- **C30** for histories without stale deletes, for every key. -/
theorem C30_delete_present_clean (p : Profile) (H : HashFn) (ops : List Op) (k : Bytes32) (hi : IdealFor H (ops ++ [.delete k]))
    (hc : Clean ops) (hk : k ∈ keysOf (mapOf ops)) (s : SpStore E) (hs : ∀ k, s.map k = none) (hr : s.Reliable) :
    ∃ t, runAll p H (ops ++ [.delete k]) (Tree.new s) = (.ok (), t) ∧ t.root H = rootOf H ((mapOf ops).erase k) := by
  obtain ⟨t, h1, h2⟩ := C28_root_of_history p H _ hi s hs hr
  obtain ⟨c1, c2⟩ := Clean.state ops hc
  rw [stateOf_snoc, onState_delete_present (stateOf_nodup ops) (by rw [c1]; exact hk) ((c2 k).2 (keys_stored ops k hk)), c1] at h2
  exact ⟨t, h1, h2⟩

/-- **C30**. Putting an absent key and deleting it restores the root. -/
theorem C30_insert_delete (p : Profile) (H : HashFn) (ops : List Op) (k : Bytes32) (d : Bytes) (hd : d ≠ [])
    (hi : IdealFor H (ops ++ [.update k d, .delete k])) (hk : k ∉ keysOf (stateOf ops).kv)
    (s s' : SpStore E) (hs : ∀ k, s.map k = none) (hr : s.Reliable) (hs' : ∀ k, s'.map k = none) (hr' : s'.Reliable) :
    ∃ t t', runAll p H ops (Tree.new s) = (.ok (), t) ∧ runAll p H (ops ++ [.update k d, .delete k]) (Tree.new s') = (.ok (), t') ∧
      t'.root H = t.root H := by
  obtain ⟨t, h1, h2⟩ := C28_root_of_history p H _ hi.prefix s hs hr
  obtain ⟨t', h1', h2'⟩ := C28_root_of_history p H _ hi s' hs' hr'
  refine ⟨t, t', h1, h1', ?_⟩
  rw [h2, h2', stateOf_append]
  have e : stateFrom (stateOf ops) [.update k d, .delete k] = (Op.delete k).onState ⟨(stateOf ops).kv.put k d, k :: (stateOf ops).recs⟩ := by
    simp [stateFrom, Op.onState, Op.data, hd, Op.key]
  rw [e, onState_delete_present (nodup_put (stateOf_nodup ops) k d) (by simp [keysOf, Entries.put]) (by simp)]
  have : (Entries.put (stateOf ops).kv k d).erase k = (stateOf ops).kv := by
    rw [Entries.put, Entries.erase, List.filter_cons_of_neg (by simp)]
    show Entries.erase (Entries.erase _ k) k = _
    rw [erase_absent hk, erase_absent hk]
  rw [this]

example : IdealFor Sha256.sha256 ([.update keyA [1]] ++ [.update keyB [2], .delete keyB]) ∧
    keyB ∉ keysOf (stateOf [.update keyA [1]]).kv ∧ keyA ∈ keysOf (stateOf [.update keyA [1]]).kv :=
  ⟨⟨⟨by decide +kernel, by decide +kernel, by decide +kernel⟩, noPhantom_of_keys (by decide +kernel)⟩,
    by decide +kernel, by decide +kernel⟩

def key40 : Bytes32 := ⟨0x40 :: List.replicate 31 0, by decide⟩
def key80 : Bytes32 := ⟨0x80 :: List.replicate 31 0, by decide⟩

/-- A present zero key whose record a stale delete has removed. -/
def zeroOps : List Op := [.update zero32 [1], .update key40 [2], .update key80 [3], .delete key80, .delete key80]

/-- **C30 fails for the zero key after a stale delete**: the key is present, deleting it returns
`Ok` and changes nothing. -/
theorem C30_zero_key_undeletable (p : Profile) (H : HashFn) (hi : IdealFor H (zeroOps ++ [.delete zero32])) (s : SpStore E)
    (hs : ∀ k, s.map k = none) (hr : s.Reliable) :
    ∃ t, runAll p H (zeroOps ++ [.delete zero32]) (Tree.new s) = (.ok (), t) ∧
      zero32 ∈ keysOf (mapOf zeroOps) ∧ t.root H = rootOf H (mapOf zeroOps) := by
  obtain ⟨t, h1, h2⟩ := C28_root_of_history p H _ hi s hs hr
  refine ⟨t, h1, by decide +kernel, ?_⟩
  rw [h2]
  have : (stateOf (zeroOps ++ [.delete zero32])).kv = mapOf zeroOps := by decide +kernel
  rw [this]

theorem noPhantom_of_data {H : HashFn} {ops : List Op} (h : ∀ op ∈ ops, op.data.all (fun d => H d ≠ zero32) = true) : NoPhantom H ops := by
  intro op ho d hd _
  have := h op ho
  rw [hd] at this
  simpa using this

example : IdealFor Sha256.sha256 (zeroOps ++ [.delete zero32]) :=
  ⟨⟨by decide +kernel, by decide +kernel, by decide +kernel⟩, noPhantom_of_data (by decide +kernel)⟩

/-! ### C31: deleting an absent key -/

/-- **C31**. Deleting a key that was never stored changes nothing: the root node and all records
stay as they are. -/
theorem C31_delete_never_stored (p : Profile) (H : HashFn) (ops : List Op) (k : Bytes32) (hi : IdealFor H (ops ++ [.delete k]))
    (hk : k ∉ stored ops) (s : SpStore E) (hs : ∀ k, s.map k = none) (hr : s.Reliable) :
    ∃ t t', runAll p H ops (Tree.new s) = (.ok (), t) ∧ delete p H k t = (.ok (), t') ∧
      t'.root H = t.root H ∧ t'.rootNode = t.rootNode ∧ t'.storage.map = t.storage.map := by
  have hm : ∀ m ∈ msgsFrom H ⟨[], []⟩ ops, m ∈ msgsFrom H ⟨[], []⟩ (ops ++ [.delete k]) :=
    fun m hm => msgsFrom_append _ _ _ m (.inl hm)
  obtain ⟨st, t, h1, h2, _⟩ := full_run p hi.env ops (Full.new s hs hr) (fun op ho => by simp; exact .inl ⟨op, ho, rfl⟩) hm
    hi.prefix.2
  have hrec : st.storage.map k = none := by
    have := h2.recs k (by simp [Op.key])
    rw [← Option.not_isSome_iff_eq_none, this]
    exact fun h => hk (recs_stored ops k h)
  obtain ⟨st', same, hd⟩ := delete_nothing p hi.env h2.rep.wf h2.rep.inn st h2.rep.root (.inr hrec)
  rcases hd with hd | ⟨_, hr'⟩
  · exact ⟨st, st', h1, hd, by unfold Tree.root; rw [same.root], same.root, same.map⟩
  · exact absurd h2.reliable hr'

/-- **C31** (what the code does with a key that is absent but was stored before). The key met on
its path is removed; if there is none the map does not change. -/
theorem C31_delete_stale (p : Profile) (H : HashFn) (ops : List Op) (k : Bytes32) (hi : IdealFor H (ops ++ [.delete k]))
    (hk : k ∈ stored ops) (hz : k ≠ zero32) (hne : (stateOf ops).kv ≠ []) (s : SpStore E) (hs : ∀ k, s.map k = none) (hr : s.Reliable) :
    ∃ t, runAll p H (ops ++ [.delete k]) (Tree.new s) = (.ok (), t) ∧
      t.root H = rootOf H (match met k (stateOf ops).kv with
        | some k' => (stateOf ops).kv.erase k'
        | none => (stateOf ops).kv) := by
  obtain ⟨t, h1, h2⟩ := C28_root_of_history p H _ hi s hs hr
  refine ⟨t, h1, ?_⟩
  rw [h2, stateOf_snoc]
  unfold Op.onState
  rw [show (Op.delete k).data = none from rfl, show (Op.delete k).key = k from rfl]
  simp only []
  rw [if_neg (by simp [hne, stored_recs ops k hk hz])]
  cases met k (stateOf ops).kv <;> rfl

example : IdealFor Sha256.sha256 ([.update keyA [1], .update keyB [2], .delete keyA] ++ [.delete keyA]) ∧
    keyA ∈ stored [.update keyA [1], .update keyB [2], .delete keyA] ∧
    keyA ∉ keysOf (mapOf [.update keyA [1], .update keyB [2], .delete keyA]) ∧
    met keyA (stateOf [.update keyA [1], .update keyB [2], .delete keyA]).kv = some keyB :=
  ⟨staleOps_ideal, by decide +kernel, by decide +kernel, by decide +kernel⟩

example : IdealFor Sha256.sha256 ([.update keyA [1]] ++ [.delete keyB]) ∧ keyB ∉ stored [.update keyA [1]] :=
  ⟨⟨⟨by decide +kernel, by decide +kernel, by decide +kernel⟩, noPhantom_of_keys (by decide +kernel)⟩, by decide +kernel⟩

/-! ### C32: overwriting -/

theorem put_put (kv : Entries Bytes) (k : Bytes32) (d e : Bytes) : (kv.put k e).put k d = kv.put k d := by
  rw [Entries.put, Entries.put, Entries.put, Entries.erase, List.filter_cons_of_neg (by simp)]
  congr 1
  exact erase_absent (by simp [keysOf_erase])

/-- **C32**. `update(k, d)` after `update(k, e)` gives the root of `update(k, d)` alone. -/
theorem C32_update_overwrites (p : Profile) (H : HashFn) (ops : List Op) (k : Bytes32) (d e : Bytes) (hd : d ≠ []) (he : e ≠ [])
    (hi : IdealFor H (ops ++ [.update k e, .update k d])) (hi' : IdealFor H (ops ++ [.update k d]))
    (s s' : SpStore E) (hs : ∀ k, s.map k = none) (hr : s.Reliable) (hs' : ∀ k, s'.map k = none) (hr' : s'.Reliable) :
    ∃ t t', runAll p H (ops ++ [.update k e, .update k d]) (Tree.new s) = (.ok (), t) ∧
      runAll p H (ops ++ [.update k d]) (Tree.new s') = (.ok (), t') ∧ t.root H = t'.root H := by
  obtain ⟨t, h1, h2⟩ := C28_root_of_history p H _ hi s hs hr
  obtain ⟨t', h1', h2'⟩ := C28_root_of_history p H _ hi' s' hs' hr'
  refine ⟨t, t', h1, h1', ?_⟩
  rw [h2, h2']
  have : (stateOf (ops ++ [.update k e, .update k d])).kv = (stateOf (ops ++ [.update k d])).kv := by
    rw [stateOf_append, stateOf_append]
    simp [stateFrom, Op.onState, Op.data, hd, he, Op.key, put_put]
  rw [this]

/-- **C32**. Repeating an update does not change the root. -/
theorem C32_update_idempotent (p : Profile) (H : HashFn) (ops : List Op) (k : Bytes32) (d : Bytes) (hd : d ≠ [])
    (hi : IdealFor H (ops ++ [.update k d])) (s : SpStore E) (hs : ∀ k, s.map k = none) (hr : s.Reliable) :
    ∃ t t', runAll p H (ops ++ [.update k d]) (Tree.new s) = (.ok (), t) ∧ update p H k d t = (.ok (), t') ∧ t'.root H = t.root H := by
  have hm : ∀ m ∈ msgsFrom H ⟨[], []⟩ (ops ++ [.update k d]), m ∈ msgsFrom H ⟨[], []⟩ (ops ++ [.update k d]) := fun m h => h
  obtain ⟨st, t, h1, h2, _⟩ := full_run p hi.env _ (Full.new s hs hr) (fun op ho => List.mem_map.2 ⟨op, ho, rfl⟩) hm hi.2
  have hst : (stateFrom ⟨[], []⟩ (ops ++ [.update k d])).kv = Entries.put (stateOf ops).kv k d := by
    rw [stateFrom_append]
    simp [stateOf, stateFrom, Op.onState, Op.data, hd, Op.key]
  have hst2 : ((Op.update k d).onState (stateFrom ⟨[], []⟩ (ops ++ [.update k d]))).kv = Entries.put (stateOf ops).kv k d := by
    unfold Op.onState
    simp only [Op.data, hd, if_false, Op.key, hst]
    exact put_put _ _ _ _
  have hfit : Fits H (· ∈ msgsFrom H ⟨[], []⟩ (ops ++ [.update k d])) (Entries.put (stateOf ops).kv k d) := by
    refine ⟨fun m hm => msgsFrom_append _ (ops ++ [.update k d]) [] m (.inr ?_) |> fun h => by simpa using h, ?_⟩
    · rw [msgsFrom, hst]; exact hm
    · have := h2.solid
      rw [hst] at this; exact this
  obtain ⟨st', t', h3, h4, _⟩ := full_step p hi.env (.update k d) (by simp [Op.key]) h2 (by rw [hst2]; exact hfit)
  refine ⟨st, st', h1, h3, ?_⟩
  rw [h4.rep.root_eq hi.env, h2.rep.root_eq hi.env, hst, hst2]

example : IdealFor Sha256.sha256 ([.update keyA [1]] ++ [.update keyB [2], .update keyB [3]]) ∧
    IdealFor Sha256.sha256 ([.update keyA [1]] ++ [.update keyB [3]]) :=
  ⟨⟨⟨by decide +kernel, by decide +kernel, by decide +kernel⟩, noPhantom_of_keys (by decide +kernel)⟩,
    ⟨⟨by decide +kernel, by decide +kernel, by decide +kernel⟩, noPhantom_of_keys (by decide +kernel)⟩⟩

/-! ### C33: empty data -/

/-- **C33**. `update(k, "")` is `delete(k)`: same result, same final state, from every tree state
whatever its storage holds or does. -/
theorem C33_update_empty (p : Profile) (H : HashFn) (k : Bytes32) (t : Tree E) : update p H k [] t = delete p H k t := rfl

/-- **C33** in particular within a history. -/
theorem C33_in_histories (p : Profile) (H : HashFn) (ops ops' : List Op) (k : Bytes32) (t : Tree E) :
    runAll p H (ops ++ .update k [] :: ops') t = runAll p H (ops ++ .delete k :: ops') t := by
  rw [runAll_append, runAll_append]
  rfl

/-! ### C34: the zero root -/

/-- **C34**. The root is zero exactly when the map is empty. -/
theorem C34_zero_root (p : Profile) (H : HashFn) (ops : List Op) (hi : IdealFor H ops) (s : SpStore E)
    (hs : ∀ k, s.map k = none) (hr : s.Reliable) :
    ∃ t, runAll p H ops (Tree.new s) = (.ok (), t) ∧ (t.root H = zero32 ↔ (stateOf ops).kv = []) := by
  obtain ⟨st, t, h1, h2, _⟩ := history_full p hi s hs hr
  refine ⟨st, h1, ?_⟩
  rw [root_toNode hi.env h2.rep.wf h2.rep.inn h2.rep.root, ← h2.rep.ent.nil h2.rep.wf]
  exact h2.rep.inn.hash_zero hi.env

/-- **C34** for histories without stale deletes. -/
theorem C34_zero_root_clean (p : Profile) (H : HashFn) (ops : List Op) (hi : IdealFor H ops) (hc : Clean ops) (s : SpStore E)
    (hs : ∀ k, s.map k = none) (hr : s.Reliable) :
    ∃ t, runAll p H ops (Tree.new s) = (.ok (), t) ∧ (t.root H = zero32 ↔ mapOf ops = []) := by
  obtain ⟨t, h1, h2⟩ := C34_zero_root p H ops hi s hs hr
  rw [(Clean.state ops hc).1] at h2
  exact ⟨t, h1, h2⟩

/-! ### C44: what stays under the key -/

/-- **C44**. `update(k, d)` leaves a record for `k` that holds its leaf: height 0, prefix 0, the
key, the digest of the data. -/
theorem C44_update_records (p : Profile) (H : HashFn) (ops : List Op) (k : Bytes32) (d : Bytes) (hd : d ≠ [])
    (hi : IdealFor H (ops ++ [.update k d])) (s : SpStore E) (hs : ∀ k, s.map k = none) (hr : s.Reliable) :
    ∃ t, runAll p H (ops ++ [.update k d]) (Tree.new s) = (.ok (), t) ∧ t.storage.map k = some (0, 0x00, k, H d) := by
  obtain ⟨st, t, h1, h2, _⟩ := full_run p hi.env ops (Full.new s hs hr) (fun op ho => by simp; exact .inl ⟨op, ho, rfl⟩)
    (fun m hm => msgsFrom_append _ _ _ m (.inl hm)) hi.prefix.2
  have hdata : (Op.update k d).data = some d := by simp [Op.data, hd]
  obtain ⟨st', t', h3, h4, _, h6⟩ := full_step p hi.env (.update k d) (by simp [Op.key]) h2
    ⟨fun m hm => msgsFrom_append _ _ _ m (.inr (by
      rw [msgsFrom, List.mem_append]; exact .inr hm)), onState_solid _ h2.solid (hi.2 _ (by simp))⟩
  refine ⟨st', ?_, h6 d hdata⟩
  rw [runAll_append, Exec.bind_ok h1, runAll, Exec.bind_ok h3]; rfl

/-- **C44**. A delete never touches the record of any key other than the zero key: in particular
`delete(k)` leaves the record of `k`. -/
theorem C44_delete_keeps_records (p : Profile) (H : HashFn) (ops : List Op) (k : Bytes32) (hi : IdealFor H (ops ++ [.delete k]))
    (y : Bytes32) (hy : y ∈ (ops ++ [Op.delete k]).map Op.key) (hz : y ≠ zero32) (s : SpStore E) (hs : ∀ k, s.map k = none)
    (hr : s.Reliable) :
    ∃ t t', runAll p H ops (Tree.new s) = (.ok (), t) ∧ delete p H k t = (.ok (), t') ∧ t'.storage.map y = t.storage.map y := by
  obtain ⟨st, t, h1, h2, _⟩ := full_run p hi.env ops (Full.new s hs hr) (fun op ho => by simp; exact .inl ⟨op, ho, rfl⟩)
    (fun m hm => msgsFrom_append _ _ _ m (.inl hm)) hi.prefix.2
  have hf : Fits H (· ∈ msgsFrom H ⟨[], []⟩ (ops ++ [.delete k])) ((Op.delete k).onState (stateFrom ⟨[], []⟩ ops)).kv :=
    ⟨fun m hm => msgsFrom_append _ _ _ m (.inr (by
      rw [msgsFrom, List.mem_append]; exact .inr hm)), onState_solid _ h2.solid (hi.2 _ (by simp))⟩
  obtain ⟨st', t', h3, h4, _, h6⟩ := full_step p hi.env (.delete k) (by simp [Op.key]) h2 hf
  obtain ⟨t'', so⟩ := op_step p hi.env (.delete k) (by simp [Op.key]) h2.rep
    (by rw [attempt_eq_onState (h2.recs _ (by simp [Op.key]))]; exact hf)
  rw [h3] at so
  refine ⟨st, st', h1, h3, ?_⟩
  rcases so.recs y hy (.inr rfl) with e | ⟨e, _⟩
  · exact e
  · exact absurd e hz

/-- **C44**. After `update(k, d)` and `delete(k)`, the record of `k` still holds the deleted leaf
(every `k`, the zero key included). -/
theorem C44_residue (p : Profile) (H : HashFn) (ops : List Op) (k : Bytes32) (d : Bytes) (hd : d ≠ [])
    (hi : IdealFor H (ops ++ [.update k d] ++ [.delete k])) (s : SpStore E) (hs : ∀ k, s.map k = none) (hr : s.Reliable) :
    ∃ t, runAll p H (ops ++ [.update k d] ++ [.delete k]) (Tree.new s) = (.ok (), t) ∧
      k ∉ keysOf (stateOf (ops ++ [.update k d] ++ [.delete k])).kv ∧ t.storage.map k = some (0, 0x00, k, H d) := by
  have henv := hi.env
  obtain ⟨st0, h0, hrec⟩ := C44_update_records p H ops k d hd hi.prefix s hs hr
  obtain ⟨st, t, h1, h2, _⟩ := full_run p henv (ops ++ [.update k d]) (Full.new s hs hr)
    (fun op ho => by rw [List.map_append, List.mem_append]; exact .inl (List.mem_map.2 ⟨op, ho, rfl⟩))
    (fun m hm => msgsFrom_append _ _ _ m (.inl hm)) hi.prefix.2
  rw [h0] at h1
  obtain rfl : st0 = st := by injection h1
  have hf : Fits H (· ∈ msgsFrom H ⟨[], []⟩ (ops ++ [.update k d] ++ [.delete k]))
      ((Op.delete k).onState (stateFrom ⟨[], []⟩ (ops ++ [.update k d]))).kv :=
    ⟨fun m hm => msgsFrom_append _ _ _ m (.inr (by
      rw [msgsFrom, List.mem_append]; exact .inr hm)), onState_solid _ h2.solid (hi.2 _ (by simp))⟩
  obtain ⟨st', t', h3, h4, _, h6⟩ := full_step p henv (.delete k) (by simp [Op.key]) h2 hf
  obtain ⟨t'', so⟩ := op_step p henv (.delete k) (by simp [Op.key]) h2.rep
    (by rw [attempt_eq_onState (h2.recs _ (by simp [Op.key]))]; exact hf)
  rw [h3] at so
  have hst : stateFrom ⟨[], []⟩ (ops ++ [.update k d]) = ⟨Entries.put (stateOf ops).kv k d, k :: (stateOf ops).recs⟩ := by
    rw [stateFrom_append]
    simp [stateOf, stateFrom, Op.onState, Op.data, hd, Op.key]
  have hn := nodup_put (stateOf_nodup ops) k d
  have hin : k ∈ keysOf (Entries.put (stateOf ops).kv k d) := by simp [keysOf, Entries.put]
  refine ⟨st', ?_, ?_, ?_⟩
  · rw [runAll_append, Exec.bind_ok h0, runAll, Exec.bind_ok h3]; rfl
  · rw [stateOf_snoc]
    show k ∉ keysOf ((Op.delete k).onState (stateFrom ⟨[], []⟩ (ops ++ [.update k d]))).kv
    rw [hst, onState_delete_present hn hin (by simp)]
    simp [keysOf_erase]
  · rw [← hrec]
    rcases so.recs k (by simp [Op.key]) (.inr rfl) with e | ⟨_, _, _, _, b, _⟩
    · exact e
    · rw [hst] at b
      have := met_self hn hin
      rw [show met (Op.delete k).key (Entries.put (stateOf ops).kv k d) = some k from this] at b
      cases b

example : IdealFor Sha256.sha256 ([.update keyA [1]] ++ [.update keyB [2]] ++ [.delete keyB]) :=
  ⟨⟨by decide +kernel, by decide +kernel, by decide +kernel⟩, noPhantom_of_keys (by decide +kernel)⟩

end Props
end FuelMerkle
