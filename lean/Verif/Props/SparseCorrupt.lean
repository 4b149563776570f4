import Verif.Proofs.SparseCorrupt
import Verif.Proofs.Profiles
import Verif.Props.SparseSessions

/-
C80: sparse trees opened on storage whose contents cannot be trusted.
-/
namespace FuelMerkle.Props
open FuelMerkle Spec Sparse
variable {E : Type}

set_option maxRecDepth 100000

/-- The maps whose trees a sequence of calls on a tree for `kv` computes or tries to compute. -/
def mapsSeen (kv : Entries Bytes) (acks : List (Ack E)) : List (Entries Bytes) := kv :: acks.map fun a => a.event.attempt a.before

/-- The hash function behaves on everything hashed for these maps and used as a key by the calls. -/
structure IdealMaps (H : HashFn) (kv : Entries Bytes) (maps : List (Entries Bytes)) (ops : List Op) : Prop where
  ideal : Ideal H (maps.flatMap (msgsOf H)) (ops.map Op.key)
  calls : NoPhantom H ops
  start : (zero32, zero32) ∉ digests H kv

/-- **C80**: what is enough. A storage with any contents and any failures, as long as it has, under
the hashes of the records of the trees gone through, nothing or the right record, and, under the keys
used, nothing or some leaf record of that key: a tree opened on it for a map has the root of the map,
and every call that follows leaves the root of the map it should and does not panic. -/
theorem C80_sound_storage (p : Profile) (H : HashFn) (kv : Entries Bytes) (hk : (keysOf kv).Nodup) (s : SpStore E) (t : Tree E)
    (ho : Opens H kv s t) (ops : List Op) (hi : IdealMaps H kv (mapsSeen kv (follow p H ops kv t).1) ops)
    (hs : Sound H s.map (mapsSeen kv (follow p H ops kv t).1) (ops.map Op.key)) :
    t.root H = rootOf H kv ∧
      ∀ a ∈ (follow p H ops kv t).1, a.root = rootOf H a.after ∧ ∀ q, a.event.out ≠ .error (.panic q) := by
  have hm := follow_maps (H := H) p ops kv t hk hi.start hi.calls
  have hv := hs.valid (by
    intro x hx
    rcases List.mem_cons.1 hx with rfl | hx
    · exact ⟨hk, hi.start⟩
    · obtain ⟨a, ha, rfl⟩ := List.mem_map.1 hx
      exact (hm a ha).2)
  have env : Env H (fun a => ∃ x ∈ mapsSeen kv (follow p H ops kv t).1, a ∈ msgsOf H x) (· ∈ ops.map Op.key) :=
    ⟨fun a b ha hb => hi.ideal.distinct a (List.mem_flatMap.2 ha) b (List.mem_flatMap.2 hb), fun a ha => hi.ideal.nonzero a (List.mem_flatMap.2 ha),
      fun a k ha => hi.ideal.apart a (List.mem_flatMap.2 ha) k⟩
  obtain ⟨u, hrep⟩ := opens_rep env hk ⟨fun m hm => ⟨kv, List.mem_cons_self .., hm⟩, hi.start⟩ hv ho
  refine ⟨hrep.root_eq env, fun a ha => ?_⟩
  have h := (follow_ok p env ops kv t u hrep fun a ha => ⟨fun m h =>
    ⟨_, List.mem_cons_of_mem _ (List.mem_map.2 ⟨a, ha, rfl⟩), h⟩, List.mem_map.2 ⟨_, (hm a ha).1, rfl⟩, hi.calls _ (hm a ha).1⟩).2 a ha
  exact ⟨h.root_eq, h.nopanic⟩

/-- **C80**: how to check it. If every record hashes to the key it is filed under (or is the leaf
record of the key), and the heights are right, then the storage is sound, unless a record collides. -/
theorem C80_check (H : HashFn) (m : Bytes32 → Option Prim) (maps : List (Entries Bytes)) (keys : List Bytes32)
    (hc : HashChecked H m keys) (hh : RightHeights H m maps)
    (hd : ∀ kv ∈ maps, ∀ q ∈ recordsOf H kv, ∀ q', m (H (recordMsg q)) = some q' →
      H (recordMsg q) ∉ keys ∧ (H (recordMsg q') = H (recordMsg q) → recordMsg q' = recordMsg q)) :
    Sound H m maps keys := by
  constructor
  · intro kv hkv q hq q' hm
    obtain ⟨h1, h2⟩ := hd kv hkv q hq q' hm
    rcases hc _ _ hm with ⟨_, h3⟩ | ⟨h3, _⟩
    · have h4 := h2 h3
      have h5 := hh kv hkv q hq q' hm h4
      obtain ⟨a, b, c, d⟩ := q
      obtain ⟨a', b', c', d'⟩ := q'
      simp only [recordMsg, List.append_assoc] at h4
      obtain ⟨e1, h4⟩ := List.append_inj h4 rfl
      obtain ⟨e2, e3⟩ := List.append_inj h4 (by rw [c.property, c'.property])
      simp only [List.cons.injEq, and_true] at e1
      rw [show a' = a from h5, e1, Subtype.ext e2, Subtype.ext e3]
    · exact absurd h3 h1
  · intro k hk q hm
    rcases hc _ _ hm with ⟨h, _⟩ | ⟨_, h⟩
    · exact absurd hk h
    · exact h

/-- **C80**: what `load` checks. On any storage, the root of a loaded tree is computed from the record
found under the requested root, whatever it is, leaving out its height. -/
theorem C80_loaded_root (H : HashFn) (s s' : SpStore E) (r : Bytes32) (t : Tree E) (hl : Tree.load s r = (.ok t, s')) :
    ∃ q, s.map r = some q ∧ (q.2.1 = 0 ∨ q.2.1 = 1) ∧
      t.root H = if q.2.2.1 = zero32 ∧ q.2.2.2 = zero32 then zero32 else H (recordMsg q) := by
  unfold Tree.load at hl
  cases hf : s.sched s.clock with
  | some f => rw [Store.get_fault _ hf] at hl; cases hl
  | none =>
    rw [Store.get_none _ hf] at hl
    cases hm : s.map r with
    | none => rw [hm] at hl; cases hl
    | some q =>
      rw [hm] at hl
      obtain ⟨h, b, lo, hi⟩ := q
      refine ⟨_, rfl, ?_⟩
      have key : ∀ pf : Prefix, Prefix.ofU8 b = .ok pf → (b = 0 ∨ b = 1) ∧ pf.bytes = [b] := by
        intro pf hp
        unfold Prefix.ofU8 at hp
        split at hp
        · rename_i e; subst e; cases hp; exact ⟨.inr rfl, rfl⟩
        · split at hp
          · rename_i e; subst e; cases hp; exact ⟨.inl rfl, rfl⟩
          · cases hp
      cases hp : Prefix.ofU8 b with
      | error e => simp [Node.ofPrim, hp, bind, Except.bind] at hl
      | ok pf =>
        obtain ⟨k1, k2⟩ := key pf hp
        simp only [Node.ofPrim, hp, bind, Except.bind, pure, Except.pure] at hl
        cases hl
        refine ⟨k1, ?_⟩
        simp only [Tree.root, Node.hash, Node.isPlaceholder, Bool.and_eq_true, decide_eq_true_eq, sumAll, recordMsg, k2]
        simp only [List.flatten_cons, List.flatten_nil, List.append_nil, List.append_assoc]
        rfl

/-- **C80**: comparing the root after `load` with the root asked for is a check of the record found
there: it is right but for its height, or it collides with the right one. -/
theorem C80_root_check (H : HashFn) (s s' : SpStore E) (kv : Entries Bytes) (q : Prim) (hq : q ∈ recordsOf H kv)
    (hr : H (recordMsg q) = rootOf H kv) (hne : rootOf H kv ≠ zero32) (t : Tree E)
    (hl : Tree.load s (rootOf H kv) = (.ok t, s')) (hc : t.root H = rootOf H kv) :
    ∃ q', s.map (rootOf H kv) = some q' ∧ H (recordMsg q') = H (recordMsg q) ∧ (recordMsg q' = recordMsg q → q'.2 = q.2) := by
  obtain ⟨q', h1, h2, h3⟩ := C80_loaded_root H s s' _ t hl
  rw [hc] at h3
  refine ⟨q', h1, ?_, fun h4 => ?_⟩
  · split at h3
    · exact absurd h3 hne
    · rw [hr, h3]
  · obtain ⟨a, b, c, d⟩ := q
    obtain ⟨a', b', c', d'⟩ := q'
    simp only [recordMsg, List.append_assoc] at h4
    obtain ⟨e1, h4⟩ := List.append_inj h4 rfl
    obtain ⟨e2, e3⟩ := List.append_inj h4 (by rw [c.property, c'.property])
    simp only [List.cons.injEq, and_true] at e1
    rw [e1, Subtype.ext e2, Subtype.ext e3]

/-! ### What is not checked -/

/-- The storage that holds these records. -/
def listStore (l : List (Bytes32 × Prim)) : SpStore Unit := ⟨fun x => (l.find? fun e => e.1 = x).map Prod.snd, fun _ => none, 0⟩

theorem listStore_mem {l : List (Bytes32 × Prim)} {x : Bytes32} {q : Prim} (h : (listStore l).map x = some q) : (x, q) ∈ l := by
  unfold listStore at h
  simp only [Option.map_eq_some_iff] at h
  obtain ⟨⟨y, r⟩, h1, h2⟩ := h
  have := List.mem_of_find?_eq_some h1
  have h3 := List.find?_some h1
  simp only [decide_eq_true_eq] at h3
  simp only at h2
  rw [← h3, ← h2]; exact this

/-- A key: a first byte and then `0x11`. -/
def keyAt (b : UInt8) : Bytes32 := ⟨b :: List.replicate 31 0x11, by simp⟩

/-- Two keys. -/
def twoKeys : Entries Bytes := [(keyAt 0x00, [1]), (keyAt 0x80, [2])]

/-- Five keys: two with a common parent at depth 2, one beside them, two on the other side. -/
def fiveKeys : Entries Bytes := [(keyAt 0x00, [1]), (keyAt 0x20, [2]), (keyAt 0x40, [3]), (keyAt 0x80, [4]), (keyAt 0xc0, [5])]

/-- The records of a map, each under its hash. -/
def filedRecords (H : HashFn) (kv : Entries Bytes) : List (Bytes32 × Prim) := (recordsOf H kv).map fun q => (H (recordMsg q), q)

/-- The records of the two keys, but the leaf of the second key has another value. -/
def forgedLeaf : List (Bytes32 × Prim) :=
  (filedRecords Tests.toyHash twoKeys).map fun e => if e.2.2.2.1 = keyAt 0x80 then (e.1, (0, 0x00, keyAt 0x80, Tests.toyHash [9])) else e

/-- The records of the five keys, but the height of one inner node is one less. -/
def forgedHeight : List (Bytes32 × Prim) :=
  (filedRecords Tests.toyHash fiveKeys).map fun e => if e.2.1 = 254 then (e.1, (253, e.2.2)) else e

/-- The tree loaded from a list of records at a root. -/
def loadedFrom (l : List (Bytes32 × Prim)) (r : Bytes32) : Option (Tree Unit) :=
  match Tree.load (listStore l) r with
  | (.ok t, _) => some t
  | _ => none

theorem loadedFrom_eq {l : List (Bytes32 × Prim)} {r : Bytes32} {t : Tree Unit} (h : loadedFrom l r = some t) :
    ∃ s, Tree.load (listStore l) r = (.ok t, s) := by
  unfold loadedFrom at h
  split at h
  · rename_i h1; cases h; exact ⟨_, h1⟩
  · cases h

/-- A call of a loaded tree: it succeeds, and these are the roots before and after. -/
def storyRoots (l : List (Bytes32 × Prim)) (r k : Bytes32) (d : Bytes) : Option (Bytes32 × Bytes32) :=
  match loadedFrom l r with
  | none => none
  | some t => match update ⟨true, true, .w64⟩ Tests.toyHash k d t with
    | (.ok _, t') => some (t.root Tests.toyHash, t'.root Tests.toyHash)
    | _ => none

theorem storyRoots_all {l : List (Bytes32 × Prim)} {r k : Bytes32} {d : Bytes} {a b : Bytes32} (h : storyRoots l r k d = some (a, b)) (p : Profile) :
    ∃ t s t', Tree.load (listStore l) r = (.ok t, s) ∧ t.root Tests.toyHash = a ∧ update p Tests.toyHash k d t = (.ok (), t') ∧
      t'.root Tests.toyHash = b := by
  unfold storyRoots at h
  cases hl : loadedFrom l r with
  | none => simp [hl] at h
  | some t =>
    simp only [hl] at h
    rcases hu : update ⟨true, true, .w64⟩ Tests.toyHash k d t with ⟨x, t'⟩
    rw [hu] at h
    cases x with
    | error e => cases h
    | ok u =>
      simp only [Option.some.injEq, Prod.mk.injEq] at h
      obtain ⟨s, h1⟩ := loadedFrom_eq hl
      exact ⟨t, s, t', h1, h.1, (update_safe (debug_stricter p) _ _ _).transfer hu (by simp), h.2⟩

/-- **C80 fails without the check of hashes**: a record below the root that is not what its hash says
goes unnoticed. Here two keys are stored and the leaf record of the second holds another value; the tree
loads with the right root, and storing a third key succeeds and gives the root of a map in which the
second key has the other value. -/
theorem C80_leaf_trusted (p : Profile) : ∃ t s t', Tree.load (listStore forgedLeaf) (rootOf Tests.toyHash twoKeys) = (.ok t, s) ∧
    t.root Tests.toyHash = rootOf Tests.toyHash twoKeys ∧ update p Tests.toyHash (keyAt 0x40) [3] t = (.ok (), t') ∧
    t'.root Tests.toyHash = rootOf Tests.toyHash [(keyAt 0x40, [3]), (keyAt 0x00, [1]), (keyAt 0x80, [9])] ∧
    t'.root Tests.toyHash ≠ rootOf Tests.toyHash (twoKeys.put (keyAt 0x40) [3]) := by
  have key : storyRoots forgedLeaf (rootOf Tests.toyHash twoKeys) (keyAt 0x40) [3] =
      some (rootOf Tests.toyHash twoKeys, rootOf Tests.toyHash [(keyAt 0x40, [3]), (keyAt 0x00, [1]), (keyAt 0x80, [9])]) ∧
      rootOf Tests.toyHash [(keyAt 0x40, [3]), (keyAt 0x00, [1]), (keyAt 0x80, [9])] ≠ rootOf Tests.toyHash (twoKeys.put (keyAt 0x40) [3]) := by
    decide +kernel
  obtain ⟨t, s, t', h1, h2, h3, h4⟩ := storyRoots_all key.1 p
  exact ⟨t, s, t', h1, h2, h3, h4, by rw [h4]; exact key.2⟩

/-- **C80 fails without the right heights, even if every hash is checked**: heights are stored with
the records but are not part of what is hashed. Here all records hash to the keys they are filed under and
one inner node has a height that is one less than it should be; the tree loads with the right root, and
storing again the value a key already has succeeds and changes the root. -/
theorem C80_height_trusted (p : Profile) : HashChecked Tests.toyHash (listStore forgedHeight).map [keyAt 0x40] ∧
    ∃ t s t' r, Tree.load (listStore forgedHeight) (rootOf Tests.toyHash fiveKeys) = (.ok t, s) ∧
      t.root Tests.toyHash = rootOf Tests.toyHash fiveKeys ∧ (keyAt 0x40, [3]) ∈ fiveKeys ∧
      update p Tests.toyHash (keyAt 0x40) [3] t = (.ok (), t') ∧ t'.root Tests.toyHash = r ∧ r ≠ rootOf Tests.toyHash fiveKeys := by
  constructor
  · intro x q h
    have h1 := listStore_mem h
    have h2 : ∀ e ∈ forgedHeight, e.1 ∉ [keyAt 0x40] ∧ Tests.toyHash (recordMsg e.2) = e.1 := by decide +kernel
    exact .inl (h2 _ h1)
  · have key : (match storyRoots forgedHeight (rootOf Tests.toyHash fiveKeys) (keyAt 0x40) [3] with
        | some (a, b) => decide (a = rootOf Tests.toyHash fiveKeys ∧ b ≠ a)
        | none => false) = true := by decide +kernel
    cases hs : storyRoots forgedHeight (rootOf Tests.toyHash fiveKeys) (keyAt 0x40) [3] with
    | none => rw [hs] at key; cases key
    | some x =>
      obtain ⟨a, b⟩ := x
      rw [hs] at key
      simp only [decide_eq_true_eq] at key
      obtain ⟨t, s, t', h1, h2, h3, h4⟩ := storyRoots_all hs p
      exact ⟨t, s, t', b, h1, by rw [h2, key.1], by decide, h3, h4, by rw [← key.1]; exact key.2⟩

/-! ### The hypotheses can be met -/

/-- The records of the two keys, the leaf record of the second under it, and two that make no sense. -/
def soundRecords : List (Bytes32 × Prim) :=
  filedRecords Tests.toyHash twoKeys ++ [(keyAt 0x80, (0, 0x00, keyAt 0x80, keyA)), (keyA, (7, 0x01, keyA, keyB)), (keyB, (300, 0x05, keyA, keyA))]

def soundOps : List Op := [.update (keyAt 0x40) [3], .delete (keyAt 0x80)]

def soundTree : Tree Unit := (loadedFrom soundRecords (rootOf Tests.toyHash twoKeys)).getD (Tree.new (listStore []))

theorem sound_story : (loadedFrom soundRecords (rootOf Tests.toyHash twoKeys)).isSome = true ∧
    (follow ⟨true, true, .w64⟩ Tests.toyHash soundOps twoKeys soundTree).1.map (fun a => (a.event.out.toBool, a.event.attempt a.before)) =
      [(true, [(keyAt 0x40, [3]), (keyAt 0x00, [1]), (keyAt 0x80, [2])]), (true, [(keyAt 0x40, [3]), (keyAt 0x00, [1])])] := by
  decide +kernel

def soundMaps : List (Entries Bytes) :=
  [twoKeys, [(keyAt 0x40, [3]), (keyAt 0x00, [1]), (keyAt 0x80, [2])], [(keyAt 0x40, [3]), (keyAt 0x00, [1])]]

theorem sound_maps : mapsSeen twoKeys (follow ⟨true, true, .w64⟩ Tests.toyHash soundOps twoKeys soundTree).1 = soundMaps := by
  have h := congrArg (List.map Prod.snd) sound_story.2
  rw [List.map_map] at h
  exact congrArg (twoKeys :: ·) h

theorem sound_sound : Sound Tests.toyHash (listStore soundRecords).map soundMaps (soundOps.map Op.key) := by
  have h1 : ∀ kv ∈ soundMaps, ∀ q ∈ recordsOf Tests.toyHash kv,
      ((listStore soundRecords).map (Tests.toyHash (recordMsg q))).all (fun q' => decide (q' = q)) = true := by
    decide +kernel
  have h2 : ∀ k ∈ soundOps.map Op.key, ((listStore soundRecords).map k).all (fun q => decide (q = (0, 0x00, k, q.2.2.2))) = true := by
    decide +kernel
  constructor
  · intro kv hkv q hq q' h
    have := h1 kv hkv q hq
    rw [h] at this
    exact of_decide_eq_true this
  · intro k hk q h
    have := h2 k hk
    rw [h] at this
    exact ⟨_, of_decide_eq_true this⟩

example : Opens Tests.toyHash twoKeys (listStore soundRecords) soundTree ∧ (keysOf twoKeys).Nodup ∧
    IdealMaps Tests.toyHash twoKeys (mapsSeen twoKeys (follow ⟨true, true, .w64⟩ Tests.toyHash soundOps twoKeys soundTree).1) soundOps ∧
    Sound Tests.toyHash (listStore soundRecords).map (mapsSeen twoKeys (follow ⟨true, true, .w64⟩ Tests.toyHash soundOps twoKeys soundTree).1)
      (soundOps.map Op.key) := by
  rw [sound_maps]
  refine ⟨?_, by decide, ⟨⟨by decide +kernel, by decide +kernel, by decide +kernel⟩, noPhantom_of_keys (by decide), by decide⟩, sound_sound⟩
  unfold Opens
  rw [if_neg (by decide)]
  obtain ⟨t, ht⟩ := Option.isSome_iff_exists.1 sound_story.1
  have : soundTree = t := by unfold soundTree; rw [ht]; rfl
  rw [this]
  exact loadedFrom_eq ht

/-- The records of the five keys, each under its hash, meet the hypotheses of the check. -/
example : HashChecked Tests.toyHash (listStore (filedRecords Tests.toyHash fiveKeys)).map [keyAt 0x40] ∧
    RightHeights Tests.toyHash (listStore (filedRecords Tests.toyHash fiveKeys)).map [fiveKeys] ∧
    ∀ kv ∈ [fiveKeys], ∀ q ∈ recordsOf Tests.toyHash kv, ∀ q', (listStore (filedRecords Tests.toyHash fiveKeys)).map (Tests.toyHash (recordMsg q)) = some q' →
      Tests.toyHash (recordMsg q) ∉ [keyAt 0x40] ∧ (Tests.toyHash (recordMsg q') = Tests.toyHash (recordMsg q) → recordMsg q' = recordMsg q) := by
  have h1 : ∀ q ∈ recordsOf Tests.toyHash fiveKeys,
      ((listStore (filedRecords Tests.toyHash fiveKeys)).map (Tests.toyHash (recordMsg q))).all (fun q' => decide (q' = q)) = true ∧
        Tests.toyHash (recordMsg q) ∉ [keyAt 0x40] := by
    decide +kernel
  have h2 : ∀ q ∈ recordsOf Tests.toyHash fiveKeys, ∀ q',
      (listStore (filedRecords Tests.toyHash fiveKeys)).map (Tests.toyHash (recordMsg q)) = some q' → q' = q := by
    intro q hq q' h
    have := (h1 q hq).1
    rw [h] at this
    exact of_decide_eq_true this
  refine ⟨fun x q h => ?_, fun kv hkv q hq q' h _ => ?_, fun kv hkv q hq q' h => ?_⟩
  · obtain ⟨q0, h3, h4⟩ := List.mem_map.1 (listStore_mem h)
    cases h4
    exact .inl ⟨(h1 _ h3).2, rfl⟩
  · rw [List.mem_singleton.1 hkv] at hq
    rw [h2 q hq q' h]
  · rw [List.mem_singleton.1 hkv] at hq
    rw [h2 q hq q' h]
    exact ⟨(h1 q hq).2, fun _ => rfl⟩

/-- Loading the five keys passes the check of the root. -/
example : ∃ q ∈ recordsOf Tests.toyHash fiveKeys, Tests.toyHash (recordMsg q) = rootOf Tests.toyHash fiveKeys ∧ rootOf Tests.toyHash fiveKeys ≠ zero32 ∧
    ∃ t s, Tree.load (listStore forgedHeight) (rootOf Tests.toyHash fiveKeys) = (.ok t, s) ∧ t.root Tests.toyHash = rootOf Tests.toyHash fiveKeys := by
  obtain ⟨t, s, t', r, h1, h2, _⟩ := (C80_height_trusted ⟨true, true, .w64⟩).2
  have h : ∃ q ∈ recordsOf Tests.toyHash fiveKeys, Tests.toyHash (recordMsg q) = rootOf Tests.toyHash fiveKeys ∧ rootOf Tests.toyHash fiveKeys ≠ zero32 := by
    decide +kernel
  obtain ⟨q, h3, h4, h5⟩ := h
  exact ⟨q, h3, h4, h5, t, s, h1, h2⟩

end FuelMerkle.Props
