import Verif.Proofs.SparseContents
import Verif.Props.SparseCorrupt

/-
C81: exactly what the storage of a sparse tree holds.
-/
namespace FuelMerkle.Props
open FuelMerkle Spec Sparse
variable {E : Type}

set_option maxRecDepth 100000

/-- The hash function behaves on everything a history of calls, starting with this map and these
contents, hashes or uses as a key. -/
structure IdealImage (H : HashFn) (s : Image) (ops : List Op) : Prop where
  ideal : Ideal H ((mapsThrough H s ops).flatMap (msgsOf H)) (ops.map Op.key)
  calls : NoPhantom H ops
  nodup : (keysOf s.kv).Nodup
  start : (zero32, zero32) ∉ digests H s.kv

theorem IdealImage.env {H : HashFn} {s : Image} {ops : List Op} (h : IdealImage H s ops) :
    Env H (fun a => ∃ kv ∈ mapsThrough H s ops, a ∈ msgsOf H kv) (· ∈ ops.map Op.key) :=
  ⟨fun a b ha hb => h.ideal.distinct a (List.mem_flatMap.2 ha) b (List.mem_flatMap.2 hb), fun a ha => h.ideal.nonzero a (List.mem_flatMap.2 ha),
    fun a k ha => h.ideal.apart a (List.mem_flatMap.2 ha) k⟩

theorem IdealImage.fits {H : HashFn} {s : Image} {ops : List Op} (h : IdealImage H s ops) :
    ∀ kv ∈ mapsThrough H s ops, Fits H (fun a => ∃ kv ∈ mapsThrough H s ops, a ∈ msgsOf H kv) kv := fun kv hkv =>
  ⟨fun _ hm => ⟨kv, hkv, hm⟩, (mapsThrough_solid ops s h.nodup h.start h.calls kv hkv).2⟩

/-- What holds after the calls on a tree that was opened for a map. -/
theorem contents_run (p : Profile) (H : HashFn) (kv : Entries Bytes) (s : SpStore E) (hr : s.Reliable) (t : Tree E)
    (ho : Opens H kv s t) (hc : Complete H ⟨kv, s.map⟩) (ops more : List Op) (hi : IdealImage H ⟨kv, s.map⟩ (ops ++ more))
    (hs : Sound H s.map (mapsThrough H ⟨kv, s.map⟩ (ops ++ more)) ((ops ++ more).map Op.key)) :
    ∃ t' u, runAll p H ops t = (.ok (), t') ∧ t'.storage.map = (imageFrom H ⟨kv, s.map⟩ ops).held ∧
      Rep H (fun a => ∃ x ∈ mapsThrough H ⟨kv, s.map⟩ (ops ++ more), a ∈ msgsOf H x) (· ∈ (ops ++ more).map Op.key) t' u
        (imageFrom H ⟨kv, s.map⟩ ops).kv ∧ Stored H t'.storage.map 0 u ∧ t'.storage.Reliable := by
  have hv := hs.valid (mapsThrough_solid _ _ hi.nodup hi.start hi.calls)
  have hmap : t.storage.map = s.map ∧ t.storage.sched = s.sched := by
    unfold Opens at ho
    split at ho
    · subst ho; exact ⟨rfl, rfl⟩
    · rename_i hne
      obtain ⟨s', hl⟩ := ho
      obtain ⟨u, w, he⟩ := exists_tree H kv hi.nodup
      have hin := he.inn w (hi.fits kv (mapsThrough_self ⟨kv, s.map⟩ _))
      rw [← he.root w] at hl
      obtain ⟨_, h2, h3⟩ := load_valid hi.env hv w hin (fun e => hne ((he.nil w).1 e)) hl
      exact ⟨h2, h3⟩
  obtain ⟨u, hrep⟩ := opens_rep hi.env hi.nodup (hi.fits kv (mapsThrough_self ⟨kv, s.map⟩ _)) hv ho
  have hst : Stored H t.storage.map 0 u := by
    rw [hmap.1]
    exact Stored.of_records fun q hq => hc q (by rw [← hrep.ent.records hrep.wf]; exact hq)
  have := images_run p hi.env ops hrep hst (fun n => by rw [hmap.2]; exact hr n)
    (fun op h => List.mem_map.2 ⟨op, List.mem_append_left _ h, rfl⟩) (fun kv' h => hi.fits kv' (by
      rw [hmap.1] at h
      exact (mapsThrough_append ops more _ kv').2 (.inl h)))
  rw [hmap.1] at this
  obtain ⟨t', u', h1, h2, h3, h4, h5⟩ := this
  exact ⟨t', u', h1, h2, h3, h4, fun n => by rw [h5, hmap.2]; exact hr n⟩

/-- **C81**. On reliable storage that holds all records of the tree of a map (and maybe others, in
places the calls do not look at), a tree opened for the map goes through any history of calls without
errors, and then the storage holds exactly what `imageFrom` says, under every key, and the root is that of
the map `imageFrom` says. -/
theorem C81_contents (p : Profile) (H : HashFn) (kv : Entries Bytes) (s : SpStore E) (hr : s.Reliable) (t : Tree E)
    (ho : Opens H kv s t) (hc : Complete H ⟨kv, s.map⟩) (ops : List Op) (hi : IdealImage H ⟨kv, s.map⟩ ops)
    (hs : Sound H s.map (mapsThrough H ⟨kv, s.map⟩ ops) (ops.map Op.key)) :
    ∃ t', runAll p H ops t = (.ok (), t') ∧ t'.storage.map = (imageFrom H ⟨kv, s.map⟩ ops).held ∧
      t'.root H = rootOf H (imageFrom H ⟨kv, s.map⟩ ops).kv := by
  obtain ⟨t', u, h1, h2, h3, _⟩ := contents_run p H kv s hr t ho hc ops [] (by rwa [List.append_nil]) (by rwa [List.append_nil])
  refine ⟨t', h1, h2, h3.root_eq ?_⟩
  rw [List.append_nil]
  exact hi.env

/-- A new tree on empty storage. -/
def Image.empty : Image := ⟨[], fun _ => none⟩

theorem idealImage_new {H : HashFn} {ops : List Op} (h : IdealFor H ops) : IdealImage H Image.empty ops := by
  obtain ⟨_, hm⟩ := image_state (H := H) (ops.map Op.key) ops ⟨[], []⟩ Image.empty rfl (by simp [keysOf]) (by simp [Image.empty])
    (fun op ho => List.mem_map.2 ⟨op, ho, rfl⟩) h.1.apart
  have hsub : ∀ a ∈ (mapsThrough H Image.empty ops).flatMap (msgsOf H), a ∈ msgsFrom H ⟨[], []⟩ ops := by
    intro a ha
    obtain ⟨kv, h1, h2⟩ := List.mem_flatMap.1 ha
    exact hm kv h1 a h2
  exact ⟨⟨fun a ha b hb => h.1.distinct a (hsub a ha) b (hsub b hb), fun a ha => h.1.nonzero a (hsub a ha),
    fun a ha => h.1.apart a (hsub a ha)⟩, h.2, by simp [Image.empty, keysOf], by simp [Image.empty, digests]⟩

theorem sound_new (H : HashFn) (maps : List (Entries Bytes)) (keys : List Bytes32) : Sound H (fun _ => none) maps keys :=
  ⟨fun _ _ _ _ _ h => (by cases h), fun _ _ _ h => (by cases h)⟩

/-- **C81** for a new tree on empty storage: after any history the contents of the storage are those
computed by `imageFrom` from nothing; the map is the one of `stateOf`. -/
theorem C81_new (p : Profile) (H : HashFn) (ops : List Op) (hi : IdealFor H ops) (s : SpStore E) (hs : ∀ k, s.map k = none)
    (hr : s.Reliable) : ∃ t, runAll p H ops (Tree.new s) = (.ok (), t) ∧ t.storage.map = (imageFrom H Image.empty ops).held ∧
      (imageFrom H Image.empty ops).kv = (stateOf ops).kv := by
  have hm : s.map = fun _ => none := funext hs
  have hi' := idealImage_new hi
  obtain ⟨t, h1, h2, _⟩ := C81_contents p H [] s hr (Tree.new s) (by simp [Opens]) (fun q hq => by simp [recordsOf, digests, smtRecordsFrom] at hq)
    ops (by rw [hm]; exact hi') (by rw [hm]; exact sound_new H _ _)
  rw [hm] at h2
  exact ⟨t, h1, h2, (image_state (H := H) (ops.map Op.key) ops ⟨[], []⟩ Image.empty rfl (by simp [keysOf]) (by simp [Image.empty])
    (fun op ho => List.mem_map.2 ⟨op, ho, rfl⟩) hi.1.apart).1⟩

/-- **C81** when a call fails. After any history on reliable storage, let the storage calls of one more
call have any fates `f`. The call does not panic. If it succeeds, the contents are those of `imageFrom`.
Otherwise there is, under every key, what was there before, or what a call that succeeds puts there, or, if
the call is a removal, nothing in the place of a record of the tree before. -/
theorem C81_failing (p : Profile) (H : HashFn) (kv : Entries Bytes) (s : SpStore E) (hr : s.Reliable) (t : Tree E)
    (ho : Opens H kv s t) (hc : Complete H ⟨kv, s.map⟩) (ops : List Op) (op : Op) (hi : IdealImage H ⟨kv, s.map⟩ (ops ++ [op]))
    (hs : Sound H s.map (mapsThrough H ⟨kv, s.map⟩ (ops ++ [op])) ((ops ++ [op]).map Op.key)) :
    ∃ t', runAll p H ops t = (.ok (), t') ∧ ∀ (f : Nat → Option (Fault E)) (r : Except (Fail (Error E)) Unit) (t'' : Tree E),
      op.run p H (t'.failing f) = (r, t'') → (∀ q, r ≠ .error (.panic q)) ∧
        (r = .ok () → t''.storage.map = (imageFrom H ⟨kv, s.map⟩ (ops ++ [op])).held) ∧
        ∀ x, t''.storage.map x = (imageFrom H ⟨kv, s.map⟩ ops).held x ∨
          t''.storage.map x = (imageFrom H ⟨kv, s.map⟩ (ops ++ [op])).held x ∨
          (op.data = none ∧ (∃ q ∈ recordsOf H (imageFrom H ⟨kv, s.map⟩ ops).kv, x = H (recordMsg q)) ∧ t''.storage.map x = none) := by
  obtain ⟨t', u, h1, h2, h3, h4, _⟩ := contents_run p H kv s hr t ho hc ops [op] hi hs
  refine ⟨t', h1, fun f r t'' hrun => ?_⟩
  have e : (⟨(imageFrom H ⟨kv, s.map⟩ ops).kv, (t'.failing f).storage.map⟩ : Image) = imageFrom H ⟨kv, s.map⟩ ops := by
    show (⟨_, t'.storage.map⟩ : Image) = _
    rw [h2]
  have e' : imageFrom H ⟨kv, s.map⟩ (ops ++ [op]) = op.onImage H (imageFrom H ⟨kv, s.map⟩ ops) := by
    simp [imageFrom]
  have hfit : Fits H (fun a => ∃ x ∈ mapsThrough H ⟨kv, s.map⟩ (ops ++ [op]), a ∈ msgsOf H x) (op.onImage H (imageFrom H ⟨kv, s.map⟩ ops)).kv :=
    hi.fits _ ((mapsThrough_append ops [op] _ _).2 (.inr (by simp [mapsThrough])))
  have key := image_step p hi.env op (List.mem_map.2 ⟨op, List.mem_append_right _ (List.mem_singleton.2 rfl), rfl⟩)
    (st := t'.failing f) (t := u) (kv := (imageFrom H ⟨kv, s.map⟩ ops).kv) ⟨h3.wf, h3.inn, h3.ent, h3.root, h3.valid⟩ h4 (by rw [e]; exact hfit)
  rw [e, hrun, ← e'] at key
  obtain ⟨k1, _, k3, _, k5⟩ := key
  refine ⟨k3, fun hok => (k5 hok).1, fun x => ?_⟩
  have := k1.at_ x
  rw [← e'] at this
  exact this

/-! ### The hypotheses can be met -/

example : IdealFor Sha256.sha256 cleanOps := cleanOps_ideal

theorem sound_through : mapsThrough Tests.toyHash ⟨twoKeys, (listStore soundRecords).map⟩ soundOps = soundMaps := by decide +kernel

/-- The storage with two keys and three more records, and two calls. -/
example : (listStore soundRecords).Reliable ∧ Opens Tests.toyHash twoKeys (listStore soundRecords) soundTree ∧
    Complete Tests.toyHash ⟨twoKeys, (listStore soundRecords).map⟩ ∧
    IdealImage Tests.toyHash ⟨twoKeys, (listStore soundRecords).map⟩ soundOps ∧
    Sound Tests.toyHash (listStore soundRecords).map (mapsThrough Tests.toyHash ⟨twoKeys, (listStore soundRecords).map⟩ soundOps) (soundOps.map Op.key) := by
  refine ⟨fun _ => rfl, ?_, ?_, ⟨?_, noPhantom_of_keys (by decide), by decide, by decide⟩, ?_⟩
  · unfold Opens
    rw [if_neg (by decide)]
    obtain ⟨t, ht⟩ := Option.isSome_iff_exists.1 sound_story.1
    have : soundTree = t := by unfold soundTree; rw [ht]; rfl
    rw [this]
    exact loadedFrom_eq ht
  · have h : ∀ q ∈ recordsOf Tests.toyHash twoKeys,
        ((listStore soundRecords).map (Tests.toyHash (recordMsg q))).any (fun q' => decide (q' = q)) = true := by decide +kernel
    intro q hq
    obtain ⟨q', h1, h2⟩ := (Option.any_eq_true _ _).1 (h q hq)
    exact h1.trans (congrArg some (of_decide_eq_true h2))
  · rw [sound_through]
    exact ⟨by decide +kernel, by decide +kernel, by decide +kernel⟩
  · rw [sound_through]
    exact sound_sound

/-- Two keys stored and the first removed: of the first tree's and the second tree's records only the
leaf of the second key is left, and both keys still have their leaf records. -/
example : [keyAt 0x00, keyAt 0x80, Tests.toyHash (smtLeafMsg (keyAt 0x00) (Tests.toyHash [1])),
      Tests.toyHash (smtLeafMsg (keyAt 0x80) (Tests.toyHash [2])), rootOf Tests.toyHash twoKeys].map
      (fun x => ((imageFrom Tests.toyHash Image.empty [.update (keyAt 0x00) [1], .update (keyAt 0x80) [2], .delete (keyAt 0x00)]).held x).toList.map fun q => (q.2.2.1, q.2.2.2)) =
    [[(keyAt 0x00, Tests.toyHash [1])], [(keyAt 0x80, Tests.toyHash [2])], [], [(keyAt 0x80, Tests.toyHash [2])], []] := by
  decide +kernel

end FuelMerkle.Props
