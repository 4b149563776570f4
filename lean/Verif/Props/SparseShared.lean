import Verif.Proofs.SparseShared
import Verif.Props.SparseContents

/-
C82: several open sparse trees on one storage.
-/
namespace FuelMerkle.Props
open FuelMerkle Spec Sparse
variable {E : Type}

set_option maxRecDepth 100000

/-- The hash function behaves on everything hashed for these maps and on the keys of the calls. -/
structure IdealDesk (H : HashFn) (maps : List (Entries Bytes)) (ops : List Op) : Prop where
  ideal : Ideal H (maps.flatMap (msgsOf H)) (ops.map Op.key)
  calls : NoPhantom H ops

theorem IdealDesk.env {H : HashFn} {maps : List (Entries Bytes)} {ops : List Op} (h : IdealDesk H maps ops) :
    Env H (fun a => ∃ kv ∈ maps, a ∈ msgsOf H kv) (· ∈ ops.map Op.key) :=
  ⟨fun a b ha hb => h.ideal.distinct a (List.mem_flatMap.2 ha) b (List.mem_flatMap.2 hb), fun a ha => h.ideal.nonzero a (List.mem_flatMap.2 ha),
    fun a k ha => h.ideal.apart a (List.mem_flatMap.2 ha) k⟩

/-- **C82**. Any number of trees, all new at first, share one storage whose calls may have any fates;
calls on them and loads of one at the root of another (of a map that is not empty) come in any order. Nothing
panics, and after each action every tree still reports the root of its own map: what its own successful
calls made of it. -/
theorem C82_roots (p : Profile) (H : HashFn) (s : SpStore E) (as : List Act)
    (hi : IdealDesk H ((Desk.start s).maps p H as) (calls as)) (hs : Sound H s.map ((Desk.start s).maps p H as) ((calls as).map Op.key))
    (hl : (Desk.start s).Loads p H as) :
    ∀ x ∈ (Desk.start s).run p H as, (∀ q, x.1 ≠ .error (.panic q)) ∧ ∀ i, (x.2.tree i).root H = rootOf H (x.2.kv i) := by
  have hv := hs.valid (desk_maps p as (Desk.start s) (fun _ => ⟨by simp [Desk.start, keysOf], Solid.nil H⟩) hi.calls)
  intro x hx
  obtain ⟨h1, h2⟩ := desk_run p hi.env as (Desk.start s) (DeskFull.start hv).ok (fun kv hkv m hm => ⟨kv, hkv, hm⟩)
    (fun op ho => List.mem_map.2 ⟨op, ho, rfl⟩) hi.calls hl x hx
  refine ⟨h1, fun i => ?_⟩
  obtain ⟨t, ht⟩ := h2 i
  exact ht.root_eq hi.env

/-- **C82**, when the storage is reliable and no removal takes out of one tree an entry that another has
too. Every action succeeds; after each, the maps and the contents of the storage are those `Board.run`
computes, every tree reports the root of its map, and the storage holds every record of every tree. -/
theorem C82_considerate (p : Profile) (H : HashFn) (s : SpStore E) (hr : s.Reliable) (as : List Act)
    (hc : Board.Considerate H as ⟨fun _ => [], s.map⟩) (hi : IdealDesk H (Board.maps H as ⟨fun _ => [], s.map⟩) (calls as))
    (hs : Sound H s.map (Board.maps H as ⟨fun _ => [], s.map⟩) ((calls as).map Op.key)) :
    ((Desk.start s).run p H as).map (fun x => x.2.board) = Board.run H as ⟨fun _ => [], s.map⟩ ∧
    ∀ x ∈ (Desk.start s).run p H as, x.1 = .ok () ∧
      ∀ i, (x.2.tree i).root H = rootOf H (x.2.kv i) ∧ Complete H ⟨x.2.kv i, x.2.storage.map⟩ := by
  have hv := hs.valid (board_maps as _ (fun _ => ⟨by simp [keysOf], Solid.nil H⟩) hi.calls)
  obtain ⟨h1, h2⟩ := desk_run_full p hi.env as (Desk.start s) (DeskFull.start hv) hr (fun kv hkv m hm => ⟨kv, hkv, hm⟩)
    (fun op ho => List.mem_map.2 ⟨op, ho, rfl⟩) hi.calls hc
  refine ⟨h1, fun x hx => ?_⟩
  obtain ⟨h3, h4⟩ := h2 x hx
  refine ⟨h3, fun i => ?_⟩
  obtain ⟨t, ht, hst⟩ := h4 i
  exact ⟨ht.root_eq hi.env, fun q hq => hst.record q (by rw [ht.ent.records ht.wf]; exact hq)⟩

/-- **C82**, the condition is exact. On reliable storage that holds all records of the tree of `kv` and all
of the tree of `kv2`, a call on a tree opened for `kv` succeeds. Afterwards all records of the tree of `kv2`
are still there if and only if the call was not a removal that took out an entry, that is a key with the hash
of its data, that `kv2` has too. -/
theorem C82_damage (p : Profile) (H : HashFn) (kv kv2 : Entries Bytes) (s : SpStore E) (hr : s.Reliable) (t : Tree E)
    (ho : Opens H kv s t) (hc : Complete H ⟨kv, s.map⟩) (hc2 : Complete H ⟨kv2, s.map⟩) (op : Op)
    (hi : IdealDesk H (kv2 :: mapsThrough H ⟨kv, s.map⟩ [op]) [op])
    (hs : Sound H s.map (kv2 :: mapsThrough H ⟨kv, s.map⟩ [op]) [op.key])
    (hn : (keysOf kv).Nodup ∧ (zero32, zero32) ∉ digests H kv) (hn2 : (keysOf kv2).Nodup ∧ (zero32, zero32) ∉ digests H kv2) :
    ∃ t', op.run p H t = (.ok (), t') ∧ (Complete H ⟨kv2, t'.storage.map⟩ ↔
      ¬ (op.data = none ∧ s.map op.key ≠ none ∧ ∃ k d, met op.key kv = some k ∧ (k, d) ∈ kv ∧ (k, H d) ∈ digests H kv2)) := by
  have hsolid := mapsThrough_solid [op] ⟨kv, s.map⟩ hn.1 hn.2 hi.calls
  have hfit : ∀ x ∈ kv2 :: mapsThrough H ⟨kv, s.map⟩ [op],
      Fits H (fun a => ∃ y ∈ kv2 :: mapsThrough H ⟨kv, s.map⟩ [op], a ∈ msgsOf H y) x := fun x hx =>
    ⟨fun m hm => ⟨x, hx, hm⟩, by
      rcases List.mem_cons.1 hx with rfl | hx
      · exact hn2.2
      · exact (hsolid x hx).2⟩
  have hv := hs.valid (fun x hx => by
    rcases List.mem_cons.1 hx with rfl | hx
    · exact hn2
    · exact hsolid x hx)
  have hmap : t.storage.map = s.map ∧ t.storage.sched = s.sched := by
    unfold Opens at ho
    split at ho
    · subst ho; exact ⟨rfl, rfl⟩
    · rename_i hne
      obtain ⟨s', hl⟩ := ho
      obtain ⟨u, w, he⟩ := exists_tree H kv hn.1
      have hin := he.inn w (hfit kv (List.mem_cons_of_mem _ (mapsThrough_self ⟨kv, s.map⟩ _)))
      rw [← he.root w] at hl
      obtain ⟨_, h2, h3⟩ := load_valid hi.env hv w hin (fun e => hne ((he.nil w).1 e)) hl
      exact ⟨h2, h3⟩
  obtain ⟨u, hrep⟩ := opens_rep hi.env hn.1 (hfit kv (List.mem_cons_of_mem _ (mapsThrough_self ⟨kv, s.map⟩ _))) hv ho
  have hst : Stored H t.storage.map 0 u := by
    rw [hmap.1]
    exact Stored.of_records fun q hq => hc q (by rw [← hrep.ent.records hrep.wf]; exact hq)
  have hf : Fits H (fun a => ∃ y ∈ kv2 :: mapsThrough H ⟨kv, s.map⟩ [op], a ∈ msgsOf H y) (op.onImage H ⟨kv, t.storage.map⟩).kv := by
    rw [hmap.1]
    exact hfit _ (by simp [mapsThrough])
  obtain ⟨_, hl, _, _, hk⟩ := image_step p hi.env op (by simp) hrep hst hf
  have hok := hl (fun n => by rw [hmap.2]; exact hr n)
  obtain ⟨hm, _⟩ := hk hok
  refine ⟨(op.run p H t).2, Prod.ext hok rfl, ?_⟩
  obtain ⟨u2, w2, he2⟩ := exists_tree H kv2 hn2.1
  have hin2 := he2.inn w2 (hfit kv2 (List.mem_cons_self ..))
  rw [hmap.1] at hm hf
  have key := image_keeps hi.env op (by simp) hrep.wf hrep.inn hrep.ent w2 hin2 he2 hf
    (Stored.of_records fun q hq => hc2 q (by rw [← he2.records w2]; exact hq))
  rw [← key, hm]
  constructor
  · exact fun h => Stored.of_records fun q hq => h q (by rw [← he2.records w2]; exact hq)
  · exact fun h q hq => h.record q (by rw [he2.records w2]; exact hq)

/-! ### The hypotheses can be met -/

/-- Two trees with one entry in common; the second removes another one; the third is loaded at the
root of the first. -/
def deskActs : List Act :=
  [.call 0 (.update (keyAt 0x00) [1]), .call 0 (.update (keyAt 0x80) [2]), .call 1 (.update (keyAt 0x00) [1]),
    .call 1 (.update (keyAt 0x40) [3]), .call 1 (.delete (keyAt 0x40)), .load 2 0, .call 2 (.update (keyAt 0xC0) [4])]

def deskMaps : List (Entries Bytes) := Board.maps Tests.toyHash deskActs ⟨fun _ => [], fun _ => none⟩

theorem desk_ideal : IdealDesk Tests.toyHash deskMaps (calls deskActs) :=
  ⟨⟨by decide +kernel, by decide +kernel, by decide +kernel⟩, noPhantom_of_keys (by decide)⟩

theorem desk_considerate : Board.Considerate Tests.toyHash deskActs ⟨fun _ => [], fun _ => none⟩ := by
  have hmet : met (keyAt 0x40) [(keyAt 0x40, [3]), (keyAt 0x00, [1])] = some (keyAt 0x40) := by decide +kernel
  have hk : ∀ d : Bytes, ∀ v, (keyAt 0x40, v) ∉ digests Tests.toyHash [(keyAt 0x80, [2]), (keyAt 0x00, d)] := by
    intro d v h
    simp [digests] at h
    rcases h with h | h
    · exact absurd h.1 (by decide)
    · exact absurd h.1 (by decide)
  refine ⟨fun h => (by cases h), fun h => (by cases h), fun h => (by cases h), fun h => (by cases h), ?_, ?_, fun h => (by cases h), trivial⟩
  · intro _ _ k d h1 _ j hj
    have : k = keyAt 0x40 := by
      have e : met (keyAt 0x40) [(keyAt 0x40, [3]), (keyAt 0x00, [1])] = some k := h1
      rw [hmet] at e; cases e; rfl
    subst this
    by_cases h0 : j = 0
    · subst h0; exact hk [1] _
    · have e : ∀ b : Board, b.kv = (fun j => if j = 1 then [(keyAt 0x40, [3]), (keyAt 0x00, [1])] else if j = 1 then [(keyAt 0x00, [1])] else
          if j = 0 then [(keyAt 0x80, [2]), (keyAt 0x00, [1])] else if j = 0 then [(keyAt 0x00, [1])] else ([] : Entries Bytes)) → b.kv j = [] := by
        intro b hb; rw [hb]; simp [hj, h0]
      rw [e _ rfl]
      simp [digests]
  · intro h; cases h

example : Sound Tests.toyHash (fun _ => none) deskMaps ((calls deskActs).map Op.key) := sound_new _ _ _

/-- A tree loaded at the root of another, a removal through it, and a call on the other, which fails. -/
def damageActs : List Act :=
  [.call 0 (.update (keyAt 0x00) [1]), .call 0 (.update (keyAt 0x80) [2]), .load 1 0, .call 1 (.delete (keyAt 0x80)),
    .call 0 (.update (keyAt 0x40) [3]), .call 1 (.update (keyAt 0x40) [3])]

def damageRun : List (Except (Fail (Error Unit)) Unit × Desk Unit) :=
  (Desk.start (listStore [])).run ⟨true, true, .w64⟩ Tests.toyHash damageActs

def damageMaps : List (Entries Bytes) := (Desk.start (listStore [])).maps ⟨true, true, .w64⟩ Tests.toyHash damageActs

set_option synthInstance.maxHeartbeats 400000 in
set_option synthInstance.maxSize 2000 in
theorem damage_story : damageRun.map (fun x => (x.1.toBool, x.2.kv 0, x.2.kv 1)) =
    [(true, [(keyAt 0x00, [1])], []), (true, [(keyAt 0x80, [2]), (keyAt 0x00, [1])], []),
      (true, [(keyAt 0x80, [2]), (keyAt 0x00, [1])], [(keyAt 0x80, [2]), (keyAt 0x00, [1])]),
      (true, [(keyAt 0x80, [2]), (keyAt 0x00, [1])], [(keyAt 0x00, [1])]),
      (false, [(keyAt 0x80, [2]), (keyAt 0x00, [1])], [(keyAt 0x00, [1])]),
      (true, [(keyAt 0x80, [2]), (keyAt 0x00, [1])], [(keyAt 0x40, [3]), (keyAt 0x00, [1])])] := by
  decide +kernel

/-- The removal on the second tree is not considerate, and the call on the first fails after it. The
hypotheses of `C82_roots` are met. -/
example : IdealDesk Tests.toyHash damageMaps (calls damageActs) ∧ Sound Tests.toyHash (listStore []).map damageMaps ((calls damageActs).map Op.key) ∧
    (Desk.start (listStore [])).Loads ⟨true, true, .w64⟩ Tests.toyHash damageActs := by
  refine ⟨⟨⟨by decide +kernel, by decide +kernel, by decide +kernel⟩, noPhantom_of_keys (by decide)⟩, sound_new _ _ _, ?_⟩
  refine ⟨fun _ _ h => (by cases h), fun _ _ h => (by cases h), ?_, fun _ _ h => (by cases h), fun _ _ h => (by cases h), fun _ _ h => (by cases h), trivial⟩
  intro i j h
  cases h
  have : ((damageRun[1]?).map fun x => x.2.kv 0) = some [(keyAt 0x80, [2]), (keyAt 0x00, [1])] := by decide +kernel
  intro h0
  have e : ((damageRun[1]?).map fun x => x.2.kv 0) = some [] := congrArg some h0
  rw [this] at e
  cases e

/-- Two maps with one entry in common, and the records of both trees. -/
def pairRecords : List (Bytes32 × Prim) :=
  filedRecords Tests.toyHash twoKeys ++ filedRecords Tests.toyHash [(keyAt 0x00, [1]), (keyAt 0x40, [3])] ++
    [(keyAt 0x00, (0, 0x00, keyAt 0x00, Tests.toyHash [1])), (keyAt 0x80, (0, 0x00, keyAt 0x80, Tests.toyHash [2]))]

def pairTree : Tree Unit := (loadedFrom pairRecords (rootOf Tests.toyHash twoKeys)).getD (Tree.new (listStore []))

theorem pair_opens : Opens Tests.toyHash twoKeys (listStore pairRecords) pairTree := by
  unfold Opens
  rw [if_neg (by decide)]
  obtain ⟨t, ht⟩ := Option.isSome_iff_exists.1 (show (loadedFrom pairRecords (rootOf Tests.toyHash twoKeys)).isSome = true by decide +kernel)
  have : pairTree = t := by unfold pairTree; rw [ht]; rfl
  rw [this]
  exact loadedFrom_eq ht

theorem pair_complete (kv : Entries Bytes) (h : kv ∈ [twoKeys, [(keyAt 0x00, [1]), (keyAt 0x40, [3])]]) :
    Complete Tests.toyHash ⟨kv, (listStore pairRecords).map⟩ := by
  have h' : ∀ kv ∈ [twoKeys, [(keyAt 0x00, [1]), (keyAt 0x40, [3])]], ∀ q ∈ recordsOf Tests.toyHash kv,
      ((listStore pairRecords).map (Tests.toyHash (recordMsg q))).any (fun q' => decide (q' = q)) = true := by decide +kernel
  intro q hq
  obtain ⟨q', h1, h2⟩ := (Option.any_eq_true _ _).1 (h' kv h q hq)
  exact h1.trans (congrArg some (of_decide_eq_true h2))

/-- The removal of the common entry meets the hypotheses of `C82_damage` and the condition in it, the
removal of the other entry meets only the hypotheses. -/
example : (∀ op ∈ [Op.delete (keyAt 0x00), Op.delete (keyAt 0x80)],
      IdealDesk Tests.toyHash ([(keyAt 0x00, [1]), (keyAt 0x40, [3])] :: mapsThrough Tests.toyHash ⟨twoKeys, (listStore pairRecords).map⟩ [op]) [op] ∧
      Sound Tests.toyHash (listStore pairRecords).map
        ([(keyAt 0x00, [1]), (keyAt 0x40, [3])] :: mapsThrough Tests.toyHash ⟨twoKeys, (listStore pairRecords).map⟩ [op]) [op.key]) ∧
    met (keyAt 0x00) twoKeys = some (keyAt 0x00) ∧ (keyAt 0x00, Tests.toyHash [1]) ∈ digests Tests.toyHash [(keyAt 0x00, [1]), (keyAt 0x40, [3])] ∧
    met (keyAt 0x80) twoKeys = some (keyAt 0x80) ∧ (keyAt 0x80, Tests.toyHash [2]) ∉ digests Tests.toyHash [(keyAt 0x00, [1]), (keyAt 0x40, [3])] := by
  refine ⟨fun op hop => ⟨⟨?_, ?_⟩, ?_⟩, by decide +kernel, by decide +kernel, by decide +kernel, by decide +kernel⟩
  · have h : ∀ op ∈ [Op.delete (keyAt 0x00), Op.delete (keyAt 0x80)], ∀ l,
        l = ([(keyAt 0x00, [1]), (keyAt 0x40, [3])] :: mapsThrough Tests.toyHash ⟨twoKeys, (listStore pairRecords).map⟩ [op]).flatMap (msgsOf Tests.toyHash) →
        Ideal Tests.toyHash l ([op].map Op.key) := by
      intro op hop l hl
      rcases List.mem_cons.1 hop with rfl | hop
      · subst hl; exact ⟨by decide +kernel, by decide +kernel, by decide +kernel⟩
      · cases List.mem_singleton.1 hop
        subst hl; exact ⟨by decide +kernel, by decide +kernel, by decide +kernel⟩
    exact h op hop _ rfl
  · intro o ho d hd
    rcases List.mem_cons.1 hop with rfl | hop
    · cases List.mem_singleton.1 ho; cases hd
    · cases List.mem_singleton.1 hop; cases List.mem_singleton.1 ho; cases hd
  · have h1 : ∀ op ∈ [Op.delete (keyAt 0x00), Op.delete (keyAt 0x80)],
        ∀ kv ∈ ([(keyAt 0x00, [1]), (keyAt 0x40, [3])] :: mapsThrough Tests.toyHash ⟨twoKeys, (listStore pairRecords).map⟩ [op]), ∀ q ∈ recordsOf Tests.toyHash kv,
        ((listStore pairRecords).map (Tests.toyHash (recordMsg q))).all (fun q' => decide (q' = q)) = true := by
      intro op hop
      rcases List.mem_cons.1 hop with rfl | hop
      · decide +kernel
      · cases List.mem_singleton.1 hop
        decide +kernel
    have h2 : ∀ k ∈ [keyAt 0x00, keyAt 0x80], ((listStore pairRecords).map k).all (fun q => decide (q = (0, 0x00, k, q.2.2.2))) = true := by
      decide +kernel
    constructor
    · intro kv hkv q hq q' h
      have := h1 op hop kv hkv q hq
      rw [h] at this
      exact of_decide_eq_true this
    · intro k hk q h
      have := h2 k (by
        cases List.mem_singleton.1 hk
        rcases List.mem_cons.1 hop with rfl | hop
        · exact List.mem_cons_self ..
        · cases List.mem_singleton.1 hop; simp [Op.key])
      rw [h] at this
      exact ⟨_, of_decide_eq_true this⟩

end FuelMerkle.Props
