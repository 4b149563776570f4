import Verif.Proofs.SparseMany
import Verif.Props.SparseLinked

/-
C93: everything that can be done with sparse trees on one storage.
-/
namespace FuelMerkle.Props
open FuelMerkle Spec Sparse
variable {E : Type}

set_option maxRecDepth 100000

/-- The hash function behaves on everything hashed for the maps the requests lead to or try to lead to, and on the
keys of the calls; the maps loaded are maps; the storage has no wrong records for all these maps and keys. -/
structure Proper (H : HashFn) (s : SpStore E) (rs : List Request) : Prop where
  ideal : Ideal H (((Shelf.start s).aims H rs).flatMap (msgsOf H)) ((callsOf rs).map Op.key)
  calls : NoPhantom H (callsOf rs)
  loads : LoadsOk H rs
  sound : Sound H s.map ((Shelf.start s).aims H rs) ((callsOf rs).map Op.key)

section
variable {H : HashFn} {s : SpStore E} {rs : List Request}

theorem Proper.env (h : Proper H s rs) : Env H (fun a => ∃ kv ∈ (Shelf.start s).aims H rs, a ∈ msgsOf H kv) (· ∈ (callsOf rs).map Op.key) :=
  ⟨fun a b ha hb => h.ideal.distinct a (List.mem_flatMap.2 ha) b (List.mem_flatMap.2 hb), fun a ha => h.ideal.nonzero a (List.mem_flatMap.2 ha),
    fun a k ha => h.ideal.apart a (List.mem_flatMap.2 ha) k⟩

theorem Proper.solid (h : Proper H s rs) : ∀ kv ∈ (Shelf.start s).aims H rs, (keysOf kv).Nodup ∧ Solid H kv :=
  aims_solid rs _ (fun _ => ⟨by simp [Shelf.start, keysOf], Solid.nil H⟩) h.calls h.loads

theorem Proper.fits (h : Proper H s rs) : ∀ kv ∈ (Shelf.start s).aims H rs, Fits H (fun a => ∃ kv ∈ (Shelf.start s).aims H rs, a ∈ msgsOf H kv) kv :=
  fun kv hkv => ⟨fun _ hm => ⟨kv, hkv, hm⟩, (h.solid kv hkv).2⟩

theorem Proper.run (p : Profile) (h : Proper H s rs) : ((Bench.start s).handleAll p H rs).1 = ((Shelf.start s).handleAll H rs).1 ∧
    Matches H (fun a => ∃ kv ∈ (Shelf.start s).aims H rs, a ∈ msgsOf H kv) (· ∈ (callsOf rs).map Op.key)
      ((Bench.start s).handleAll p H rs).2 ((Shelf.start s).handleAll H rs).2 :=
  handleAll_matches p h.env rs (Matches.start (h.sound.valid h.solid)) (fun _ ho => List.mem_map.2 ⟨_, ho, rfl⟩) h.fits h.loads

end

/-- **C93**. Any number of sparse trees share one storage that has any contents that are not wrong for the maps and
keys involved, and whose calls may have any fates. Trees are made new, loaded at the roots of any maps that are not
empty, called and asked for their roots, in any order. Then every answer is that of the specification, which knows
only the storage and a map for each tree; the storage is left as the specification says, with the same contents and
the same number of calls made; and every tree has the root of its map. -/
theorem C93_exact (p : Profile) (H : HashFn) (s : SpStore E) (rs : List Request) (h : Proper H s rs) :
    ((Bench.start s).handleAll p H rs).1 = ((Shelf.start s).handleAll H rs).1 ∧
      ((Bench.start s).handleAll p H rs).2.storage = ((Shelf.start s).handleAll H rs).2.storage ∧
      ∀ i, (((Bench.start s).handleAll p H rs).2.tree i).root H = rootOf H (((Shelf.start s).handleAll H rs).2.kv i) := by
  obtain ⟨h1, h2⟩ := h.run p
  refine ⟨h1, h2.storage, fun i => ?_⟩
  obtain ⟨t, ht⟩ := h2.rep i
  exact ht.root_eq h.env

theorem onMachine_errors (H : HashFn) (op : Op) (m : Machine E) (e : Fail (Error E)) (h : (op.onMachine H m).1 = .error e) :
    (∃ x, e = .err (.storageError x)) ∨ ∃ x, e = .err (.childError x) := by
  have hfin : ∀ (k : Bytes32) (o n : Entries Bytes) (s : SpStore E), (finish H k o n s).1 = .error e →
      (∃ x, e = .err (.storageError x)) ∨ ∃ x, e = .err (.childError x) := by
    intro k o n s h
    unfold finish at h
    revert h
    rcases putAll (wayRecords H k n).reverse s with ⟨_ | x, s'⟩ <;> intro h
    · cases h
    · cases h; exact .inl ⟨x, rfl⟩
  unfold Op.onMachine at h
  cases hd : op.data with
  | some d =>
    simp only [hd] at h
    revert h
    rcases putAll [(H (smtLeafMsg op.key (H d)), ((0, 0x00, op.key, H d) : Prim)), (op.key, (0, 0x00, op.key, H d))] m.storage with ⟨_ | x, s1⟩ <;> intro h
    · revert h
      show (match seekAll (wayPairs H op.key m.kv) s1 with
        | (some e, s) => ((.error (.err (.childError e)), ⟨m.kv, s⟩) : Except (Fail (Error E)) Unit × Machine E)
        | (none, s) => finish H op.key m.kv (op.target m) s).1 = .error e → _
      rcases seekAll (wayPairs H op.key m.kv) s1 with ⟨_ | x, s2⟩ <;> intro h
      · exact hfin _ _ _ _ h
      · cases h; exact .inr ⟨x, rfl⟩
    · cases h; exact .inl ⟨x, rfl⟩
  | none =>
    simp only [hd] at h
    split at h
    · cases h
    · revert h
      rcases Store.get op.key m.storage with ⟨x | _ | q, s1⟩ <;> intro h
      · cases h; exact .inl ⟨x, rfl⟩
      · cases h
      · revert h
        show (match seekAll (wayPairs H op.key m.kv) s1 with
          | (some e, s) => ((.error (.err (.childError e)), ⟨m.kv, s⟩) : Except (Fail (Error E)) Unit × Machine E)
          | (none, s) =>
            match dropAll (wayHashes H op.key m.kv).reverse s with
            | (some e, s) => (.error (.err (.storageError e)), ⟨m.kv, s⟩)
            | (none, s) => finish H op.key m.kv (op.target m) s).1 = .error e → _
        rcases seekAll (wayPairs H op.key m.kv) s1 with ⟨_ | x, s2⟩
        · show (match dropAll (wayHashes H op.key m.kv).reverse s2 with
            | (some e, s) => ((.error (.err (.storageError e)), ⟨m.kv, s⟩) : Except (Fail (Error E)) Unit × Machine E)
            | (none, s) => finish H op.key m.kv (op.target m) s).1 = .error e → _
          rcases dropAll (wayHashes H op.key m.kv).reverse s2 with ⟨_ | x, s3⟩ <;> intro h
          · exact hfin _ _ _ _ h
          · cases h; exact .inl ⟨x, rfl⟩
        · intro h; cases h; exact .inr ⟨x, rfl⟩

theorem handleAll_errors (H : HashFn) : ∀ (rs : List Request) (d : Shelf E) (e : Fail (Error E)), Answer.done (.error e) ∈ (d.handleAll H rs).1 →
    (∃ x, e = .err (.storageError x)) ∨ (∃ x, e = .err (.childError x)) ∨ ∃ i kv, .load i kv ∈ rs ∧ e = .err (.loadError (rootOf H kv)) := by
  intro rs
  induction rs with
  | nil => intro d e h; cases h
  | cons r rs ih =>
    intro d e h
    rcases List.mem_cons.1 h with h | h
    · cases r with
      | new i => cases h
      | root i => cases h
      | call i op =>
        have h : (op.onMachine H ⟨d.kv i, d.storage⟩).1 = .error e := (Answer.done.inj h).symm
        exact (onMachine_errors H op _ e h).imp_right .inl
      | load i kv =>
        simp only [Shelf.handle] at h
        revert h
        rcases Store.get (rootOf H kv) d.storage with ⟨x | _ | q, s1⟩ <;> intro h
        · cases h; exact .inl ⟨x, rfl⟩
        · cases h; exact .inr (.inr ⟨i, kv, by simp, rfl⟩)
        · cases h
    · rcases ih _ e h with h | h | ⟨i, kv, h, e'⟩
      · exact .inl h
      · exact .inr (.inl h)
      · exact .inr (.inr ⟨i, kv, by simp [h], e'⟩)

/-- **C93**. Nothing ever panics, and a request that fails, fails with `StorageError` or `ChildError`, or it was a
`load` and fails with `LoadError` for the root asked for. -/
theorem C93_errors (p : Profile) (H : HashFn) (s : SpStore E) (rs : List Request) (h : Proper H s rs) (e : Fail (Error E))
    (he : Answer.done (.error e) ∈ ((Bench.start s).handleAll p H rs).1) :
    (∃ x, e = .err (.storageError x)) ∨ (∃ x, e = .err (.childError x)) ∨ ∃ i kv, .load i kv ∈ rs ∧ e = .err (.loadError (rootOf H kv)) := by
  rw [(h.run p).1] at he
  exact handleAll_errors H rs _ e he

theorem aims_append (H : HashFn) : ∀ (rs qs : List Request) (d : Shelf E),
    d.aims H (rs ++ qs) = d.aims H rs ++ (d.handleAll H rs).2.aims H qs := by
  intro rs
  induction rs with
  | nil => intro qs d; rfl
  | cons r rs ih => intro qs d; simp [Shelf.aims, Shelf.handleAll, ih]

theorem callsOf_append (rs qs : List Request) : callsOf (rs ++ qs) = callsOf rs ++ callsOf qs := by simp [callsOf]

/-- A sequence of requests can be cut. -/
theorem Proper.cut {H : HashFn} {s : SpStore E} {rs qs : List Request} (h : Proper H s (rs ++ qs)) : Proper H s rs := by
  have h1 : ∀ kv ∈ (Shelf.start s).aims H rs, kv ∈ (Shelf.start s).aims H (rs ++ qs) := fun kv hkv => by
    rw [aims_append]; exact List.mem_append_left _ hkv
  have h2 : ∀ op ∈ callsOf rs, op ∈ callsOf (rs ++ qs) := fun op ho => by rw [callsOf_append]; exact List.mem_append_left _ ho
  have h3 : ∀ a ∈ ((Shelf.start s).aims H rs).flatMap (msgsOf H), a ∈ ((Shelf.start s).aims H (rs ++ qs)).flatMap (msgsOf H) := fun a ha => by
    obtain ⟨kv, hkv, ha⟩ := List.mem_flatMap.1 ha
    exact List.mem_flatMap.2 ⟨kv, h1 kv hkv, ha⟩
  have h4 : ∀ k ∈ (callsOf rs).map Op.key, k ∈ (callsOf (rs ++ qs)).map Op.key := fun k hk => by
    obtain ⟨op, ho, e⟩ := List.mem_map.1 hk
    exact List.mem_map.2 ⟨op, h2 op ho, e⟩
  exact ⟨⟨fun a ha b hb => h.ideal.distinct a (h3 a ha) b (h3 b hb), fun a ha => h.ideal.nonzero a (h3 a ha), fun a ha k hk => h.ideal.apart a (h3 a ha) k (h4 k hk)⟩,
    fun op ho => h.calls op (h2 op ho), fun i kv hm => h.loads i kv (List.mem_append_left _ hm),
    ⟨fun kv hkv => h.sound.nodes kv (h1 kv hkv), fun k hk => h.sound.leaves k (h4 k hk)⟩⟩

theorem handleAll_append (p : Profile) (H : HashFn) : ∀ (rs qs : List Request) (c : Bench E),
    c.handleAll p H (rs ++ qs) = ((c.handleAll p H rs).1 ++ ((c.handleAll p H rs).2.handleAll p H qs).1, ((c.handleAll p H rs).2.handleAll p H qs).2) := by
  intro rs
  induction rs with
  | nil => intro qs c; rfl
  | cons r rs ih => intro qs c; simp only [List.cons_append, Bench.handleAll, ih]

theorem handleAll_append_shelf (H : HashFn) : ∀ (rs qs : List Request) (c : Shelf E),
    c.handleAll H (rs ++ qs) = ((c.handleAll H rs).1 ++ ((c.handleAll H rs).2.handleAll H qs).1, ((c.handleAll H rs).2.handleAll H qs).2) := by
  intro rs
  induction rs with
  | nil => intro qs c; rfl
  | cons r rs ih => intro qs c; simp only [List.cons_append, Shelf.handleAll, ih]

/-- **C93**. After any requests, with storage calls failing in any way, suppose the storage works from now on. A call
on a tree succeeds if the records it needs are there: those of both parts at each branch on the way of its key (for a
removal from an empty tree, or of a key without a record, none are needed). Otherwise it fails with the error that
names the first of them that is not there. A `load` succeeds if there is a record under the root, and otherwise fails
with `LoadError`. -/
theorem C93_works (p : Profile) (H : HashFn) (s : SpStore E) (rs : List Request) (r : Request) (h : Proper H s (rs ++ [r]))
    (hw : Works ((Bench.start s).handleAll p H rs).2.storage) :
    (((Bench.start s).handleAll p H rs).2.handle p H r).1 =
      let d := ((Shelf.start s).handleAll H rs).2
      match r with
      | .new _ => .done (.ok ())
      | .root i => .root (rootOf H (d.kv i))
      | .load _ kv => .done (if d.storage.map (rootOf H kv) = none then .error (.err (.loadError (rootOf H kv))) else .ok ())
      | .call i op => .done (match op.lacks H (d.kv i) d.storage.map with
          | [] => .ok ()
          | x :: _ => .error (.err (.childError (.childNotFound x)))) := by
  obtain ⟨_, hm⟩ := h.cut.run p
  obtain ⟨h1, _⟩ := h.run p
  rw [handleAll_append, handleAll_append_shelf] at h1
  have h1 : (((Bench.start s).handleAll p H rs).2.handle p H r).1 = (((Shelf.start s).handleAll H rs).2.handle H r).1 := by
    rw [(h.cut.run p).1] at h1
    exact List.head_eq_of_cons_eq (List.append_cancel_left h1)
  rw [h1]
  rw [hm.storage] at hw
  generalize ((Shelf.start s).handleAll H rs).2 = d at hw
  cases r with
  | new i => rfl
  | root i => rfl
  | load i kv =>
    simp only [Shelf.handle]
    rw [Store.get_none _ hw.now]
    cases d.storage.map (rootOf H kv) <;> simp
  | call i op =>
    simp only [Shelf.handle]
    exact congrArg Answer.done (onMachine_works op (d.kv i) hw).1

/-- **C93**, without removals. If no inner node in the storage missed a child at first, and all calls so far stored
data, then with storage calls failing in any way: no inner node misses a child; nothing stored is gone; every root
that was answered is stored; all records of all trees are there, and all those of every map a request led to or tried
to lead to whose root is there. So once the storage works, every call on every tree succeeds. -/
theorem C93_updates (p : Profile) (H : HashFn) (s : SpStore E) (rs : List Request) (h : Proper H s rs) (hl : Linked s.map)
    (hup : ∀ op ∈ callsOf rs, op.data ≠ none) :
    let c := ((Bench.start s).handleAll p H rs).2
    Linked c.storage.map ∧ (∀ x, s.map x ≠ none → c.storage.map x ≠ none) ∧
      (∀ x, Answer.root x ∈ ((Bench.start s).handleAll p H rs).1 → x ≠ zero32 → c.storage.map x ≠ none) ∧
      (∀ i, Complete H ⟨((Shelf.start s).handleAll H rs).2.kv i, c.storage.map⟩) ∧
      (∀ kv ∈ (Shelf.start s).aims H rs, c.storage.map (rootOf H kv) ≠ none → Complete H ⟨kv, c.storage.map⟩) ∧
      ∀ i op, Proper H s (rs ++ [.call i op]) → Works c.storage → (c.handle p H (.call i op)).1 = .done (.ok ()) := by
  obtain ⟨h1, hm⟩ := h.run p
  have hv := h.sound.valid h.solid
  obtain ⟨g1, g2, g3⟩ := handleAll_rooted p h.env rs (Matches.start hv) ⟨hl, fun i h0 => absurd (rootOf_nil H) h0⟩
    (fun op ho => ⟨List.mem_map.2 ⟨op, ho, rfl⟩, hup op ho⟩) h.fits h.loads
  have hst : ∀ i, ∃ t, Rep H (fun a => ∃ kv ∈ (Shelf.start s).aims H rs, a ∈ msgsOf H kv) (· ∈ (callsOf rs).map Op.key)
      (((Bench.start s).handleAll p H rs).2.tree i) t (((Shelf.start s).handleAll H rs).2.kv i) ∧
      Stored H ((Bench.start s).handleAll p H rs).2.storage.map 0 t := fun i => by
    obtain ⟨t, ht⟩ := hm.rep i
    refine ⟨t, ht, ?_⟩
    rw [hm.storage]
    refine g1.linked.stored h.env (by rw [← hm.storage]; exact hm.valid) ht.wf ht.inn ?_
    rw [ht.ent.root ht.wf]
    exact g1.held i
  refine ⟨by rw [hm.storage]; exact g1.linked, by rw [hm.storage]; exact g2.keeps, ?_, fun i => ?_, fun kv hkv hroot => ?_, fun i op hp hw => ?_⟩
  · intro x hx
    rw [h1] at hx
    rw [hm.storage]
    exact g3 x hx
  · obtain ⟨t, ht, hst⟩ := hst i
    intro q hq
    exact hst.record q (by rw [ht.ent.records ht.wf]; exact hq)
  · obtain ⟨t, w, he⟩ := exists_tree H kv (h.solid kv hkv).1
    have hin := he.inn w (h.fits kv hkv)
    rw [hm.storage] at hroot
    have : Stored H ((Shelf.start s).handleAll H rs).2.storage.map 0 t :=
      g1.linked.stored h.env (by rw [← hm.storage]; exact hm.valid) w hin (fun _ => by rw [he.root w]; exact hroot)
    intro q hq
    rw [hm.storage]
    exact this.record q (by rw [he.records w]; exact hq)
  · rw [C93_works p H s rs (.call i op) hp hw]
    obtain ⟨t, ht, hst⟩ := hst i
    rw [hm.storage] at hst
    simp only [lacks_nil h.env ht.wf ht.inn ht.ent hst op]

namespace SparseMany

/-! ### The hypotheses can be met -/

/-- Two trees grow from the same map; a third is loaded at the root of the second; a removal on the third; the first
calls on; trees are loaded at roots of maps gone through before. -/
def sampleRequests : List Request :=
  [.call 0 (.update (keyAt 0x00) [1]), .call 0 (.update (keyAt 0x80) [2]), .root 0, .load 1 [(keyAt 0x80, [2]), (keyAt 0x00, [1])],
    .call 1 (.update (keyAt 0xc0) [3]), .call 1 (.update (keyAt 0xc0) [4]), .load 2 [(keyAt 0xc0, [4]), (keyAt 0x80, [2]), (keyAt 0x00, [1])],
    .call 2 (.delete (keyAt 0x80)), .call 0 (.update (keyAt 0x40) [5]), .new 2, .load 3 [(keyAt 0x80, [2]), (keyAt 0x00, [1])],
    .load 3 [(keyAt 0xc0, [4]), (keyAt 0x80, [2]), (keyAt 0x00, [1])], .root 1]

/-- The fifth storage call of the first update on the second tree fails after its effect. -/
def sampleStore : SpStore String where
  map := fun _ => none
  sched := fun c => if c = 11 then some ⟨"full", true⟩ else none
  clock := 0

/-- How a request ended. -/
def ending : Answer E → Nat
  | .done (.ok _) => 0
  | .done (.error (.err (.storageError _))) => 1
  | .done (.error (.err (.loadError _))) => 2
  | .done (.error (.err (.childError (.childNotFound _)))) => 3
  | .done _ => 4
  | .root _ => 5

def sampleAims : List (Entries Bytes) := (Shelf.start sampleStore).aims Tests.toyHash sampleRequests

theorem sample_loads : LoadsOk Tests.toyHash sampleRequests := by
  have h : ∀ kv ∈ sampleRequests.flatMap (fun r => match r with | .load _ kv => [kv] | _ => []),
      kv ≠ [] ∧ (keysOf kv).Nodup ∧ (zero32, zero32) ∉ digests Tests.toyHash kv := by decide +kernel
  exact fun i kv hm => h kv (List.mem_flatMap.2 ⟨_, hm, by simp⟩)

/-- The hypotheses of the theorems are met. -/
theorem sample_proper : Proper Tests.toyHash sampleStore sampleRequests :=
  ⟨⟨by decide +kernel, by decide +kernel, by decide +kernel⟩, noPhantom_of_keys (by decide), sample_loads, sound_new _ _ _⟩

/-- The first update on the second tree fails, the next succeeds. After the removal on the third tree the first tree
lacks a record, one map can still be loaded and the other cannot. -/
example : ((Shelf.start sampleStore).handleAll Tests.toyHash sampleRequests).1.map ending = [0, 0, 5, 0, 1, 0, 0, 0, 3, 0, 0, 2, 5] ∧
    ((Shelf.start sampleStore).handleAll Tests.toyHash sampleRequests).2.kv 1 = [(keyAt 0xc0, [4]), (keyAt 0x80, [2]), (keyAt 0x00, [1])] ∧
    ((Shelf.start sampleStore).handleAll Tests.toyHash sampleRequests).2.storage.clock = 34 := by
  decide +kernel

/-- The storage works from then on. The requests before the removal meet the hypotheses of `C93_updates`. -/
example : Works ((Shelf.start sampleStore).handleAll Tests.toyHash sampleRequests).2.storage ∧
    Linked sampleStore.map ∧ (∀ op ∈ callsOf (sampleRequests.take 7), op.data ≠ none) ∧ Proper Tests.toyHash sampleStore (sampleRequests.take 7) := by
  refine ⟨?_, (fun x h l r e => by cases e), by decide, Proper.cut (qs := sampleRequests.drop 7) (by rw [List.take_append_drop]; exact sample_proper)⟩
  have h1 : ((Shelf.start sampleStore).handleAll Tests.toyHash sampleRequests).2.storage.clock = 34 := by decide +kernel
  have h2 : ∀ (rs : List Request) (d : Shelf String), (d.handleAll Tests.toyHash rs).2.storage.sched = d.storage.sched := handleAll_sched _
  intro n hn
  rw [h1] at hn
  rw [h2]
  show (if n = 11 then _ else none) = none
  rw [if_neg (by omega)]

end SparseMany
end FuelMerkle.Props
