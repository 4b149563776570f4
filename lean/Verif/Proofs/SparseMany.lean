import Verif.Spec.SparseMany
import Verif.Proofs.SparseMachine
import Verif.Proofs.SparseShared
import Verif.Proofs.SparseCorrupt
import Verif.Proofs.SparseLinked

/-
Any number of sparse trees on one storage: the program follows the specification with maps.
-/
namespace FuelMerkle
namespace Sparse
open Spec T
variable {E : Type} {H : HashFn} {M : Bytes → Prop} {U : Bytes32 → Prop}

/-- The trees of the bench have the maps of the shelf. -/
structure Matches (H : HashFn) (M : Bytes → Prop) (U : Bytes32 → Prop) (c : Bench E) (d : Shelf E) : Prop where
  storage : c.storage = d.storage
  valid : Valid H M U c.storage.map
  rep : ∀ i, ∃ t, Rep H M U (c.tree i) t (d.kv i)

theorem Matches.start {s : SpStore E} (hv : Valid H M U s.map) : Matches H M U (Bench.start s) (Shelf.start s) :=
  ⟨rfl, hv, fun _ => ⟨.empty, trivial, In.empty, Ent.empty H, rfl, hv⟩⟩

theorem Matches.set {c : Bench E} {d : Shelf E} (h : Matches H M U c d) (i : Nat) {n : Node} {kv : Entries Bytes} {s s' : SpStore E} (hs : s = s')
    (hv : Valid H M U s.map) (hr : ∃ t, Rep H M U (⟨n, s⟩ : Tree E) t kv) : Matches H M U (c.set i n s) (d.set i kv s') := by
  subst hs
  refine ⟨rfl, hv, fun j => ?_⟩
  by_cases e : j = i
  · subst e
    simp only [Bench.tree, Bench.set, Shelf.set, if_true]
    exact hr
  · obtain ⟨t, ht⟩ := h.rep j
    refine ⟨t, ?_⟩
    simp only [Bench.tree, Bench.set, Shelf.set, if_neg e]
    exact ht.move rfl hv

theorem Matches.drift {c : Bench E} {d : Shelf E} (h : Matches H M U c d) {s s' : SpStore E} (hs : s = s') (hv : Valid H M U s.map) :
    Matches H M U { c with storage := s } { d with storage := s' } := by
  subst hs
  exact ⟨rfl, hv, fun j => (h.rep j).imp fun t ht => ht.move rfl hv⟩

/-- `load` at the root of a map. -/
theorem load_map (env : Env H M U) {kv : Entries Bytes} (hne : kv ≠ []) (hn : (keysOf kv).Nodup) (hf : Fits H M kv) {s : SpStore E}
    (hv : Valid H M U s.map) : ∃ n, (∃ t, ∀ s', Valid H M U s'.map → Rep H M U (⟨n, s'⟩ : Tree E) t kv) ∧
      Tree.load s (rootOf H kv) = match Store.get (rootOf H kv) s with
        | (.error e, s') => (.error (.err (.storageError e)), s')
        | (.ok none, s') => (.error (.err (.loadError (rootOf H kv))), s')
        | (.ok (some _), s') => (.ok ⟨n, s'⟩, s') := by
  obtain ⟨t, w, he⟩ := exists_tree H kv hn
  have hin := he.inn w hf
  have h0 : t ≠ .empty := fun e => hne ((he.nil w).1 e)
  refine ⟨toNode H 0 t, ⟨t, fun s' hv' => ⟨w, hin, he, rfl, hv'⟩⟩, ?_⟩
  unfold Tree.load
  rw [← he.root w]
  cases hs : s.sched s.clock with
  | some f => rw [Store.get_fault _ hs]
  | none =>
    rw [Store.get_none _ hs]
    cases hm : s.map (t.hash H) with
    | none => rfl
    | some q =>
      have hq : q = (toNode H 0 t).toPrim := hv.get env w hin h0 hm
      subst hq
      simp only [ofPrim_toPrim]

/-- One request. -/
theorem handle_matches (p : Profile) (env : Env H M U) (r : Request) {c : Bench E} {d : Shelf E} (h : Matches H M U c d)
    (hu : ∀ i op, r = .call i op → U op.key) (hf : ∀ kv ∈ d.aim r, Fits H M kv)
    (hl : ∀ i kv, r = .load i kv → kv ≠ [] ∧ (keysOf kv).Nodup) :
    (c.handle p H r).1 = (d.handle H r).1 ∧ Matches H M U (c.handle p H r).2 (d.handle H r).2 := by
  cases r with
  | new i => exact ⟨rfl, h.set i h.storage h.valid ⟨.empty, trivial, In.empty, Ent.empty H, rfl, h.valid⟩⟩
  | root i =>
    obtain ⟨t, ht⟩ := h.rep i
    exact ⟨congrArg Answer.root (ht.root_eq env), h⟩
  | load i kv =>
    obtain ⟨h1, h2⟩ := hl i kv rfl
    obtain ⟨n, ⟨t, ht⟩, e⟩ := load_map env h1 h2 (hf kv (by simp [Shelf.aim])) h.valid
    rw [h.storage] at e
    simp only [Bench.handle, Shelf.handle, h.storage, e]
    have hk := (get_keeps (rootOf H kv) d.storage).1
    rcases hg : Store.get (rootOf H kv) d.storage with ⟨e | q, s⟩
    · rw [hg] at hk
      exact ⟨rfl, h.drift rfl (by rw [hk, ← h.storage]; exact h.valid)⟩
    · rw [hg] at hk
      have hv : Valid H M U s.map := by rw [hk, ← h.storage]; exact h.valid
      cases q with
      | none => exact ⟨rfl, h.drift rfl hv⟩
      | some q => exact ⟨rfl, h.set i rfl hv ⟨t, ht s hv⟩⟩
  | call i op =>
    obtain ⟨t, ht⟩ := h.rep i
    have hs : (c.tree i).storage = d.storage := h.storage
    obtain ⟨⟨a1, a2⟩, t', h'⟩ := op_agrees p env op (hu i op rfl) ht (by rw [hs]; exact hf _ (by simp [Shelf.aim]))
    rw [hs] at a1 a2 h'
    refine ⟨congrArg Answer.done a1, h.set i a2 h'.valid ⟨t', h'⟩⟩

theorem callsOf_mem {rs : List Request} {i : Nat} {op : Op} (h : Request.call i op ∈ rs) : op ∈ callsOf rs := List.mem_filterMap.2 ⟨_, h, rfl⟩

/-- All requests. -/
theorem handleAll_matches (p : Profile) (env : Env H M U) : ∀ (rs : List Request) {c : Bench E} {d : Shelf E}, Matches H M U c d →
    (∀ op ∈ callsOf rs, U op.key) → (∀ kv ∈ d.aims H rs, Fits H M kv) → LoadsOk H rs →
    (c.handleAll p H rs).1 = (d.handleAll H rs).1 ∧ Matches H M U (c.handleAll p H rs).2 (d.handleAll H rs).2 := by
  intro rs
  induction rs with
  | nil => intro c d h _ _ _; exact ⟨rfl, h⟩
  | cons r rs ih =>
    intro c d h hu hf hl
    obtain ⟨h1, h2⟩ := handle_matches p env r h (fun i op e => hu op (callsOf_mem (i := i) (by simp [e])))
      (fun kv hkv => hf kv (by simp [Shelf.aims, hkv])) (fun i kv e => ⟨(hl i kv (by simp [e])).1, (hl i kv (by simp [e])).2.1⟩)
    obtain ⟨h3, h4⟩ := ih h2 (fun op ho => hu op (by
        obtain ⟨x, hx, e⟩ := List.mem_filterMap.1 ho
        exact List.mem_filterMap.2 ⟨x, by simp [hx], e⟩))
      (fun kv hkv => hf kv (by simp [Shelf.aims, hkv])) (fun i kv e => hl i kv (by simp [e]))
    simp only [Bench.handleAll, Shelf.handleAll]
    exact ⟨by rw [h1, h3], h4⟩

/-! ### The maps -/

theorem shelf_kv (r : Request) (d : Shelf E) (i : Nat) : ((d.handle H r).2.kv i = d.kv i) ∨ (d.handle H r).2.kv i = [] ∨
    (∃ kv, r = .load i kv ∧ (d.handle H r).2.kv i = kv) ∨
    ∃ op, r = .call i op ∧ (d.handle H r).2.kv i = (⟨op, (d.storage.map op.key).isSome, (op.onMachine H ⟨d.kv i, d.storage⟩).1⟩ : Event E).effect (d.kv i) := by
  cases r with
  | new j =>
    by_cases e : i = j
    · exact .inr (.inl (by simp [Shelf.handle, Shelf.set, e]))
    · exact .inl (by simp [Shelf.handle, Shelf.set, e])
  | root j => exact .inl rfl
  | load j kv =>
    rcases hg : Store.get (rootOf H kv) d.storage with ⟨_ | _ | _, s⟩
    · exact .inl (by simp [Shelf.handle, hg])
    · exact .inl (by simp [Shelf.handle, hg])
    · by_cases e : i = j
      · subst e; exact .inr (.inr (.inl ⟨kv, rfl, by simp [Shelf.handle, hg, Shelf.set]⟩))
      · exact .inl (by simp [Shelf.handle, hg, Shelf.set, e])
  | call j op =>
    by_cases e : i = j
    · subst e
      refine .inr (.inr (.inr ⟨op, rfl, ?_⟩))
      refine Eq.trans ?_ (onMachine_kv (H := H) op ⟨d.kv i, d.storage⟩)
      simp [Shelf.handle, Shelf.set]
    · exact .inl (by simp [Shelf.handle, Shelf.set, e])

theorem aims_solid : ∀ (rs : List Request) (d : Shelf E), (∀ i, (keysOf (d.kv i)).Nodup ∧ Solid H (d.kv i)) → NoPhantom H (callsOf rs) →
    LoadsOk H rs → ∀ x ∈ d.aims H rs, (keysOf x).Nodup ∧ Solid H x := by
  intro rs
  induction rs with
  | nil => intro d _ _ _ x hx; cases hx
  | cons r rs ih =>
    intro d hd hp hl x hx
    rw [Shelf.aims, List.mem_append] at hx
    rcases hx with hx | hx
    · cases r with
      | new i => cases hx
      | root i => cases hx
      | load i kv => cases List.mem_singleton.1 hx; exact (hl i x (by simp)).2
      | call i op =>
        have h1 := hp op (callsOf_mem (i := i) (by simp))
        have htar : op.target (⟨d.kv i, d.storage⟩ : Machine E) = (⟨op, (d.storage.map op.key).isSome, .ok ()⟩ : Event E).attempt (d.kv i) := rfl
        rw [List.mem_singleton.1 hx, htar]
        exact ⟨Event.attempt_nodup _ (hd i).1, Event.attempt_solid _ (hd i).2 h1⟩
    · refine ih _ (fun i => ?_) (fun op ho => hp op (by
          obtain ⟨y, hy, e⟩ := List.mem_filterMap.1 ho
          exact List.mem_filterMap.2 ⟨y, by simp [hy], e⟩)) (fun i kv e => hl i kv (by simp [e])) x hx
      rcases shelf_kv (H := H) r d i with e | e | ⟨kv, e, e'⟩ | ⟨op, e, e'⟩
      · rw [e]; exact hd i
      · rw [e]; exact ⟨by simp [keysOf], Solid.nil H⟩
      · rw [e']; exact (hl i kv (by simp [e])).2
      · rw [e']
        exact ⟨Event.effect_nodup _ (hd i).1, Event.effect_solid _ (hd i).2 (hp op (callsOf_mem (i := i) (by simp [e])))⟩

/-! ### On storage that works -/

theorem Works.now {s : SpStore E} (h : Works s) : s.sched s.clock = none := h _ (Nat.le_refl _)

theorem Works.later {s : SpStore E} (h : Works s) (m : Bytes32 → Option Prim) : Works ({ s with map := m, clock := s.clock + 1 } : SpStore E) :=
  fun n hn => h n (Nat.le_of_succ_le hn)

theorem seek_works {s : SpStore E} (hr : Works s) (x : Bytes32) : (seek x s).1 = ((lacking [x] s.map).head?.map .childNotFound : Option (CErr E)) ∧
    (seek x s).2.map = s.map ∧ Works (seek x s).2 := by
  unfold seek lacking
  by_cases h : x = zero32
  · simp [h, hr]
  · rw [if_neg h, Store.get_none _ hr.now]
    cases hm : s.map x with
    | none => simp [h, hm]; exact hr.later _
    | some q => simp [h, hm]; exact hr.later _

theorem lacking_append (xs ys : List Bytes32) (m : Bytes32 → Option Prim) : lacking (xs ++ ys) m = lacking xs m ++ lacking ys m := by
  simp [lacking]

theorem seekBoth_works {s : SpStore E} (hr : Works s) (x : Bytes32 × Bytes32) :
    (seekBoth x s).1 = ((lacking [x.1] s.map).head?.map .childNotFound, ((lacking [x.2] s.map).head?.map .childNotFound : Option (CErr E))) ∧
    (seekBoth x s).2.map = s.map ∧ Works (seekBoth x s).2 := by
  obtain ⟨a, b, c⟩ := seek_works hr x.1
  obtain ⟨a', b', c'⟩ := seek_works c x.2
  unfold seekBoth
  exact ⟨by rw [a, a', b], by rw [b', b], c'⟩

theorem lacking_one (x : Bytes32) (m : Bytes32 → Option Prim) : lacking [x] m = [] ∨ lacking [x] m = [x] := by
  unfold lacking
  rw [List.filter_cons]
  split <;> simp

theorem seekAll_works : ∀ (xs : List (Bytes32 × Bytes32)) {s : SpStore E}, Works s →
    (seekAll xs s).1 = ((lacking (xs.flatMap fun x => [x.1, x.2]) s.map).head?.map .childNotFound : Option (CErr E)) ∧
    Works (seekAll xs s).2 := by
  intro xs
  induction xs with
  | nil => intro s hr; exact ⟨rfl, hr⟩
  | cons x xs ih =>
    intro s hr
    obtain ⟨a, b, c⟩ := seekBoth_works hr x
    have hl : lacking ((x :: xs).flatMap fun x => [x.1, x.2]) s.map =
        lacking [x.1] s.map ++ (lacking [x.2] s.map ++ lacking (xs.flatMap fun x => [x.1, x.2]) s.map) := by
      rw [← lacking_append, ← lacking_append]; rfl
    unfold seekAll
    rcases hb : seekBoth x s with ⟨⟨u, v⟩, s'⟩
    rw [hb] at a b c
    simp only [Prod.mk.injEq] at a
    obtain ⟨rfl, rfl⟩ := a
    rw [hl]
    rcases lacking_one x.1 s.map with e | e <;> rw [e]
    · rcases lacking_one x.2 s.map with e2 | e2 <;> rw [e2]
      · simp only [List.head?_nil, Option.map_none, List.nil_append]
        obtain ⟨d, f⟩ := ih (s := s') c
        rw [b] at d
        exact ⟨d, f⟩
      · simp only [List.head?_nil, Option.map_none, List.head?_cons, Option.map_some, List.nil_append, List.cons_append]
        cases xs with
        | nil => exact ⟨rfl, c⟩
        | cons y ys => exact ⟨rfl, (seekBoth_works c y).2.2⟩
    · simp only [List.head?_cons, Option.map_some, List.cons_append]
      exact ⟨trivial, c⟩

theorem putAll_works : ∀ (xs : List (Bytes32 × Prim)) {s : SpStore E}, Works s → (putAll xs s).1 = none ∧ Works (putAll xs s).2 := by
  intro xs
  induction xs with
  | nil => intro s hr; exact ⟨rfl, hr⟩
  | cons x xs ih =>
    intro s hr
    unfold putAll
    rw [Store.insert_none _ _ hr.now]
    exact ih (s := _) (hr.later _)

theorem dropAll_works : ∀ (xs : List Bytes32) {s : SpStore E}, Works s → (dropAll xs s).1 = none ∧ Works (dropAll xs s).2 := by
  intro xs
  induction xs with
  | nil => intro s hr; exact ⟨rfl, hr⟩
  | cons x xs ih =>
    intro s hr
    unfold dropAll
    rw [Store.remove_none _ hr.now]
    exact ih (s := _) (hr.later _)

theorem finish_works (H : HashFn) (k : Bytes32) (old new : Entries Bytes) {s : SpStore E} (hr : Works s) :
    (finish H k old new s).1 = .ok () ∧ Works (finish H k old new s).2.storage := by
  unfold finish
  obtain ⟨a, b⟩ := putAll_works (wayRecords H k new).reverse hr
  rcases hp : putAll (wayRecords H k new).reverse s with ⟨_ | e, s'⟩
  · rw [hp] at b; exact ⟨rfl, b⟩
  · rw [hp] at a; cases a

/-- A call on storage that works: it fails exactly if a record it looks for is not there. -/
theorem onMachine_works (op : Op) (kv : Entries Bytes) {s : SpStore E} (hr : Works s) :
    (op.onMachine H ⟨kv, s⟩).1 = (match op.lacks H kv s.map with
      | [] => .ok ()
      | x :: _ => .error (.err (.childError (.childNotFound x)))) ∧ Works (op.onMachine H ⟨kv, s⟩).2.storage := by
  unfold Op.onMachine Op.lacks
  cases hd : op.data with
  | some d =>
    simp only []
    obtain ⟨a, b⟩ := putAll_works [(H (smtLeafMsg op.key (H d)), (0, 0x00, op.key, H d)), (op.key, (0, 0x00, op.key, H d))] hr
    have hm : (putAll [(H (smtLeafMsg op.key (H d)), ((0, 0x00, op.key, H d) : Prim)), (op.key, (0, 0x00, op.key, H d))] s).2.map =
        (fun x => if x = op.key then some (0, 0x00, op.key, H d) else if x = H (smtLeafMsg op.key (H d)) then some (0, 0x00, op.key, H d) else s.map x) := by
      have h2 := hr.now
      have h3 : s.sched (s.clock + 1) = none := hr _ (Nat.le_succ _)
      funext x
      simp only [putAll, Store.insert, h2, h3, Store.upd]
      split
      · rfl
      · split <;> rfl
    rcases hp : putAll [(H (smtLeafMsg op.key (H d)), ((0, 0x00, op.key, H d) : Prim)), (op.key, (0, 0x00, op.key, H d))] s with ⟨_ | e, s1⟩
    · rw [hp] at b hm
      simp only []
      obtain ⟨c, f⟩ := seekAll_works (wayPairs H op.key kv) (s := s1) b
      have hl : lacking (wayBoth H op.key kv) s1.map =
          (lacking (wayBoth H op.key kv) s.map).filter fun x => x ≠ H (smtLeafMsg op.key (H d)) && x ≠ op.key := by
        simp only at hm
        unfold lacking
        rw [List.filter_filter, hm]
        refine List.filter_congr fun x _ => ?_
        by_cases h1 : x = op.key
        · simp [h1]
        · by_cases h2 : x = H (smtLeafMsg op.key (H d))
          · simp [h2]
          · simp [h1, h2]
      rw [show lacking ((wayPairs H op.key kv).flatMap fun x => [x.1, x.2]) s1.map = _ from hl] at c
      rcases hq : seekAll (wayPairs H op.key kv) s1 with ⟨_ | e, s2⟩
      · rw [hq] at c f
        obtain ⟨g, h⟩ := finish_works H op.key kv (op.target ⟨kv, s⟩) (s := s2) f
        simp only []
        refine ⟨?_, h⟩
        rw [g]
        cases hx : (lacking (wayBoth H op.key kv) s.map).filter fun x => x ≠ H (smtLeafMsg op.key (H d)) && x ≠ op.key with
        | nil => rfl
        | cons x l => rw [hx] at c; cases c
      · rw [hq] at c f
        simp only []
        refine ⟨?_, f⟩
        cases hx : (lacking (wayBoth H op.key kv) s.map).filter fun x => x ≠ H (smtLeafMsg op.key (H d)) && x ≠ op.key with
        | nil => rw [hx] at c; cases c
        | cons x l => rw [hx] at c; cases c; rfl
    · rw [hp] at a; cases a
  | none =>
    simp only []
    by_cases hk : kv = []
    · simp only [hk, true_or, if_true]
      exact ⟨trivial, hr⟩
    · simp only [hk, false_or, if_false]
      rw [Store.get_none _ hr.now]
      cases hm : s.map op.key with
      | none => simp only [if_true]; exact ⟨trivial, hr.later _⟩
      | some q =>
        simp only [reduceCtorEq, if_false]
        obtain ⟨c, f⟩ := seekAll_works (wayPairs H op.key kv) (s := { s with clock := s.clock + 1 }) (hr.later _)
        rcases hq : seekAll (wayPairs H op.key kv) { s with clock := s.clock + 1 } with ⟨_ | e, s2⟩
        · rw [hq] at c f
          simp only []
          obtain ⟨a, b⟩ := dropAll_works (wayHashes H op.key kv).reverse (s := s2) f
          rcases hw : dropAll (wayHashes H op.key kv).reverse s2 with ⟨_ | e, s3⟩
          · rw [hw] at b
            obtain ⟨g, h⟩ := finish_works H op.key kv (op.target ⟨kv, s⟩) (s := s3) b
            simp only []
            refine ⟨?_, h⟩
            rw [g]
            cases hx : lacking (wayBoth H op.key kv) s.map with
            | nil => rfl
            | cons x l =>
              rw [show lacking ((wayPairs H op.key kv).flatMap fun x => [x.1, x.2]) s.map = _ from hx] at c
              cases c
          · rw [hw] at a; cases a
        · rw [hq] at c f
          simp only []
          refine ⟨?_, f⟩
          cases hx : lacking (wayBoth H op.key kv) s.map with
          | nil =>
            rw [show lacking ((wayPairs H op.key kv).flatMap fun x => [x.1, x.2]) s.map = _ from hx] at c
            cases c
          | cons x l =>
            rw [show lacking ((wayPairs H op.key kv).flatMap fun x => [x.1, x.2]) s.map = _ from hx] at c
            cases c; rfl

/-! ### The fates of storage calls stay -/

theorem seek_sched (x : Bytes32) (s : SpStore E) : (seek x s).2.sched = s.sched := by
  have h := (get_keeps x s).2
  unfold seek
  split
  · rfl
  · split <;> rename_i e <;> rw [e] at h <;> exact h

theorem seekAll_sched : ∀ (xs : List (Bytes32 × Bytes32)) (s : SpStore E), (seekAll xs s).2.sched = s.sched := by
  have hb : ∀ (x : Bytes32 × Bytes32) (s : SpStore E), (seekBoth x s).2.sched = s.sched := fun x s => by
    unfold seekBoth
    rw [seek_sched, seek_sched]
  intro xs
  induction xs with
  | nil => intro s; rfl
  | cons x xs ih =>
    intro s
    have h := hb x s
    unfold seekAll
    split <;> rename_i e <;> rw [e] at h
    · exact h
    · split
      · exact h
      · exact (hb _ _).trans h
    · exact (ih _).trans h

theorem putAll_sched : ∀ (xs : List (Bytes32 × Prim)) (s : SpStore E), (putAll xs s).2.sched = s.sched := by
  intro xs
  induction xs with
  | nil => intro s; rfl
  | cons x xs ih =>
    intro s
    unfold putAll
    cases hs : s.sched s.clock with
    | none => rw [Store.insert_none _ _ hs]; exact ih _
    | some f => rw [Store.insert_fault _ _ hs]

theorem dropAll_sched : ∀ (xs : List Bytes32) (s : SpStore E), (dropAll xs s).2.sched = s.sched := by
  intro xs
  induction xs with
  | nil => intro s; rfl
  | cons x xs ih =>
    intro s
    unfold dropAll
    cases hs : s.sched s.clock with
    | none => rw [Store.remove_none _ hs]; exact ih _
    | some f => rw [Store.remove_fault _ hs]

theorem finish_sched (H : HashFn) (k : Bytes32) (old new : Entries Bytes) (s : SpStore E) : (finish H k old new s).2.storage.sched = s.sched := by
  have h := putAll_sched (wayRecords H k new).reverse s
  unfold finish
  split <;> rename_i e <;> rw [e] at h <;> exact h

theorem onMachine_sched (op : Op) (m : Machine E) : (op.onMachine H m).2.storage.sched = m.storage.sched := by
  unfold Op.onMachine
  split
  · rename_i d _
    have h1 := putAll_sched [(H (smtLeafMsg op.key (H d)), ((0, 0x00, op.key, H d) : Prim)), (op.key, (0, 0x00, op.key, H d))] m.storage
    split <;> rename_i e <;> rw [e] at h1
    · exact h1
    · rename_i s1
      have h2 := seekAll_sched (wayPairs H op.key m.kv) s1
      split <;> rename_i e <;> rw [e] at h2
      · exact h2.trans h1
      · exact (finish_sched ..).trans (h2.trans h1)
  · split
    · rfl
    · have h1 := (get_keeps op.key m.storage).2
      split <;> rename_i e <;> rw [e] at h1
      · exact h1
      · exact h1
      · rename_i s1
        have h2 := seekAll_sched (wayPairs H op.key m.kv) s1
        split <;> rename_i e <;> rw [e] at h2
        · exact h2.trans h1
        · rename_i s2
          have h3 := dropAll_sched (wayHashes H op.key m.kv).reverse s2
          split <;> rename_i e <;> rw [e] at h3
          · exact h3.trans (h2.trans h1)
          · exact (finish_sched ..).trans (h3.trans (h2.trans h1))

theorem handleAll_sched (H : HashFn) : ∀ (rs : List Request) (d : Shelf E), (d.handleAll H rs).2.storage.sched = d.storage.sched := by
  intro rs
  induction rs with
  | nil => intro d; rfl
  | cons r rs ih =>
    intro d
    refine (ih _).trans ?_
    cases r with
    | new i => rfl
    | root i => rfl
    | call i op => exact onMachine_sched op _
    | load i kv =>
      have h := (get_keeps (rootOf H kv) d.storage).2
      unfold Shelf.handle
      simp only []
      split <;> rename_i e <;> rw [e] at h <;> exact h

/-! ### Only updates -/

/-- No inner node misses a child, and the roots of all trees are stored. -/
structure Rooted (H : HashFn) (d : Shelf E) : Prop where
  linked : Linked d.storage.map
  held : ∀ i, Held d.storage.map (rootOf H (d.kv i))

theorem rootOf_nil (H : HashFn) : rootOf H [] = zero32 := by simp [rootOf, smtRoot, digests, smt]

theorem Rooted.set {d : Shelf E} (h : Rooted H d) (i : Nat) {kv : Entries Bytes} {s : SpStore E} (hw : Wrote d.storage.map s.map)
    (hr : Held s.map (rootOf H kv)) : Rooted H (d.set i kv s) := by
  refine ⟨hw.linked, fun j => ?_⟩
  simp only [Shelf.set]
  split
  · exact hr
  · exact (h.held j).keep hw.keeps

theorem handle_rooted (env : Env H M U) (r : Request) {c : Bench E} {d : Shelf E} (h : Matches H M U c d) (hR : Rooted H d)
    (hop : ∀ i op, r = .call i op → op.data ≠ none) (hf : ∀ kv ∈ d.aim r, Fits H M kv) :
    Rooted H (d.handle H r).2 ∧ Wrote d.storage.map (d.handle H r).2.storage.map := by
  have h0 := Wrote.refl hR.linked
  cases r with
  | new i => exact ⟨hR.set i h0 (fun e => absurd (rootOf_nil H) e), h0⟩
  | root i => exact ⟨hR, h0⟩
  | load i kv =>
    have hk := (get_keeps (rootOf H kv) d.storage).1
    unfold Shelf.handle
    simp only []
    rcases hg : Store.get (rootOf H kv) d.storage with ⟨e | q, s⟩
    · rw [hg] at hk
      have hk : s.map = d.storage.map := hk
      exact ⟨⟨by show Linked s.map; rw [hk]; exact hR.linked, fun j => by show Held s.map _; rw [hk]; exact hR.held j⟩, by show Wrote _ s.map; rw [hk]; exact h0⟩
    · rw [hg] at hk
      have hk : s.map = d.storage.map := hk
      cases q with
      | none => exact ⟨⟨by show Linked s.map; rw [hk]; exact hR.linked, fun j => by show Held s.map _; rw [hk]; exact hR.held j⟩, by show Wrote _ s.map; rw [hk]; exact h0⟩
      | some q => exact ⟨hR.set i (by rw [hk]; exact h0) (fun _ => by rw [hk, get_some hg]; simp), by show Wrote _ s.map; rw [hk]; exact h0⟩
  | call i op =>
    obtain ⟨t, ht⟩ := h.rep i
    obtain ⟨h1, h2⟩ := machine_linked env op (hop i op rfl) ht.wf ht.ent ht.inn d.storage (hf _ (by simp [Shelf.aim])) hR.linked (hR.held i)
    exact ⟨hR.set i h1 h2, h1⟩

theorem handleAll_rooted (p : Profile) (env : Env H M U) : ∀ (rs : List Request) {c : Bench E} {d : Shelf E}, Matches H M U c d → Rooted H d →
    (∀ op ∈ callsOf rs, U op.key ∧ op.data ≠ none) → (∀ kv ∈ d.aims H rs, Fits H M kv) → LoadsOk H rs →
    Rooted H (d.handleAll H rs).2 ∧ Wrote d.storage.map (d.handleAll H rs).2.storage.map ∧
      ∀ x, Answer.root x ∈ (d.handleAll H rs).1 → Held (d.handleAll H rs).2.storage.map x := by
  intro rs
  induction rs with
  | nil => intro c d _ hR _ _ _; exact ⟨hR, Wrote.refl hR.linked, fun x hx => by cases hx⟩
  | cons r rs ih =>
    intro c d h hR hu hf hl
    have hf1 : ∀ kv ∈ d.aim r, Fits H M kv := fun kv hkv => hf kv (by simp [Shelf.aims, hkv])
    obtain ⟨_, h2⟩ := handle_matches p env r h (fun i op e => (hu op (callsOf_mem (i := i) (by simp [e]))).1)
      hf1 (fun i kv e => ⟨(hl i kv (by simp [e])).1, (hl i kv (by simp [e])).2.1⟩)
    obtain ⟨h3, h4⟩ := handle_rooted env r h hR (fun i op e => (hu op (callsOf_mem (i := i) (by simp [e]))).2) hf1
    obtain ⟨h5, h6, h7⟩ := ih h2 h3 (fun op ho => hu op (by
        obtain ⟨x, hx, e⟩ := List.mem_filterMap.1 ho
        exact List.mem_filterMap.2 ⟨x, by simp [hx], e⟩))
      (fun kv hkv => hf kv (by simp [Shelf.aims, hkv])) (fun i kv e => hl i kv (by simp [e]))
    simp only [Shelf.handleAll]
    refine ⟨h5, h4.trans h6, fun x hx => ?_⟩
    rcases List.mem_cons.1 hx with hx | hx
    · cases r with
      | new i => cases hx
      | call i op => cases hx
      | load i kv =>
        simp only [Shelf.handle] at hx
        revert hx
        rcases Store.get (rootOf H kv) d.storage with ⟨_ | _ | q, s1⟩ <;> intro hx <;> cases hx
      | root i =>
        cases hx
        exact (hR.held i).keep (h4.trans h6).keeps
    · exact h7 x hx

theorem stored_held {m : Bytes32 → Option Prim} {t : T} {d : Nat} (h : Stored H m d t) : Held m (t.hash H) := by
  intro h0
  have hne : t ≠ .empty := fun e => h0 (by subst e; rfl)
  rw [h.get hne]
  simp

theorem stored_pairs {m : Bytes32 → Option Prim} (k : Bytes32) : ∀ {t : T} {d : Nat}, Stored H m d t →
    ∀ x ∈ pairHashes H k d t, Held m x.1 ∧ Held m x.2 := by
  intro t
  induction t with
  | empty => intro d _ x hx; cases hx
  | leaf => intro d _ x hx; cases hx
  | node l r ihl ihr =>
    intro d h x hx
    obtain ⟨_, hl, hr⟩ := h
    rw [pairHashes] at hx
    split at hx
    · rcases List.mem_cons.1 hx with rfl | hx
      · exact ⟨stored_held hr, stored_held hl⟩
      · exact ihr hr x hx
    · rcases List.mem_cons.1 hx with rfl | hx
      · exact ⟨stored_held hl, stored_held hr⟩
      · exact ihl hl x hx

/-- Nothing is missing for a call on a tree whose records are all stored. -/
theorem lacks_nil (env : Env H M U) {t : T} {kv : Entries Bytes} (w : WF 0 t) (hin : In H M t) (he : Ent H t kv) {m : Bytes32 → Option Prim}
    (hst : Stored H m 0 t) (op : Op) : op.lacks H kv m = [] := by
  have hw := (he.way env op.key w hin)
  have hl : lacking (wayBoth H op.key kv) m = [] := by
    unfold lacking wayBoth
    rw [List.filter_eq_nil_iff]
    intro y hy
    obtain ⟨x, hx, hy⟩ := List.mem_flatMap.1 hy
    rw [← hw.2.1] at hx
    obtain ⟨h1, h2⟩ := stored_pairs op.key hst x hx
    simp only [List.mem_cons, List.not_mem_nil, or_false] at hy
    simp only [ne_eq, Bool.and_eq_true, decide_eq_true_eq, Option.isNone_iff_eq_none, not_and]
    rcases hy with rfl | rfl
    · exact h1
    · exact h2
  unfold Op.lacks
  split
  · rw [hl]; rfl
  · split
    · rfl
    · exact hl

end Sparse
end FuelMerkle
