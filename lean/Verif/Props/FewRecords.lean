import Verif.Proofs.SparseMany
import Verif.Props.SparseMachine

/-
C113: a call of the sparse tree carried out from a few records.
-/
namespace FuelMerkle.Props
open FuelMerkle Spec Sparse
variable {E : Type}

set_option maxRecDepth 100000

/-- The records to hand over for a call: the root, what is under the key, and on the way of the key the two parts
at every branch. -/
def handOver (H : HashFn) (k : Bytes32) (kv : Entries Bytes) : List Bytes32 := rootOf H kv :: k :: wayBoth H k kv

/-- The storage with only the records under these keys. -/
def onlyAt (xs : List Bytes32) (s : SpStore E) : SpStore E := { s with map := fun x => if x ∈ xs then s.map x else none }

theorem tried_one (H : HashFn) (op : Op) (m : Machine E) (x : Entries Bytes) (h : x ∈ triedMaps H [op] m) : x = m.kv ∨ x = op.target m := by
  simp only [triedMaps, List.mem_cons, List.not_mem_nil, or_false] at h
  rcases h with h | h | h
  · exact .inl h
  · exact .inr h
  · rw [onMachine_kv] at h
    unfold Event.effect at h
    split at h
    · exact .inr h
    · exact .inl h

/-- What a call on a working storage gives, for a tree open for a map: it succeeds if and only if none of the
records it looks for is missing, and the error names the first one that is. -/
theorem C113_exact (p : Profile) (H : HashFn) (kv : Entries Bytes) (t : Tree E) (ho : OpenAt H kv t) (hw : Works t.storage) (op : Op)
    (hi : IdealMachine H ⟨kv, t.storage⟩ [op])
    (hs : Sound H t.storage.map [kv, op.target ⟨kv, t.storage⟩] [op.key]) :
    match op.lacks H kv t.storage.map with
    | [] => (op.run p H t).1 = .ok () ∧ (op.run p H t).2.root H = rootOf H (op.target ⟨kv, t.storage⟩)
    | x :: _ => (op.run p H t).1 = .error (.err (.childError (.childNotFound x))) ∧ (op.run p H t).2.root H = rootOf H kv := by
  have hs' : Sound H t.storage.map (triedMaps H [op] ⟨kv, t.storage⟩) ([op].map Op.key) :=
    ⟨fun x hx => hs.nodes x (by
      rcases tried_one H op _ x hx with h | h
      · rw [h]; simp
      · rw [h]; simp), hs.leaves⟩
  obtain ⟨h1, _, h3⟩ := C85_machine p H kv t ho [op] hi hs'
  simp only [run, runMachine, List.map_cons, List.map_nil, List.cons.injEq, and_true] at h1 h3
  rw [h1, h3, onMachine_kv, (onMachine_works op kv hw).1]
  cases op.lacks H kv t.storage.map with
  | nil => exact ⟨rfl, rfl⟩
  | cons x xs => exact ⟨rfl, rfl⟩

theorem load_only {s s1 : SpStore E} {t : Tree E} {r : Bytes32} {xs : List Bytes32} (hr : r ∈ xs) (h : Tree.load s r = (.ok t, s1)) :
    ∃ s2, Tree.load (onlyAt xs s) r = (.ok { t with storage := onlyAt xs t.storage }, s2) ∧ t.storage.map = s.map ∧
      t.storage.sched = s.sched ∧ s.clock ≤ t.storage.clock := by
  cases hc : s.sched s.clock with
  | some f =>
    simp only [Tree.load, Store.get_fault r hc] at h
    cases h
  | none =>
    have hc' : (onlyAt xs s).sched (onlyAt xs s).clock = none := hc
    have hm : (onlyAt xs s).map r = s.map r := by simp only [onlyAt, if_pos hr]
    simp only [Tree.load, Store.get_none r hc] at h
    simp only [Tree.load, Store.get_none r hc', hm]
    cases hq : s.map r with
    | none => rw [hq] at h; cases h
    | some q =>
      rw [hq] at h
      simp only at h ⊢
      cases hn : Node.ofPrim q with
      | error e => rw [hn] at h; cases h
      | ok n =>
        rw [hn] at h
        cases h
        exact ⟨_, rfl, rfl, rfl, Nat.le_succ _⟩

theorem handOver_length (H : HashFn) (k : Bytes32) (kv : Entries Bytes) :
    (handOver H k kv).length = 2 + 2 * (branches H k kv).length := by
  have : ∀ l : List (Bytes32 × Bytes32), (l.flatMap fun x => [x.1, x.2]).length = 2 * l.length := fun l => by
    induction l with
    | nil => rfl
    | cons a l ih => simp only [List.flatMap_cons, List.length_append, ih, List.length_cons, List.length_nil]; omega
  simp only [handOver, List.length_cons, wayBoth, this, wayPairs, List.length_map]; omega

/-- **C113**. A tree that can be loaded at the root of a map, on a working storage that is not wrong about it and holds
the records on the way of the key: on a storage that has only the records to hand over, at most two and two for every
branch, the tree loads too, the call succeeds, and the root is that of the new map. -/
theorem C113_few_records (p : Profile) (H : HashFn) (kv : Entries Bytes) (hne : kv ≠ []) (s s1 : SpStore E) (hw : Works s) (t : Tree E)
    (hl : Tree.load s (rootOf H kv) = (.ok t, s1)) (op : Op) (hi : IdealMachine H ⟨kv, s⟩ [op])
    (hs : Sound H s.map [kv, op.target ⟨kv, s⟩] [op.key])
    (hc : ∀ x ∈ wayBoth H op.key kv, x ≠ zero32 → s.map x ≠ none) :
    (handOver H op.key kv).length = 2 + 2 * (branches H op.key kv).length ∧
    ∃ t' s', Tree.load (onlyAt (handOver H op.key kv) s) (rootOf H kv) = (.ok t', s') ∧
      (op.run p H t').1 = .ok () ∧ (op.run p H t').2.root H = rootOf H (op.target ⟨kv, s⟩) := by
  refine ⟨handOver_length H op.key kv, ?_⟩
  obtain ⟨s2, h2, hm, hsch, hck⟩ := load_only (xs := handOver H op.key kv) (by simp [handOver]) hl
  refine ⟨_, s2, h2, ?_⟩
  generalize hT : ({ t with storage := onlyAt (handOver H op.key kv) t.storage } : Tree E) = t' at h2
  have hmap : t'.storage.map = fun x => if x ∈ handOver H op.key kv then s.map x else none := by
    subst hT; simp only [onlyAt, hm]
  have hkey : t'.storage.map op.key = s.map op.key := by rw [hmap]; simp [handOver]
  have htar : op.target ⟨kv, t'.storage⟩ = op.target ⟨kv, s⟩ := by simp only [Op.target, hkey]
  have hsub : ∀ x q, t'.storage.map x = some q → s.map x = some q := fun x q h => by
    rw [hmap] at h
    simp only at h
    split at h
    · exact h
    · cases h
  have hmem : ∀ a, a ∈ (triedMaps H [op] ⟨kv, t'.storage⟩).flatMap (msgsOf H) → a ∈ (triedMaps H [op] ⟨kv, s⟩).flatMap (msgsOf H) := by
    intro a ha
    obtain ⟨x, h1, h2⟩ := List.mem_flatMap.1 ha
    refine List.mem_flatMap.2 ⟨x, ?_, h2⟩
    rcases tried_one H op _ x h1 with h | h
    · rw [h]; simp [triedMaps]
    · rw [h, htar]; simp [triedMaps]
  have hI : IdealMachine H ⟨kv, t'.storage⟩ [op] :=
    ⟨⟨fun a ha b hb => hi.ideal.distinct a (hmem a ha) b (hmem b hb), fun a ha => hi.ideal.nonzero a (hmem a ha),
      fun a ha => hi.ideal.apart a (hmem a ha)⟩, hi.calls, hi.nodup, hi.start⟩
  have hO : OpenAt H kv t' := ⟨onlyAt (handOver H op.key kv) s, by rw [hmap]; rfl, by
    unfold Opens
    rw [if_neg hne]
    exact ⟨s2, h2⟩⟩
  have hW : Works t'.storage := by
    subst hT
    intro n hn
    show t.storage.sched n = none
    rw [hsch]
    exact hw n (Nat.le_trans hck hn)
  have hlack : lacking (wayBoth H op.key kv) t'.storage.map = [] := by
    unfold lacking
    rw [List.filter_eq_nil_iff]
    intro y hy
    simp only [ne_eq, Bool.and_eq_true, decide_eq_true_eq, Option.isNone_iff_eq_none, not_and]
    intro h0
    rw [hmap]
    simp only
    rw [if_pos (by simp [handOver, hy])]
    exact hc y hy h0
  have hL : op.lacks H kv t'.storage.map = [] := by
    unfold Op.lacks
    split
    · rw [hlack]; rfl
    · split
      · rfl
      · exact hlack
  have := C113_exact p H kv t' hO hW op hI ⟨fun x hx q hq q' h => hs.nodes x (by rwa [htar] at hx) q hq q' (hsub _ _ h),
    fun k hk q h => hs.leaves k hk q (hsub _ _ h)⟩
  rw [hL, htar] at this
  exact this

/-- **C113**: on a storage that holds all records of the tree of the map, the records on the way of any key are there. -/
theorem C113_whole (H : HashFn) (kv : Entries Bytes) (m : Bytes32 → Option Prim) (k : Bytes32)
    (hid : Ideal H (msgsOf H kv) []) (hn : (keysOf kv).Nodup) (h0 : (zero32, zero32) ∉ digests H kv) (hc : Complete H ⟨kv, m⟩) :
    ∀ x ∈ wayBoth H k kv, x ≠ zero32 → m x ≠ none := by
  have env : Env H (· ∈ msgsOf H kv) (fun _ => False) :=
    ⟨fun a b ha hb => hid.distinct a ha b hb, fun a ha => hid.nonzero a ha, fun _ _ _ h => h.elim⟩
  obtain ⟨u, w, he⟩ := exists_tree H kv hn
  have hin := he.inn w (M := (· ∈ msgsOf H kv)) ⟨fun _ h => h, h0⟩
  have hst : Stored H m 0 u := Stored.of_records fun q hq => hc q (by rw [← he.records w]; exact hq)
  intro y hy
  obtain ⟨x, hx, hy⟩ := List.mem_flatMap.1 hy
  rw [← (he.way env k w hin).2.1] at hx
  obtain ⟨h1, h2⟩ := stored_pairs k hst x hx
  simp only [List.mem_cons, List.not_mem_nil, or_false] at hy
  rcases hy with rfl | rfl
  · exact h1
  · exact h2

theorem branches_le {V : Type} {k : Bytes32} {b : Nat} : ∀ (fuel d : Nat) (es : Entries V), (keysOf es).Nodup →
    (∀ x ∈ es, ∀ i < d, keyBit x.1 i = keyBit k i) → (∀ x ∈ es, x.1 ≠ k → ∃ i < b, keyBit x.1 i ≠ keyBit k i) → b ≤ d + fuel →
    ((levelsFrom k fuel d es).filter fun x => decide (2 ≤ x.2.length)).length ≤ b - d := by
  have hlt : ∀ (d : Nat) (es : Entries V), (keysOf es).Nodup → (∀ x ∈ es, ∀ i < d, keyBit x.1 i = keyBit k i) →
      (∀ x ∈ es, x.1 ≠ k → ∃ i < b, keyBit x.1 i ≠ keyBit k i) → 2 ≤ es.length → d < b := by
    intro d es hn ha hd h2
    have : ∃ x ∈ es, x.1 ≠ k := by
      match es, h2, hn with
      | x :: y :: r, _, hn =>
        by_cases hx : x.1 = k
        · refine ⟨y, by simp, fun hy => ?_⟩
          simp only [keysOf, List.map_cons, List.nodup_cons, List.mem_cons, not_or] at hn
          exact hn.1.1 (hx.trans hy.symm)
        · exact ⟨x, by simp, hx⟩
    obtain ⟨x, hx, hne⟩ := this
    obtain ⟨i, hi, hdiff⟩ := hd x hx hne
    by_cases hid : i < d
    · exact absurd (ha x hx i hid) hdiff
    · omega
  intro fuel
  induction fuel with
  | zero =>
    intro d es hn ha hd hb
    by_cases h2 : 2 ≤ es.length
    · have := hlt d es hn ha hd h2
      omega
    · simp [levelsFrom, h2]
  | succ fuel ih =>
    intro d es hn ha hd hb
    rw [levelsFrom]
    by_cases h1 : es.length ≤ 1
    · rw [if_pos h1, List.filter_cons_of_neg (by simp; omega)]
      simp
    · have := hlt d es hn ha hd (by omega)
      rw [if_neg h1, List.filter_cons_of_pos (by simp; omega), List.length_cons]
      have := ih (d + 1) (es.filter fun x => keyBit x.1 d == keyBit k d) (hn.sublist ((List.filter_sublist).map _))
        (fun x hx i hi => by
          rw [List.mem_filter] at hx
          rcases Nat.lt_succ_iff_lt_or_eq.1 hi with h | h
          · exact ha x hx.1 i h
          · rw [h]; simpa using hx.2)
        (fun x hx => hd x (List.mem_filter.1 hx).1) (by omega)
      omega

/-- **C113**: how few. If all other keys differ from the key of the call within the first `b` bits, at most `2 + 2 * b`
records are handed over, however many keys are stored. -/
theorem C113_how_few (H : HashFn) (kv : Entries Bytes) (k : Bytes32) (b : Nat) (hb : b ≤ 256) (hn : (keysOf kv).Nodup)
    (h : ∀ x ∈ keysOf kv, x ≠ k → ∃ i < b, keyBit x i ≠ keyBit k i) : (handOver H k kv).length ≤ 2 + 2 * b := by
  have := branches_le (k := k) (b := b) 256 0 (digests H kv) (by rwa [keysOf_digests]) (fun _ _ i hi => absurd hi (Nat.not_lt_zero i))
    (fun x hx => h x.1 (by rw [← keysOf_digests (H := H)]; exact List.mem_map.2 ⟨x, hx, rfl⟩)) (by omega)
  have h2 : (branches H k kv).length ≤ b := by unfold branches levels; omega
  rw [handOver_length]
  omega

/-! ### A client that keeps the root and nothing else -/

/-- One call by a client that knows a root and is handed a storage: it makes a new tree if the root is zero and loads the
tree at the root otherwise, makes the call, and keeps the new root. -/
def serveOne (p : Profile) (H : HashFn) (r : Bytes32) (op : Op) (s : SpStore E) : Option Bytes32 :=
  match (if r = zero32 then .ok (Tree.new s) else (Tree.load s r).1) with
  | .error _ => none
  | .ok t => match op.run p H t with
    | (.error _, _) => none
    | (.ok _, t') => some (t'.root H)

/-- Calls one after the other, each on the storage handed over for it, which is forgotten afterwards. -/
def serve (p : Profile) (H : HashFn) : Bytes32 → List (Op × SpStore E) → Option Bytes32
  | r, [] => some r
  | r, (op, s) :: rest => (serveOne p H r op s).bind fun r' => serve p H r' rest

/-- The map after the calls. -/
def servedMap : Entries Bytes → List (Op × SpStore E) → Entries Bytes
  | kv, [] => kv
  | kv, (op, s) :: rest => servedMap (op.target ⟨kv, s⟩) rest

/-- For every call there is a working storage with right records, from which the tree of the map so far can be loaded
and which has the records on the way of the key. -/
def Serves (H : HashFn) : Entries Bytes → List (Op × SpStore E) → Prop
  | _, [] => True
  | kv, (op, s) :: rest =>
    (Works s ∧ (kv ≠ [] → ∃ t s1, Tree.load s (rootOf H kv) = (.ok t, s1)) ∧ IdealMachine H ⟨kv, s⟩ [op] ∧
      Sound H s.map [kv, op.target ⟨kv, s⟩] [op.key] ∧ ∀ x ∈ wayBoth H op.key kv, x ≠ zero32 → s.map x ≠ none) ∧
      Serves H (op.target ⟨kv, s⟩) rest

/-- Only the records to hand over for each call. -/
def fewEach (H : HashFn) : Entries Bytes → List (Op × SpStore E) → List (Op × SpStore E)
  | _, [] => []
  | kv, (op, s) :: rest => (op, onlyAt (handOver H op.key kv) s) :: fewEach H (op.target ⟨kv, s⟩) rest

theorem rootOf_zero {H : HashFn} {kv : Entries Bytes} {op : Op} {s : SpStore E} (hi : IdealMachine H ⟨kv, s⟩ [op]) :
    rootOf H kv = zero32 ↔ kv = [] := by
  obtain ⟨u, w, he⟩ := exists_tree H kv hi.nodup
  have hin := he.inn w (hi.fits kv (triedMaps_self H [op] ⟨kv, s⟩))
  rw [← he.nil w, ← he.root w]
  exact hin.hash_zero hi.env

/-- **C113**. A client that keeps nothing but the root, and for each call is handed the few records of that call,
has after any number of calls the root of the map after them. -/
theorem C113_client (p : Profile) (H : HashFn) (kv : Entries Bytes) (l : List (Op × SpStore E)) (h : Serves H kv l) :
    serve p H (rootOf H kv) (fewEach H kv l) = some (rootOf H (servedMap kv l)) := by
  induction l generalizing kv with
  | nil => rfl
  | cons a rest ih =>
    obtain ⟨op, s⟩ := a
    obtain ⟨⟨hw, hl, hi, hs, hc⟩, hrest⟩ := h
    simp only [fewEach, serve, servedMap]
    have : serveOne p H (rootOf H kv) op (onlyAt (handOver H op.key kv) s) = some (rootOf H (op.target ⟨kv, s⟩)) := by
      unfold serveOne
      by_cases h0 : kv = []
      · rw [if_pos ((rootOf_zero hi).2 h0)]
        subst h0
        have hkey : (onlyAt (handOver H op.key []) s).map op.key = s.map op.key := by simp [onlyAt, handOver]
        have htar : op.target ⟨[], onlyAt (handOver H op.key []) s⟩ = op.target ⟨[], s⟩ := by simp only [Op.target, hkey]
        have hsub : ∀ x q, (onlyAt (handOver H op.key []) s).map x = some q → s.map x = some q := fun x q h => by
          simp only [onlyAt] at h
          split at h
          · exact h
          · cases h
        have hmem : ∀ a, a ∈ (triedMaps H [op] ⟨[], onlyAt (handOver H op.key []) s⟩).flatMap (msgsOf H) →
            a ∈ (triedMaps H [op] ⟨[], s⟩).flatMap (msgsOf H) := by
          intro a ha
          obtain ⟨x, h1, h2⟩ := List.mem_flatMap.1 ha
          refine List.mem_flatMap.2 ⟨x, ?_, h2⟩
          rcases tried_one H op _ x h1 with h | h
          · rw [h]; simp [triedMaps]
          · rw [h, htar]; simp [triedMaps]
        have hI : IdealMachine H ⟨[], (Tree.new (onlyAt (handOver H op.key []) s)).storage⟩ [op] :=
          ⟨⟨fun a ha b hb => hi.ideal.distinct a (hmem a ha) b (hmem b hb), fun a ha => hi.ideal.nonzero a (hmem a ha),
            fun a ha => hi.ideal.apart a (hmem a ha)⟩, hi.calls, hi.nodup, hi.start⟩
        have hL : op.lacks H [] (Tree.new (onlyAt (handOver H op.key []) s)).storage.map = [] := by
          unfold Op.lacks
          split
          · simp [wayBoth, wayPairs, branches, levels, digests, levelsFrom, lacking]
          · simp
        have := C113_exact p H [] (Tree.new (onlyAt (handOver H op.key []) s)) ⟨_, rfl, by simp only [Opens, if_true]; rfl⟩ hw op hI
          ⟨fun x hx q hq q' h => hs.nodes x (by
            have h3 : x ∈ [[], op.target ⟨[], onlyAt (handOver H op.key []) s⟩] := hx
            rwa [htar] at h3) q hq q' (hsub _ _ h), fun k hk q h => hs.leaves k hk q (hsub _ _ h)⟩
        rw [hL] at this
        obtain ⟨h1, h2⟩ := this
        have h2 : (op.run p H (Tree.new (onlyAt (handOver H op.key []) s))).2.root H = rootOf H (op.target ⟨[], s⟩) := by
          rw [h2, ← htar]; rfl
        rcases e : op.run p H (Tree.new (onlyAt (handOver H op.key []) s)) with ⟨r, t'⟩
        rw [e] at h1 h2
        simp only at h1 h2
        subst h1
        simp only [e, h2]
      · rw [if_neg fun h => h0 ((rootOf_zero hi).1 h)]
        obtain ⟨t, s1, hl⟩ := hl h0
        obtain ⟨_, t', s', h1, h2, h3⟩ := C113_few_records p H kv h0 s s1 hw t hl op hi hs hc
        rcases e : op.run p H t' with ⟨r, t''⟩
        rw [e] at h2 h3
        simp only at h2 h3
        subst h2
        simp only [h1, e, h3]
    rw [this]
    exact ih _ hrest

namespace FewRecords

/-! ### The hypotheses can be met -/

/-- The records of five keys, and the leaf record of the key to be removed. -/
def store : SpStore Unit := listStore ((keyAt 0x20, (0, 0x00, keyAt 0x20, Tests.toyHash [2])) :: filedRecords Tests.toyHash fiveKeys)

/-- A call on the storage that has only the records handed over: how many those are, whether it loads, how the call
ends, and whether the root is that of the new map. -/
def story (op : Op) : Nat × Bool × Nat × Bool :=
  ((handOver Tests.toyHash op.key fiveKeys).length,
    match Tree.load (onlyAt (handOver Tests.toyHash op.key fiveKeys) store) (rootOf Tests.toyHash fiveKeys) with
    | (.ok t, _) => (true, SparseMachine.ending (op.run ⟨true, true, .w64⟩ Tests.toyHash t).1,
        decide ((op.run ⟨true, true, .w64⟩ Tests.toyHash t).2.root Tests.toyHash = rootOf Tests.toyHash (op.target ⟨fiveKeys, store⟩)))
    | _ => (false, 0, false))

/-- An update of a new key, one of an old key, and a removal. -/
example : story (.update (keyAt 0x48) [7]) = (6, true, 0, true) ∧ story (.update (keyAt 0x40) [7]) = (6, true, 0, true) ∧
    story (.delete (keyAt 0x20)) = (8, true, 0, true) := by decide +kernel

theorem tried : triedMaps Tests.toyHash [.delete (keyAt 0x20)] ⟨fiveKeys, store⟩ =
    [fiveKeys, fiveKeys.erase (keyAt 0x20), fiveKeys.erase (keyAt 0x20)] := by decide +kernel

/-- The hypotheses hold for the removal. -/
example : Works store ∧ (loadedFrom ((keyAt 0x20, (0, 0x00, keyAt 0x20, Tests.toyHash [2])) :: filedRecords Tests.toyHash fiveKeys)
      (rootOf Tests.toyHash fiveKeys)).isSome = true ∧
    IdealMachine Tests.toyHash ⟨fiveKeys, store⟩ [.delete (keyAt 0x20)] ∧
    ∀ x ∈ wayBoth Tests.toyHash (keyAt 0x20) fiveKeys, x ≠ zero32 → store.map x ≠ none := by
  refine ⟨fun _ _ => rfl, by decide +kernel, ⟨?_, noPhantom_of_keys (by decide), by decide, by decide⟩, by decide +kernel⟩
  rw [tried]
  exact ⟨by decide +kernel, by decide +kernel, by decide +kernel⟩

theorem sound_of_checks {H : HashFn} {m : Bytes32 → Option Prim} {maps : List (Entries Bytes)} {keys : List Bytes32}
    (h1 : ∀ kv ∈ maps, ∀ q ∈ recordsOf H kv, (m (H (recordMsg q))).all (fun q' => decide (q' = q)) = true)
    (h2 : ∀ k ∈ keys, (m k).all (fun q => decide (q = (0, 0x00, k, q.2.2.2))) = true) : Sound H m maps keys := by
  constructor
  · intro kv hkv q hq q' h
    have := h1 kv hkv q hq
    rw [h] at this
    exact of_decide_eq_true this
  · intro k hk q h
    have := h2 k hk
    rw [h] at this
    exact ⟨_, of_decide_eq_true this⟩

/-- So are its records right. -/
example : Sound Tests.toyHash store.map [fiveKeys, Op.target (.delete (keyAt 0x20)) ⟨fiveKeys, store⟩] [keyAt 0x20] :=
  sound_of_checks (by decide +kernel) (by decide +kernel)

/-- The storages after two updates and a removal, starting from nothing. -/
def before (n : Nat) : SpStore Unit :=
  (runMachine Tests.toyHash (([.update (keyAt 0x00) [1], .update (keyAt 0x80) [2], .delete (keyAt 0x00)] : List Op).take n) ⟨[], listStore []⟩).2.storage

def served : List (Op × SpStore Unit) :=
  [(.update (keyAt 0x00) [1], before 0), (.update (keyAt 0x80) [2], before 1), (.delete (keyAt 0x00), before 2)]

/-- The client follows from nothing to the map with one key. -/
example : servedMap [] served = [(keyAt 0x80, [2])] ∧
    serve ⟨true, true, .w64⟩ Tests.toyHash zero32 (fewEach Tests.toyHash [] served) = some (rootOf Tests.toyHash [(keyAt 0x80, [2])]) := by
  decide +kernel

theorem load_of {s : SpStore Unit} {r : Bytes32} (h : (match Tree.load s r with | (.ok _, _) => true | _ => false) = true) :
    ∃ t s1, Tree.load s r = (.ok t, s1) := by
  split at h
  · rename_i e; exact ⟨_, _, e⟩
  · cases h

theorem before_works (n : Nat) (h : n ≤ 3) : Works (before n) := by
  have : n = 0 ∨ n = 1 ∨ n = 2 ∨ n = 3 := by omega
  rcases this with rfl | rfl | rfl | rfl <;> intro _ _ <;> rfl

/-- The hypotheses hold for it. -/
example : Serves Tests.toyHash [] served := by
  refine ⟨⟨before_works 0 (by decide), fun h => absurd rfl h, ⟨⟨?_, ?_, ?_⟩, noPhantom_of_keys (by decide), by decide, by decide⟩,
      sound_of_checks ?_ ?_, ?_⟩,
    ⟨before_works 1 (by decide), fun _ => load_of ?_, ⟨⟨?_, ?_, ?_⟩, noPhantom_of_keys (by decide), by decide, by decide⟩,
      sound_of_checks ?_ ?_, ?_⟩,
    ⟨before_works 2 (by decide), fun _ => load_of ?_, ⟨⟨?_, ?_, ?_⟩, noPhantom_of_keys (by decide), by decide, by decide⟩,
      sound_of_checks ?_ ?_, ?_⟩, trivial⟩ <;> decide +kernel

end FewRecords
end FuelMerkle.Props
