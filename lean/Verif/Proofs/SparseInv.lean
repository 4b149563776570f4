import Verif.Proofs.SparseDelete
import Verif.Spec.SparseApi

/-
The invariant of the sparse tree, and what each call does to it.
-/
namespace FuelMerkle
namespace Sparse
open Spec T
variable {E : Type} {H : HashFn} {M : Bytes → Prop} {U : Bytes32 → Prop}

/-! ### Maps as lists -/

theorem mem_erase {V : Type} {es : Entries V} {k : Bytes32} {x : Bytes32 × V} : x ∈ Entries.erase es k ↔ x ∈ es ∧ x.1 ≠ k := by
  simp [Entries.erase]

theorem mem_put {V : Type} {es : Entries V} {k : Bytes32} {v : V} {x : Bytes32 × V} :
    x ∈ Entries.put es k v ↔ x = (k, v) ∨ (x ∈ es ∧ x.1 ≠ k) := by
  rw [Entries.put, List.mem_cons, mem_erase]

theorem keysOf_erase {V : Type} (es : Entries V) (k : Bytes32) : keysOf (Entries.erase es k) = (keysOf es).filter (· ≠ k) := by
  unfold keysOf Entries.erase
  rw [List.filter_map]
  rfl

theorem nodup_erase {V : Type} {es : Entries V} (h : (keysOf es).Nodup) (k : Bytes32) : (keysOf (Entries.erase es k)).Nodup := by
  rw [keysOf_erase]; exact h.filter _

theorem nodup_put {V : Type} {es : Entries V} (h : (keysOf es).Nodup) (k : Bytes32) (v : V) : (keysOf (Entries.put es k v)).Nodup := by
  show (k :: keysOf (Entries.erase es k)).Nodup
  rw [List.nodup_cons]
  refine ⟨?_, nodup_erase h k⟩
  rw [keysOf_erase]; simp

theorem mem_keysOf {V : Type} {es : Entries V} {k : Bytes32} : k ∈ keysOf es ↔ ∃ v, (k, v) ∈ es := by
  simp [keysOf]

theorem erase_absent {V : Type} {es : Entries V} {k : Bytes32} (h : k ∉ keysOf es) : Entries.erase es k = es := by
  unfold Entries.erase
  rw [List.filter_eq_self]
  rintro ⟨a, b⟩ hx
  simp only [ne_eq, decide_eq_true_eq]
  rintro rfl
  exact h (mem_keysOf.2 ⟨b, hx⟩)

theorem mem_digests {kv : Entries Bytes} {x : Bytes32 × Bytes32} : x ∈ digests H kv ↔ ∃ d, (x.1, d) ∈ kv ∧ x.2 = H d := by
  simp only [digests, List.mem_map, Prod.exists]
  constructor
  · rintro ⟨a, b, h, rfl⟩; exact ⟨b, h, rfl⟩
  · rintro ⟨d, h, e⟩; exact ⟨x.1, d, h, by rw [← e]⟩

theorem keysOf_digests (kv : Entries Bytes) : keysOf (digests H kv) = keysOf kv := by
  simp [keysOf, digests, Function.comp_def]

theorem metFrom_map {V W : Type} (f : V → W) (k : Bytes32) : ∀ (fuel d : Nat) (es : Entries V),
    metFrom k fuel d (es.map fun x => (x.1, f x.2)) = metFrom k fuel d es := by
  intro fuel
  induction fuel with
  | zero =>
    intro d es
    cases es with
    | nil => rfl
    | cons a as =>
      cases as with
      | nil => rfl
      | cons b bs => rfl
  | succ fuel ih =>
    intro d es
    cases es with
    | nil => rfl
    | cons a as =>
      cases as with
      | nil => rfl
      | cons b bs =>
        have e := ih (d + 1) ((a :: b :: bs).filter fun x => keyBit x.1 d == keyBit k d)
        have hfm : ((a :: b :: bs).map fun x => (x.1, f x.2)).filter (fun x => keyBit x.1 d == keyBit k d) =
            ((a :: b :: bs).filter fun x => keyBit x.1 d == keyBit k d).map fun x => (x.1, f x.2) := by
          rw [List.filter_map]; rfl
        rw [← hfm, List.map_cons, List.map_cons] at e
        rw [List.map_cons, List.map_cons]
        rw [metFrom, metFrom] <;> first | exact e | simp

theorem met_digests (k : Bytes32) (kv : Entries Bytes) : met k (digests H kv) = met k kv := metFrom_map H k 256 0 kv

/-! ### The tree of a map -/

/-- The tree holds the digests of the map. -/
structure Ent (H : HashFn) (t : T) (kv : Entries Bytes) : Prop where
  nodup : (keysOf kv).Nodup
  mem : ∀ x, x ∈ t.entries ↔ x ∈ digests H kv

theorem Ent.empty (H : HashFn) : Ent H .empty [] := ⟨by simp [keysOf], fun x => by simp [entries, digests]⟩

section
variable {t : T} {kv : Entries Bytes}

theorem Ent.smt (h : Ent H t kv) (w : WF 0 t) (k : Bytes32) :
    t.hash H = rootOf H kv ∧ t.msgs H = msgsOf H kv ∧ victim k 0 t = met k kv := by
  have := smt_spec H k (fuel := 256) w rfl (es := digests H kv) (by
    show (keysOf (digests H kv)).Nodup
    rw [keysOf_digests]; exact h.nodup) h.mem
  refine ⟨this.1, this.2.1, ?_⟩
  rw [this.2.2]; exact met_digests k kv

theorem Ent.root (h : Ent H t kv) (w : WF 0 t) : t.hash H = rootOf H kv := (h.smt w zero32).1
theorem Ent.msgs (h : Ent H t kv) (w : WF 0 t) : t.msgs H = msgsOf H kv := (h.smt w zero32).2.1
theorem Ent.met (h : Ent H t kv) (w : WF 0 t) (k : Bytes32) : victim k 0 t = met k kv := (h.smt w k).2.2

theorem Ent.nil (h : Ent H t kv) (w : WF 0 t) : t = .empty ↔ kv = [] := by
  rw [← entries_nil w]
  constructor
  · intro he
    cases kv with
    | nil => rfl
    | cons a as =>
      have := (h.mem (a.1, H a.2)).2 (by simp [digests])
      rw [he] at this; simp at this
  · rintro rfl
    exact eq_nil_of_mem fun x hx => by have := (h.mem x).1 hx; simp [digests] at this

theorem Ent.put (h : Ent H t kv) (w : WF 0 t) (k : Bytes32) (d : Bytes) : Ent H (ins k (H d) 0 t) (Entries.put kv k d) := by
  refine ⟨nodup_put h.nodup k d, fun x => ?_⟩
  rw [(ins_spec w (Ag.zero k t) (by omega)).2.1, mem_digests]
  constructor
  · rintro (rfl | ⟨hx, hne⟩)
    · exact ⟨d, mem_put.2 (.inl rfl), rfl⟩
    · obtain ⟨d', h1, h2⟩ := mem_digests.1 ((h.mem x).1 hx)
      exact ⟨d', mem_put.2 (.inr ⟨h1, hne⟩), h2⟩
  · rintro ⟨d', h1, h2⟩
    rcases mem_put.1 h1 with h1 | ⟨h1, hne⟩
    · obtain ⟨a, b⟩ := x
      simp only [Prod.mk.injEq] at h1
      left
      rw [h1.1]; simp only at h2; rw [h2, h1.2]
    · exact .inr ⟨(h.mem x).2 (mem_digests.2 ⟨d', h1, h2⟩), hne⟩

/-- The map without the key met on the path of `k`. -/
def eraseMet (kv : Entries Bytes) (k : Bytes32) : Entries Bytes :=
  match Spec.met k kv with
  | some k' => Entries.erase kv k'
  | none => kv

theorem Ent.del (h : Ent H t kv) (w : WF 0 t) (k : Bytes32) : Ent H (del k 0 t) (eraseMet kv k) := by
  have hv := h.met w k
  have hd := (del_spec (k := k) w).2.1
  unfold eraseMet
  cases hm : Spec.met k kv with
  | none =>
    rw [hm] at hv
    rw [del_none w hv]
    exact h
  | some k' =>
    rw [hm] at hv
    refine ⟨nodup_erase h.nodup k', fun x => ?_⟩
    rw [hd, hv, mem_digests]
    constructor
    · rintro ⟨hx, hne⟩
      obtain ⟨d, h1, h2⟩ := mem_digests.1 ((h.mem x).1 hx)
      exact ⟨d, mem_erase.2 ⟨h1, fun e => hne (by rw [e])⟩, h2⟩
    · rintro ⟨d, h1, h2⟩
      obtain ⟨h1, hne⟩ := mem_erase.1 h1
      exact ⟨(h.mem x).2 (mem_digests.2 ⟨d, h1, h2⟩), fun e => hne (by simpa using e)⟩

/-- The messages of the map are in `M`, and no entry looks like a placeholder. -/
def Fits (H : HashFn) (M : Bytes → Prop) (kv : Entries Bytes) : Prop :=
  (∀ m ∈ msgsOf H kv, M m) ∧ (zero32, zero32) ∉ digests H kv

theorem Ent.inn (h : Ent H t kv) (w : WF 0 t) (hf : Fits H M kv) : In H M t :=
  ⟨fun m hm => hf.1 m (by rw [← h.msgs w]; exact hm), fun hz => hf.2 ((h.mem _).1 hz)⟩

end

theorem met_present {kv : Entries Bytes} {k : Bytes32} (hk : k ∈ keysOf kv) {t : T} (w : WF 0 t) (he : Ent H t kv) :
    met k kv = some k := by
  obtain ⟨d, hd⟩ := mem_keysOf.1 hk
  rw [← he.met w k]
  exact victim_present (v := H d) w ((he.mem _).2 (mem_digests.2 ⟨d, hd, rfl⟩))

/-! ### The invariant -/

/-- The open tree `st` has the root node of `t`, the tree of the map `kv`. -/
structure Rep (H : HashFn) (M : Bytes → Prop) (U : Bytes32 → Prop) (st : Tree E) (t : T) (kv : Entries Bytes) : Prop where
  wf : WF 0 t
  inn : In H M t
  ent : Ent H t kv
  root : st.rootNode = toNode H 0 t
  valid : Valid H M U st.storage.map

theorem Rep.root_eq (env : Env H M U) {st : Tree E} {t : T} {kv : Entries Bytes} (h : Rep H M U st t kv) :
    st.root H = rootOf H kv := by
  rw [root_toNode env h.wf h.inn h.root, h.ent.root h.wf]

theorem Rep.new (s : SpStore E) (hs : ∀ k, s.map k = none) : Rep H M U (Tree.new s) .empty [] :=
  ⟨trivial, In.empty, Ent.empty H, rfl, fun x q h => by
    have : s.map x = some q := h
    rw [hs] at this; cases this⟩

/-- What a call does. -/
structure StepOut (H : HashFn) (M : Bytes → Prop) (U : Bytes32 → Prop) (op : Op) (st st' : Tree E) (e : Event E) (t t' : T)
    (kv : Entries Bytes) : Prop where
  rep : Rep H M U st' t' (e.effect kv)
  nopanic : ∀ q, e.out ≠ .error (.panic q)
  sched : st'.storage.sched = st.storage.sched
  live : st.storage.Reliable → Stored H st.storage.map 0 t → e.out = .ok ()
  kept : Stored H st.storage.map 0 t → (op.data ≠ none ∨ e.out = .ok ()) → Stored H st'.storage.map 0 t'
  old : op.data ≠ none → ∀ t d, WF d t → In H M t → Stored H st.storage.map d t → Stored H st'.storage.map d t
  recs : ∀ y, U y → y ≠ op.key ∨ op.data = none → st'.storage.map y = st.storage.map y ∨
    (y = zero32 ∧ op.data = none ∧ e.recorded = true ∧ kv ≠ [] ∧ met op.key kv = none ∧ st'.storage.map y = none)
  recNew : ∀ d, op.data = some d → e.out = .ok () → st'.storage.map op.key = some (leafPrim op.key (H d))
  recOld : op.data ≠ none → st'.storage.map op.key = st.storage.map op.key ∨ (st'.storage.map op.key).isSome
  recZero : op.data = none → e.out = .ok () → e.recorded = true → kv ≠ [] → met op.key kv = none →
    st'.storage.map zero32 = none

theorem Valid.user_rec (env : Env H M U) {m : Bytes32 → Option Prim} (hv : Valid H M U m) {k : Bytes32} (hu : U k) {q : Prim}
    (h : m k = some q) : ∃ v, q = leafPrim k v := by
  rcases hv k q h with hg | ⟨_, v, e⟩ | hs
  · exact absurd hu (hg.not_user env)
  · exact ⟨v, e⟩
  · exact absurd hu hs.user

theorem delete_step (p : Profile) (env : Env H M U) {k : Bytes32} (hu : U k) {st : Tree E} {t : T} {kv : Entries Bytes}
    (h : Rep H M U st t kv) (hf : (st.storage.map k).isSome → Fits H M (eraseMet kv k)) (op : Op) (hop : op.data = none) (hkey : op.key = k) :
    ∃ t', StepOut H M U op st (delete p H k st).2 ⟨op, (st.storage.map k).isSome, (delete p H k st).1⟩ t t' kv := by
  subst hkey
  by_cases h0 : t = .empty ∨ st.storage.map op.key = none
  · obtain ⟨st', s, hd⟩ := delete_nothing p env h.wf h.inn st h.root h0
    have heff : ∀ out : Except (Fail (Error E)) Unit, (⟨op, (st.storage.map op.key).isSome, out⟩ : Event E).effect kv = kv := by
      intro out
      unfold Event.effect Event.attempt
      cases out with
      | error e => rfl
      | ok u =>
        simp only [hop]
        rcases h0 with h0 | h0
        · have hk := (h.ent.nil h.wf).1 h0
          subst hk
          have : met op.key ([] : Entries Bytes) = none := rfl
          rw [this]; split <;> rfl
        · rw [h0]; rfl
    have hrep : Rep H M U st' t kv := ⟨h.wf, h.inn, h.ent, by rw [s.root, h.root], by rw [s.map]; exact h.valid⟩
    have hz : ∀ P : Prop, (st.storage.map op.key).isSome = true → kv ≠ [] → P := by
      intro P hr hkv
      rcases h0 with h0 | h0
      · exact absurd ((h.ent.nil h.wf).1 h0) hkv
      · rw [h0] at hr; cases hr
    refine ⟨t, ?_⟩
    rcases hd with hd | ⟨⟨e, hd⟩, hr⟩
    · rw [hd]
      exact ⟨by rw [heff]; exact hrep, by simp, s.sched, fun _ _ => rfl, fun hs _ => by rw [s.map]; exact hs,
        fun hc => absurd hop hc, fun y _ _ => .inl (by rw [s.map]), fun d hc => (by rw [hop] at hc; cases hc),
        fun hc => absurd hop hc, fun _ _ hr hkv _ => hz _ hr hkv⟩
    · rw [hd]
      exact ⟨by rw [heff]; exact hrep, by simp, s.sched, fun hr' => absurd hr' hr, fun hs _ => by rw [s.map]; exact hs,
        fun hc => absurd hop hc, fun y _ _ => .inl (by rw [s.map]), fun d hc => (by rw [hop] at hc; cases hc),
        fun hc => absurd hop hc, fun _ _ hr hkv _ => hz _ hr hkv⟩
  · simp only [not_or] at h0
    obtain ⟨h0, hne⟩ := h0
    obtain ⟨q, hq⟩ := Option.ne_none_iff_exists'.1 hne
    have hrec : (st.storage.map op.key).isSome = true := by rw [hq]; rfl
    obtain ⟨v, rfl⟩ := h.valid.user_rec env hu hq
    have hkv : kv ≠ [] := fun e => h0 ((h.ent.nil h.wf).2 e)
    have wd := (del_spec (k := op.key) h.wf).1
    have ed := h.ent.del h.wf op.key
    have ind := ed.inn wd (hf hrec)
    obtain ⟨st', g, hd⟩ := delete_leaf p env h.wf h.inn h0 ind st h.root h.valid hq (ofPrim_toPrim _)
      (HasKey.leaf (fun _ => zeroSum) 0 op.key v)
    have hmet := h.ent.met h.wf op.key
    have heff : (⟨op, (st.storage.map op.key).isSome, .ok ()⟩ : Event E).effect kv = eraseMet kv op.key := by
      unfold Event.effect Event.attempt eraseMet
      simp only [hop, hrec, if_true]
      rfl
    have hrecs : ∀ y, U y → st'.storage.map y = st.storage.map y ∨
        (y = zero32 ∧ op.data = none ∧ (st.storage.map op.key).isSome = true ∧ kv ≠ [] ∧ met op.key kv = none ∧
          st'.storage.map y = none) := by
      intro y hy
      rcases g.user env h.wf h.inn hy with e | ⟨a, b, c⟩
      · exact .inl e
      · exact .inr ⟨a, hop, hrec, hkv, by rw [← hmet]; exact b, c⟩
    rcases hd with ⟨hd, hr, hz, hs⟩ | ⟨⟨e, hd⟩, hr, hn⟩
    · rw [hd]
      exact ⟨_, by rw [heff]; exact ⟨wd, ind, ed, hr, g.valid h.valid⟩, by simp, g.sched, fun _ _ => rfl, fun h' _ => hs h',
        fun hc => absurd hop hc, fun y hy _ => hrecs y hy, fun d hc => (by rw [hop] at hc; cases hc),
        fun hc => absurd hop hc, fun _ _ _ _ hm => hz (by rw [hmet]; exact hm)⟩
    · rw [hd]
      refine ⟨t, ⟨h.wf, h.inn, h.ent, by rw [hr, h.root], g.valid h.valid⟩, by simp, g.sched, fun hr' hs' => absurd ⟨hr', hs'⟩ hn, ?_,
        fun hc => absurd hop hc, fun y hy _ => hrecs y hy, fun d hc => (by rw [hop] at hc; cases hc),
        fun hc => absurd hop hc, fun _ hc => by cases hc⟩
      rintro _ (hc | hc)
      · exact absurd hop hc
      · cases hc

theorem update_step (p : Profile) (env : Env H M U) {k : Bytes32} (hu : U k) {d : Bytes} (hd0 : d ≠ []) {st : Tree E} {t : T} {kv : Entries Bytes}
    (h : Rep H M U st t kv) (hf : Fits H M (Entries.put kv k d)) :
    ∃ t', StepOut H M U (.update k d) st (update p H k d st).2
      ⟨.update k d, (st.storage.map k).isSome, (update p H k d st).1⟩ t t' kv := by
  have hdata : (Op.update k d).data = some d := by simp [Op.data, hd0]
  have hemp : d.isEmpty = false := by cases d <;> simp_all
  have wi := (ins_spec (k := k) (v := H d) h.wf (Ag.zero k t) (by omega)).1
  have ei := h.ent.put h.wf k d
  have ini := ei.inn wi hf
  obtain ⟨st', g, hup⟩ := update_spec p env hemp hu h.wf h.inn ini st h.root h.valid
  have hrecs : ∀ y, U y → y ≠ k → st'.storage.map y = st.storage.map y := fun y hy hne => g.user env hy hne
  have hold : ∀ t d, WF d t → In H M t → Stored H st.storage.map d t → Stored H st'.storage.map d t :=
    fun t d w hin hs => g.stored env hu w hin hs
  have hnone : ∀ {P : Prop}, (Op.update k d).data = none → P := fun hc => by rw [hdata] at hc; cases hc
  have hrecOld : st'.storage.map k = st.storage.map k ∨ (st'.storage.map k).isSome := by
    rcases g.map k with e | ⟨q, e, _⟩ | ⟨_, e⟩
    · exact .inl e
    · right; rw [e]; rfl
    · right; rw [e]; rfl
  have hr : ∀ y, U y → y ≠ (Op.update k d).key ∨ (Op.update k d).data = none → st'.storage.map y = st.storage.map y := by
    rintro y hy (hne | hc)
    · exact hrecs y hy hne
    · exact hnone hc
  rcases hup with ⟨hup, hrt, hrec, hs⟩ | ⟨⟨e, hup⟩, hrt, hn⟩
  · rw [hup]
    refine ⟨_, ?_, by simp, g.sched, fun _ _ => rfl, fun h' _ => hs h', fun _ => hold, fun y hy hc => .inl (hr y hy hc), ?_,
      fun _ => hrecOld, fun hc => hnone hc⟩
    · unfold Event.effect Event.attempt
      simp only [hdata]
      exact ⟨wi, ini, ei, hrt, g.valid hu h.valid⟩
    · intro d' hd' _
      rw [hdata] at hd'; cases hd'; exact hrec
  · rw [hup]
    exact ⟨t, ⟨h.wf, h.inn, h.ent, by rw [hrt, h.root], g.valid hu h.valid⟩, by simp, g.sched, fun a b => absurd ⟨a, b⟩ hn,
      fun h' _ => hold _ _ h.wf h.inn h', fun _ => hold, fun y hy hc => .inl (hr y hy hc), fun _ _ hc => (by cases hc),
      fun _ => hrecOld, fun hc => hnone hc⟩

/-- What one call does, whatever the storage does. -/
theorem op_step (p : Profile) (env : Env H M U) (op : Op) (hu : U op.key) {st : Tree E} {t : T} {kv : Entries Bytes}
    (h : Rep H M U st t kv)
    (hf : Fits H M ((⟨op, (st.storage.map op.key).isSome, (op.run p H st).1⟩ : Event E).attempt kv)) :
    ∃ t', StepOut H M U op st (op.run p H st).2 ⟨op, (st.storage.map op.key).isSome, (op.run p H st).1⟩ t t' kv := by
  have hdel : op.data = none → (st.storage.map op.key).isSome → Fits H M (eraseMet kv op.key) := by
    intro hop hr
    unfold Event.attempt at hf
    simp only [hop, hr, if_true] at hf
    exact hf
  cases op with
  | delete k => exact delete_step p env hu h (hdel rfl) (.delete k) rfl rfl
  | update k d =>
    by_cases hd : d = []
    · subst hd
      exact delete_step p env hu h (hdel rfl) (.update k []) rfl rfl
    · refine update_step p env hu hd h ?_
      unfold Event.attempt at hf
      have : (Op.update k d).data = some d := by simp [Op.data, hd]
      simp only [this] at hf
      exact hf

end Sparse
end FuelMerkle
