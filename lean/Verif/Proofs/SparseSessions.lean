import Verif.Proofs.SparseAny

/-
Sessions of the sparse tree on one storage.
-/
namespace FuelMerkle
namespace Sparse
open Spec T
variable {E : Type} {H : HashFn} {M : Bytes → Prop} {U : Bytes32 → Prop}

/-! ### Properties of the storage -/

section
variable {I : SpStore E → Prop} (K : KeptAll H I) (Z : ∀ s f, I s → I { s with sched := f })

theorem follow_pres {I : SpStore E → Prop} (p : Profile) : ∀ (ops : List Op), (∀ op ∈ ops, Pres I (op.run p H : TreeM E _)) →
    ∀ (kv : Entries Bytes) (t : Tree E), I t.storage → I (follow p H ops kv t).2 := by
  intro ops
  induction ops with
  | nil => intro _ kv t h; exact h
  | cons op ops ih =>
    intro hp kv t h
    rw [follow]
    exact ih (fun o ho => hp o (by simp [ho])) _ _ (hp op (by simp) t h)

theorem load_pres {I : SpStore E → Prop} (hg : ∀ s k, I s → I (Store.get k s).2) (s : SpStore E) (r : Bytes32) (h : I s) :
    I (Tree.load s r).2 ∧ ∀ t, (Tree.load s r).1 = .ok t → I t.storage := by
  have := hg s r h
  unfold Tree.load
  split
  · rename_i he; rw [he] at this; exact ⟨this, fun t e => by cases e⟩
  · rename_i he; rw [he] at this; exact ⟨this, fun t e => by cases e⟩
  · rename_i he
    rw [he] at this
    split
    · exact ⟨this, fun t e => by cases e⟩
    · exact ⟨this, fun t e => by cases e; exact this⟩

theorem session_pres {I : SpStore E → Prop} (p : Profile) (hg : ∀ s k, I s → I (Store.get k s).2)
    (Z : ∀ s f, I s → I { s with sched := f }) (z : Session E)
    (hp : ∀ op ∈ z.calls, Pres I (op.run p H : TreeM E _)) (g : Log E) (h : I g.store) : I (z.run p H g).store := by
  have h1 : I (z.start g.store) := Z _ _ h
  unfold Session.run Session.tree
  cases z.opens with
  | none => exact follow_pres p _ hp _ _ h1
  | some r =>
    have := load_pres hg _ r h1
    simp only
    rcases hl : Tree.load (z.start g.store) r with ⟨a, s⟩
    rw [hl] at this
    cases a with
    | error e => exact this.1
    | ok t => exact follow_pres p _ hp _ _ (this.2 t rfl)

theorem sessions_pres {I : SpStore E → Prop} (p : Profile) (hg : ∀ s k, I s → I (Store.get k s).2)
    (Z : ∀ s f, I s → I { s with sched := f }) : ∀ (zs : List (Session E)),
    (∀ z ∈ zs, ∀ op ∈ z.calls, Pres I (op.run p H : TreeM E _)) → ∀ (g : Log E), I g.store → I (sessions p H zs g).store := by
  intro zs
  induction zs with
  | nil => intro _ g h; exact h
  | cons z zs ih =>
    intro hp g h
    exact ih (fun z hz => hp z (by simp [hz])) _ (session_pres p hg Z z (hp z (by simp)) g h)
end

/-! ### Reported roots -/

/-- The call reported the root of its map, and did not panic. -/
structure AckOk (H : HashFn) (M : Bytes → Prop) (a : Ack E) : Prop where
  tree : ∃ t, WF 0 t ∧ In H M t ∧ Ent H t a.after ∧ a.root = t.hash H
  nopanic : ∀ q, a.event.out ≠ .error (.panic q)

theorem AckOk.root_eq {a : Ack E} (h : AckOk H M a) : a.root = rootOf H a.after := by
  obtain ⟨t, w, _, e, r⟩ := h.tree
  rw [r, e.root w]

/-- All reported roots are right. -/
structure LogOk (H : HashFn) (M : Bytes → Prop) (U : Bytes32 → Prop) (g : Log E) : Prop where
  valid : Valid H M U g.store.map
  acks : ∀ a ∈ g.acks, AckOk H M a

/-- What the final log must contain for the messages of these acks to be covered. -/
def Covered (H : HashFn) (M : Bytes → Prop) (U : Bytes32 → Prop) (acks : List (Ack E)) : Prop :=
  ∀ a ∈ acks, (∀ m ∈ msgsOf H (a.event.attempt a.before), M m) ∧ U a.event.op.key ∧
    ∀ d, a.event.op.data = some d → a.event.op.key = zero32 → H d ≠ zero32

theorem Rep.solid {st : Tree E} {t : T} {kv : Entries Bytes} (h : Rep H M U st t kv) : Solid H kv :=
  fun hz => h.inn.2 ((h.ent.mem _).2 hz)

theorem follow_ok (p : Profile) (env : Env H M U) : ∀ (ops : List Op) (kv : Entries Bytes) (st : Tree E) (t : T), Rep H M U st t kv →
    Covered H M U (follow p H ops kv st).1 →
    Valid H M U (follow p H ops kv st).2.map ∧ ∀ a ∈ (follow p H ops kv st).1, AckOk H M a := by
  intro ops
  induction ops with
  | nil => intro kv st t h _; exact ⟨h.valid, by simp [follow]⟩
  | cons op ops ih =>
    intro kv st t h hc
    rw [follow] at hc ⊢
    obtain ⟨c1, c2, c3⟩ := hc _ (List.mem_cons_self ..)
    obtain ⟨t1, s1⟩ := op_step p env op c2 h ⟨c1, Event.attempt_solid _ h.solid c3⟩
    obtain ⟨h1, h2⟩ := ih _ _ _ s1.rep fun a ha => hc a (List.mem_cons_of_mem _ ha)
    refine ⟨h1, fun a ha => ?_⟩
    rcases List.mem_cons.1 ha with rfl | ha
    · exact ⟨⟨t1, s1.rep.wf, s1.rep.inn, s1.rep.ent, root_toNode env s1.rep.wf s1.rep.inn s1.rep.root⟩, s1.nopanic⟩
    · exact h2 a ha

theorem load_valid (env : Env H M U) {s : SpStore E} (hv : Valid H M U s.map) {t : T} (w : WF 0 t) (hin : In H M t)
    (h0 : t ≠ .empty) {st : Tree E} {s' : SpStore E} (hl : Tree.load s (t.hash H) = (.ok st, s')) :
    st.rootNode = toNode H 0 t ∧ st.storage.map = s.map ∧ st.storage.sched = s.sched := by
  unfold Tree.load at hl
  cases hs : s.sched s.clock with
  | some f => rw [Store.get_fault _ hs] at hl; cases hl
  | none =>
    rw [Store.get_none _ hs] at hl
    cases hm : s.map (t.hash H) with
    | none => rw [hm] at hl; cases hl
    | some q =>
      rw [hm] at hl
      have hq : q = (toNode H 0 t).toPrim := hv.get env w hin h0 hm
      subst hq
      simp only [ofPrim_toPrim] at hl
      cases hl
      exact ⟨rfl, rfl, rfl⟩

theorem mapAt_some {g : Log E} {r : Bytes32} (h : ∃ a ∈ g.acks, a.root = r) : ∃ a ∈ g.acks, a.root = r ∧ g.mapAt r = some a.after := by
  unfold Log.mapAt
  cases hf : g.acks.find? fun a => decide (a.root = r) with
  | none =>
    obtain ⟨a, ha, e⟩ := h
    have := List.find?_eq_none.1 hf a ha
    simp [e] at this
  | some a => exact ⟨a, List.mem_of_find?_eq_some hf, by simpa using List.find?_some hf, rfl⟩

theorem hash_zero (env : Env H M U) {t : T} (hin : In H M t) : t.hash H = zeroSum ↔ t = .empty := by
  constructor
  · intro h
    exact hash_inj env hin In.empty h
  · rintro rfl; rfl

/-- The tree a session opens represents the map it should. -/
theorem tree_ok (env : Env H M U) {g : Log E} (hg : LogOk H M U g) (z : Session E) (hz : z.Known g) {kv : Entries Bytes} {st : Tree E}
    {s' : SpStore E} (h : z.tree g = (.ok (kv, st), s')) :
    ∃ t, Rep H M U st t kv ∧ st.storage.map = g.store.map ∧ st.storage.sched = (z.start g.store).sched ∧
      (t = .empty ∨ ∃ a ∈ g.acks, a.root = t.hash H) := by
  unfold Session.tree at h
  cases ho : z.opens with
  | none =>
    rw [ho] at h
    cases h
    exact ⟨.empty, ⟨trivial, In.empty, Ent.empty H, rfl, hg.valid⟩, rfl, rfl, .inl rfl⟩
  | some r =>
    rw [ho] at h
    simp only at h
    obtain ⟨hr, hack⟩ := hz r ho
    obtain ⟨a, ha, har, hmap⟩ := mapAt_some hack
    obtain ⟨t, w, hin, he, hroot⟩ := (hg.acks a ha).tree
    rcases hl : Tree.load (z.start g.store) r with ⟨b, s⟩
    rw [hl] at h
    cases b with
    | error e => cases h
    | ok t' =>
      cases h
      rw [har] at hroot
      have h0 : t ≠ .empty := by rintro rfl; exact hr hroot
      rw [hroot] at hl
      obtain ⟨h1, h2, h3⟩ := load_valid env (s := z.start g.store) hg.valid w hin h0 hl
      refine ⟨t, ⟨w, hin, ?_, h1, ?_⟩, h2, h3, .inr ⟨a, ha, by rw [har, hroot]⟩⟩
      · rw [hmap]; exact he
      · rw [h2]; exact hg.valid

theorem session_acks (p : Profile) (z : Session E) (g : Log E) : ∃ l, (z.run p H g).acks = g.acks ++ l := by
  unfold Session.run
  split
  · exact ⟨_, rfl⟩
  · exact ⟨[], by simp⟩

theorem sessions_acks (p : Profile) : ∀ (zs : List (Session E)) (g : Log E), ∃ l, (sessions p H zs g).acks = g.acks ++ l := by
  intro zs
  induction zs with
  | nil => intro g; exact ⟨[], by simp [sessions]⟩
  | cons z zs ih =>
    intro g
    obtain ⟨l, hl⟩ := session_acks (H := H) p z g
    obtain ⟨l', hl'⟩ := ih (z.run p H g)
    exact ⟨l ++ l', by rw [← List.append_assoc, ← hl]; exact hl'⟩

theorem Covered.left {a b : List (Ack E)} (h : Covered H M U (a ++ b)) : Covered H M U a := fun x hx => h x (List.mem_append.2 (.inl hx))

theorem load_store (s : SpStore E) (r : Bytes32) : (Tree.load s r).2.map = s.map := by
  unfold Tree.load
  cases hs : s.sched s.clock with
  | some f => rw [Store.get_fault _ hs]
  | none =>
    rw [Store.get_none _ hs]
    split <;> rename_i h <;> try (cases h; done)
    all_goals first
      | (injection h with h1 h2; subst h2; rfl)
      | (injection h with h1 h2; subst h2; split <;> rfl)

theorem tree_fail {z : Session E} {g : Log E} {e : Fail (Error E)} {s : SpStore E} (h : z.tree g = (.error e, s)) : s.map = g.store.map := by
  unfold Session.tree at h
  cases ho : z.opens with
  | none => rw [ho] at h; cases h
  | some r =>
    rw [ho] at h
    simp only at h
    have := load_store (z.start g.store) r
    rcases hl : Tree.load (z.start g.store) r with ⟨b, s1⟩
    rw [hl] at h this
    cases b with
    | ok t => cases h
    | error e => cases h; exact this

theorem session_ok (p : Profile) (env : Env H M U) {g : Log E} (hg : LogOk H M U g) (z : Session E) (hz : z.Known g)
    (hc : Covered H M U (z.run p H g).acks) : LogOk H M U (z.run p H g) := by
  unfold Session.run at hc ⊢
  rcases ht : z.tree g with ⟨b, s⟩
  rw [ht] at hc
  cases b with
  | error e =>
    refine ⟨?_, hg.acks⟩
    simp only
    rw [tree_fail ht]; exact hg.valid
  | ok x =>
    obtain ⟨kv, st⟩ := x
    obtain ⟨t, hrep, _⟩ := tree_ok env hg z hz ht
    obtain ⟨h1, h2⟩ := follow_ok p env z.calls kv st t hrep fun a ha => hc a (List.mem_append.2 (.inr ha))
    refine ⟨h1, fun a ha => ?_⟩
    rcases List.mem_append.1 ha with ha | ha
    · exact hg.acks a ha
    · exact h2 a ha

theorem sessions_ok (p : Profile) (env : Env H M U) : ∀ (zs : List (Session E)) (g : Log E), LogOk H M U g → AllKnown p H zs g →
    Covered H M U (sessions p H zs g).acks → LogOk H M U (sessions p H zs g) := by
  intro zs
  induction zs with
  | nil => intro g hg _ _; exact hg
  | cons z zs ih =>
    intro g hg hz hc
    have hc1 : Covered H M U (z.run p H g).acks := by
      obtain ⟨l, hl⟩ := sessions_acks (H := H) p zs (z.run p H g)
      have : (sessions p H (z :: zs) g).acks = (z.run p H g).acks ++ l := hl
      rw [this] at hc
      exact hc.left
    exact ih _ (session_ok p env hg z hz.1 hc1) hz.2 hc

/-! ### Updates keep all reported trees -/

/-- All reported trees are in storage. -/
def AllStored (H : HashFn) (M : Bytes → Prop) (g : Log E) : Prop :=
  ∀ a ∈ g.acks, ∀ t, WF 0 t → In H M t → a.root = t.hash H → Stored H g.store.map 0 t

theorem follow_stored (p : Profile) (env : Env H M U) : ∀ (ops : List Op) (kv : Entries Bytes) (st : Tree E) (t : T), Rep H M U st t kv →
    Stored H st.storage.map 0 t → (∀ op ∈ ops, op.data ≠ none) → Covered H M U (follow p H ops kv st).1 →
    (∀ t d, WF d t → In H M t → Stored H st.storage.map d t → Stored H (follow p H ops kv st).2.map d t) ∧
    ∀ a ∈ (follow p H ops kv st).1, ∀ t, WF 0 t → In H M t → a.root = t.hash H → Stored H (follow p H ops kv st).2.map 0 t := by
  intro ops
  induction ops with
  | nil => intro kv st t h _ _ _; exact ⟨fun _ _ _ _ h => h, by simp [follow]⟩
  | cons op ops ih =>
    intro kv st t h hs hd hc
    rw [follow] at hc ⊢
    obtain ⟨c1, c2, c3⟩ := hc _ (List.mem_cons_self ..)
    obtain ⟨t1, s1⟩ := op_step p env op c2 h ⟨c1, Event.attempt_solid _ h.solid c3⟩
    have hd1 := hd op (by simp)
    obtain ⟨h1, h2⟩ := ih _ _ _ s1.rep (s1.kept hs (.inl hd1)) (fun o ho => hd o (by simp [ho])) fun a ha => hc a (List.mem_cons_of_mem _ ha)
    refine ⟨fun t d w hin hs => h1 t d w hin (s1.old hd1 t d w hin hs), fun a ha => ?_⟩
    rcases List.mem_cons.1 ha with rfl | ha
    · intro t' w hin hr
      simp only at hr
      rw [root_toNode env s1.rep.wf s1.rep.inn s1.rep.root] at hr
      have := hash_inj env s1.rep.inn hin hr
      subst this
      exact h1 t1 0 w hin (s1.kept hs (.inl hd1))
    · exact h2 a ha

theorem session_stored (p : Profile) (env : Env H M U) {g : Log E} (hg : LogOk H M U g) (hs : AllStored H M g) (z : Session E)
    (hz : z.Known g) (hd : ∀ op ∈ z.calls, op.data ≠ none) (hc : Covered H M U (z.run p H g).acks) : AllStored H M (z.run p H g) := by
  unfold Session.run at hc ⊢
  rcases ht : z.tree g with ⟨b, s⟩
  rw [ht] at hc
  cases b with
  | error e =>
    intro a ha t w hin hr
    have := hs a ha t w hin hr
    simp only
    rw [tree_fail ht]; exact this
  | ok x =>
    obtain ⟨kv, st⟩ := x
    obtain ⟨t, hrep, hm, _, hst⟩ := tree_ok env hg z hz ht
    have hst : Stored H st.storage.map 0 t := by
      rcases hst with rfl | ⟨a, ha, hr⟩
      · trivial
      · rw [hm]; exact hs a ha t hrep.wf hrep.inn hr
    obtain ⟨h1, h2⟩ := follow_stored p env z.calls kv st t hrep hst hd fun a ha => hc a (List.mem_append.2 (.inr ha))
    intro a ha t' w hin hr
    rcases List.mem_append.1 ha with ha | ha
    · exact h1 t' 0 w hin (by rw [hm]; exact hs a ha t' w hin hr)
    · exact h2 a ha t' w hin hr

theorem sessions_stored (p : Profile) (env : Env H M U) : ∀ (zs : List (Session E)) (g : Log E), LogOk H M U g → AllStored H M g →
    AllKnown p H zs g → (∀ z ∈ zs, ∀ op ∈ z.calls, op.data ≠ none) →
    Covered H M U (sessions p H zs g).acks → AllStored H M (sessions p H zs g) := by
  intro zs
  induction zs with
  | nil => intro g _ hg _ _ _; exact hg
  | cons z zs ih =>
    intro g hg hs hz hd hc
    have hc1 : Covered H M U (z.run p H g).acks := by
      obtain ⟨l, hl⟩ := sessions_acks (H := H) p zs (z.run p H g)
      have : (sessions p H (z :: zs) g).acks = (z.run p H g).acks ++ l := hl
      rw [this] at hc
      exact hc.left
    exact ih _ (session_ok p env hg z hz.1 hc1) (session_stored p env hg hs z hz.1 (hd z (by simp)) hc1) hz.2
      (fun z hz => hd z (by simp [hz])) hc

/-- On reliable storage that holds the tree, all calls succeed. -/
theorem follow_live (p : Profile) (env : Env H M U) : ∀ (ops : List Op) (kv : Entries Bytes) (st : Tree E) (t : T), Rep H M U st t kv →
    Stored H st.storage.map 0 t → st.storage.Reliable → Covered H M U (follow p H ops kv st).1 →
    ∀ a ∈ (follow p H ops kv st).1, a.event.out = .ok () := by
  intro ops
  induction ops with
  | nil => intro kv st t h _ _ _; simp [follow]
  | cons op ops ih =>
    intro kv st t h hs hr hc
    rw [follow] at hc ⊢
    obtain ⟨c1, c2, c3⟩ := hc _ (List.mem_cons_self ..)
    obtain ⟨t1, s1⟩ := op_step p env op c2 h ⟨c1, Event.attempt_solid _ h.solid c3⟩
    have hok := s1.live hr hs
    intro a ha
    rcases List.mem_cons.1 ha with rfl | ha
    · exact hok
    · exact ih _ _ _ s1.rep (s1.kept hs (.inr hok)) (fun n => by rw [s1.sched]; exact hr n) (fun a ha => hc a (List.mem_cons_of_mem _ ha)) a ha

end Sparse
end FuelMerkle
