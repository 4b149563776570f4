import Verif.Proofs.SparseInv

/-
Histories of calls of the sparse tree.
-/
namespace FuelMerkle
namespace Sparse
open Spec T
variable {E : Type} {H : HashFn} {M : Bytes → Prop} {U : Bytes32 → Prop}

theorem Ideal.env {msgs : List Bytes} {keys : List Bytes32} (h : Ideal H msgs keys) : Env H (· ∈ msgs) (· ∈ keys) :=
  ⟨fun a b ha hb => h.distinct a ha b hb, h.nonzero, fun a k ha hk => h.apart a ha k hk⟩

theorem Ideal.mono {msgs msgs' : List Bytes} {keys keys' : List Bytes32} (h : Ideal H msgs keys) (h1 : ∀ m ∈ msgs', m ∈ msgs)
    (h2 : ∀ k ∈ keys', k ∈ keys) : Ideal H msgs' keys' :=
  ⟨fun a ha b hb => h.distinct a (h1 a ha) b (h1 b hb), fun a ha => h.nonzero a (h1 a ha),
    fun a ha k hk => h.apart a (h1 a ha) k (h2 k hk)⟩

/-- No entry of the map looks like a placeholder. -/
def Solid (H : HashFn) (kv : Entries Bytes) : Prop := (zero32, zero32) ∉ digests H kv

theorem Solid.nil (H : HashFn) : Solid H [] := by simp [Solid, digests]

theorem Solid.erase {kv : Entries Bytes} (h : Solid H kv) (k : Bytes32) : Solid H (Entries.erase kv k) := by
  intro hz
  obtain ⟨d, h1, h2⟩ := mem_digests.1 hz
  exact h (mem_digests.2 ⟨d, (mem_erase.1 h1).1, h2⟩)

theorem Solid.put {kv : Entries Bytes} (h : Solid H kv) {k : Bytes32} {d : Bytes} (hd : k = zero32 → H d ≠ zero32) :
    Solid H (Entries.put kv k d) := by
  intro hz
  obtain ⟨d', h1, h2⟩ := mem_digests.1 hz
  rcases mem_put.1 h1 with e | ⟨h1, _⟩
  · simp only [Prod.mk.injEq] at e
    exact hd e.1.symm (by rw [← e.2]; exact h2.symm)
  · exact h (mem_digests.2 ⟨d', h1, h2⟩)

theorem Event.attempt_solid (e : Event E) {kv : Entries Bytes} (h : Solid H kv)
    (hd : ∀ d, e.op.data = some d → e.op.key = zero32 → H d ≠ zero32) : Solid H (e.attempt kv) := by
  unfold Event.attempt
  cases hop : e.op.data with
  | some d => exact h.put (hd d hop)
  | none =>
    simp only
    split
    · split
      · exact h.erase _
      · exact h
    · exact h

theorem Event.effect_solid (e : Event E) {kv : Entries Bytes} (h : Solid H kv)
    (hd : ∀ d, e.op.data = some d → e.op.key = zero32 → H d ≠ zero32) : Solid H (e.effect kv) := by
  unfold Event.effect
  split
  · exact e.attempt_solid h hd
  · exact h

theorem eventMsgs_head (kv : Entries Bytes) (es : List (Event E)) : ∀ m ∈ msgsOf H kv, m ∈ eventMsgs H kv es := by
  intro m hm
  cases es with
  | nil => exact hm
  | cons e es => rw [eventMsgs, List.mem_append, List.mem_append]; exact .inl (.inl hm)

/-- Every history, whatever the storage does: no call panics, and the tree is always the tree
of the map made by the calls that succeeded. -/
theorem run_spec (p : Profile) (env : Env H M U) : ∀ (ops : List Op) (st : Tree E) (t : T) (kv : Entries Bytes),
    Rep H M U st t kv → (∀ op ∈ ops, U op.key) → NoPhantom H ops → Solid H kv →
    (∀ m ∈ eventMsgs H kv (run p H ops st).1, M m) →
    (∃ t', Rep H M U (run p H ops st).2 t' ((run p H ops st).1.foldl (fun kv e => e.effect kv) kv)) ∧
      ∀ e ∈ (run p H ops st).1, ∀ q, e.out ≠ .error (.panic q) := by
  intro ops
  induction ops with
  | nil => intro st t kv h _ _ _ _; exact ⟨⟨t, h⟩, by simp [run]⟩
  | cons op ops ih =>
    intro st t kv h hu hnp hsol hm
    have hnp1 := hnp op (by simp)
    have hnp2 : NoPhantom H ops := fun o ho => hnp o (by simp [ho])
    rw [run] at hm ⊢
    simp only [eventMsgs, List.mem_append] at hm
    have hsol' := (⟨op, (st.storage.map op.key).isSome, (op.run p H st).1⟩ : Event E).attempt_solid hsol hnp1
    obtain ⟨t1, s1⟩ := op_step p env op (hu op (by simp)) h ⟨fun m h => hm m (.inl (.inr h)), hsol'⟩
    obtain ⟨h1, h2⟩ := ih _ _ _ s1.rep (fun o ho => hu o (by simp [ho])) hnp2 (Event.effect_solid _ hsol hnp1)
      (fun m h => hm m (.inr h))
    refine ⟨h1, fun e he => ?_⟩
    rcases List.mem_cons.1 he with rfl | he
    · exact s1.nopanic
    · exact h2 e he

/-! ### Reliable storage -/

/-- The tree and its storage are in state `s`. -/
structure Full (H : HashFn) (M : Bytes → Prop) (U : Bytes32 → Prop) (st : Tree E) (s : State) (t : T) : Prop where
  rep : Rep H M U st t s.kv
  stored : Stored H st.storage.map 0 t
  reliable : st.storage.Reliable
  recs : ∀ y, U y → ((st.storage.map y).isSome = true ↔ y ∈ s.recs)

theorem Full.new (s : SpStore E) (hs : ∀ k, s.map k = none) (hr : s.Reliable) : Full H M U (Tree.new s) ⟨[], []⟩ .empty :=
  ⟨Rep.new s hs, trivial, hr, fun y _ => by
    have : (Tree.new s).storage.map y = none := hs y
    rw [this]; simp⟩

theorem onState_solid (op : Op) {s : State} (h : Solid H s.kv)
    (hd : ∀ d, op.data = some d → op.key = zero32 → H d ≠ zero32) : Solid H (op.onState s).kv := by
  unfold Op.onState
  cases hop : op.data with
  | some d => exact h.put (hd d hop)
  | none =>
    simp only
    split
    · exact h
    · split
      · exact h.erase _
      · exact h

theorem attempt_eq_onState {op : Op} {s : State} {b : Bool} (hb : b = true ↔ op.key ∈ s.recs) (out : Except (Fail (Error E)) Unit) :
    (⟨op, b, out⟩ : Event E).attempt s.kv = (op.onState s).kv := by
  unfold Event.attempt Op.onState
  cases hop : op.data with
  | some d => rfl
  | none =>
    simp only []
    by_cases hr : op.key ∈ s.recs
    · rw [if_pos (hb.2 hr)]
      by_cases hkv : s.kv = []
      · rw [if_pos (.inl hkv), hkv]; rfl
      · rw [if_neg (by simp [hkv, hr])]
        split <;> rfl
    · rw [if_neg (fun h => hr (hb.1 h)), if_pos (.inr hr)]

/-- One call on reliable storage. -/
theorem full_step (p : Profile) (env : Env H M U) (op : Op) (hu : U op.key) {st : Tree E} {s : State} {t : T} (h : Full H M U st s t)
    (hf : Fits H M (op.onState s).kv) :
    ∃ st' t', op.run p H st = (.ok (), st') ∧ Full H M U st' (op.onState s) t' ∧
      (op.data ≠ none → ∀ t d, WF d t → In H M t → Stored H st.storage.map d t → Stored H st'.storage.map d t) ∧
      (∀ d, op.data = some d → st'.storage.map op.key = some (leafPrim op.key (H d))) := by
  have hb := h.recs op.key hu
  have hatt : ∀ out, (⟨op, (st.storage.map op.key).isSome, out⟩ : Event E).attempt s.kv = (op.onState s).kv :=
    fun out => attempt_eq_onState hb out
  obtain ⟨t', so⟩ := op_step p env op hu h.rep (by rw [hatt]; exact hf)
  have hok := so.live h.reliable h.stored
  have hrun : op.run p H st = (.ok (), (op.run p H st).2) := by
    have : (op.run p H st).1 = .ok () := hok
    rw [← this]
  refine ⟨_, t', hrun, ⟨?_, so.kept h.stored (.inr hok), fun n => by rw [so.sched]; exact h.reliable n, fun y hy => ?_⟩, so.old,
    fun d hd => so.recNew d hd hok⟩
  · have hrep := so.rep
    have : (⟨op, (st.storage.map op.key).isSome, (op.run p H st).1⟩ : Event E).effect s.kv = (op.onState s).kv := by
      rw [← hatt (op.run p H st).1]
      unfold Event.effect
      simp only [show (op.run p H st).1 = .ok () from hok]
    rw [this] at hrep
    exact hrep
  · have hys := h.recs y hy
    cases hop : op.data with
    | some d =>
      unfold Op.onState
      simp only [hop, List.mem_cons]
      by_cases hyk : y = op.key
      · subst hyk
        rw [so.recNew d hop hok]; simp
      · rcases so.recs y hy (.inl hyk) with e | ⟨_, e, _⟩
        · rw [e, hys]; simp [hyk]
        · rw [hop] at e; cases e
    | none =>
      unfold Op.onState
      simp only [hop]
      by_cases hc : s.kv = [] ∨ op.key ∉ s.recs
      · rw [if_pos hc]
        rcases so.recs y hy (.inr hop) with e | ⟨_, _, a, b, _, _⟩
        · rw [e, hys]
        · exfalso
          rcases hc with hc | hc
          · exact b hc
          · exact hc (hb.1 a)
      · rw [if_neg hc]
        simp only [not_or, not_not] at hc
        cases hm : met op.key s.kv with
        | some k' =>
          simp only []
          rcases so.recs y hy (.inr hop) with e | ⟨_, _, _, _, b, _⟩
          · rw [e, hys]
          · rw [hm] at b; cases b
        | none =>
          simp only [List.mem_filter]
          by_cases hz : y = zero32
          · subst hz
            rw [so.recZero hop hok (hb.2 hc.2) hc.1 hm]; simp
          · rcases so.recs y hy (.inr hop) with e | ⟨e, _⟩
            · rw [e, hys]; simp [hz]
            · exact absurd e hz

theorem msgsFrom_head (s : State) (ops : List Op) : ∀ m ∈ msgsOf H s.kv, m ∈ msgsFrom H s ops := by
  intro m hm
  cases ops with
  | nil => exact hm
  | cons e es => rw [msgsFrom, List.mem_append]; exact .inl hm

theorem Full.solid {st : Tree E} {s : State} {t : T} (h : Full H M U st s t) : Solid H s.kv :=
  fun hz => h.rep.inn.2 ((h.rep.ent.mem _).2 hz)

/-- A history on reliable storage. -/
theorem full_run (p : Profile) (env : Env H M U) : ∀ (ops : List Op) {st : Tree E} {s : State} {t : T}, Full H M U st s t →
    (∀ op ∈ ops, U op.key) → (∀ m ∈ msgsFrom H s ops, M m) → NoPhantom H ops →
    ∃ st' t', runAll p H ops st = (.ok (), st') ∧ Full H M U st' (stateFrom s ops) t' ∧
      ((∀ op ∈ ops, op.data ≠ none) → ∀ t d, WF d t → In H M t → Stored H st.storage.map d t → Stored H st'.storage.map d t) := by
  intro ops
  induction ops with
  | nil => intro st s t h _ _ _; exact ⟨st, t, rfl, h, fun _ _ _ _ _ h => h⟩
  | cons op ops ih =>
    intro st s t h hu hm hnp
    have hnp1 := hnp op (by simp)
    rw [msgsFrom] at hm
    simp only [List.mem_append] at hm
    obtain ⟨st1, t1, h1, f1, o1, _⟩ := full_step p env op (hu op (by simp)) h
      ⟨fun m h => hm m (.inr (msgsFrom_head _ _ m h)), onState_solid op h.solid hnp1⟩
    obtain ⟨st2, t2, h2, f2, o2⟩ := ih f1 (fun o ho => hu o (by simp [ho])) (fun m h => hm m (.inr h)) (fun o ho => hnp o (by simp [ho]))
    refine ⟨st2, t2, ?_, f2, fun hall t d w hin hs => ?_⟩
    · rw [runAll, Exec.bind_ok h1, h2]
    · exact o2 (fun o ho => hall o (by simp [ho])) t d w hin (o1 (hall op (by simp)) t d w hin hs)

theorem IdealFor.env {ops : List Op} (h : IdealFor H ops) : Env H (· ∈ msgsFrom H ⟨[], []⟩ ops) (· ∈ ops.map Op.key) := h.1.env

/-- A history from the empty tree on reliable storage. -/
theorem history_full (p : Profile) {ops : List Op} (h : IdealFor H ops) (s : SpStore E) (hs : ∀ k, s.map k = none) (hr : s.Reliable) :
    ∃ st' t', runAll p H ops (Tree.new s) = (.ok (), st') ∧
      Full H (· ∈ msgsFrom H ⟨[], []⟩ ops) (· ∈ ops.map Op.key) st' (stateOf ops) t' ∧
      ((∀ op ∈ ops, op.data ≠ none) → ∀ t d, WF d t → In H (· ∈ msgsFrom H ⟨[], []⟩ ops) t → Stored H s.map d t → Stored H st'.storage.map d t) :=
  full_run p h.env ops (Full.new s hs hr) (fun op ho => List.mem_map.2 ⟨op, ho, rfl⟩) (fun _ h => h) h.2

theorem stateFrom_append (s : State) (a b : List Op) : stateFrom s (a ++ b) = stateFrom (stateFrom s a) b := by
  simp [stateFrom]

theorem runAll_append (p : Profile) (a b : List Op) :
    (runAll p H (a ++ b) : TreeM E Unit) = (runAll p H a >>= fun _ => runAll p H b) := by
  induction a with
  | nil => rfl
  | cons x xs ih =>
    rw [List.cons_append, runAll, runAll, ih, Exec.bind_assoc]

theorem msgsFrom_append (s : State) (a b : List Op) : ∀ m, m ∈ msgsFrom H s a ∨ m ∈ msgsFrom H (stateFrom s a) b →
    m ∈ msgsFrom H s (a ++ b) := by
  induction a generalizing s with
  | nil =>
    rintro m (h | h)
    · exact msgsFrom_head s b m h
    · exact h
  | cons x xs ih =>
    rintro m (h | h)
    · rw [msgsFrom, List.mem_append] at h
      rw [List.cons_append, msgsFrom, List.mem_append]
      exact h.imp id (fun h => ih _ m (.inl h))
    · rw [List.cons_append, msgsFrom, List.mem_append]
      exact .inr (ih _ m (.inr h))

theorem IdealFor.prefix {a b : List Op} (h : IdealFor H (a ++ b)) : IdealFor H a :=
  ⟨h.1.mono (fun m hm => msgsFrom_append _ a b m (.inl hm)) (fun k hk => by rw [List.map_append, List.mem_append]; exact .inl hk),
    fun o ho => h.2 o (by simp [ho])⟩

end Sparse
end FuelMerkle
