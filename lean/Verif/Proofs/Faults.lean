import Verif.Spec.Faults
import Verif.Proofs.Exec

/-
Calls that stop at the first failure of the storage and report it.
-/
namespace FuelMerkle
open Spec

/-- How a state holds a storage that may fail. -/
structure World (σ E ε : Type) where
  sched : σ → Nat → Option (Fault E)
  clock : σ → Nat
  heal : σ → σ
  wrap : E → ε

section
variable {σ E ε α β : Type} {w : World σ E ε}

/-- The computation acts as on storage that does not fail, or stops at the first failure. -/
structure FailFast (w : World σ E ε) (m : Exec σ (Fail ε) α) : Prop where
  sched : ∀ t, w.sched (m t).2 = w.sched t
  clock : ∀ t, w.clock t ≤ w.clock (m t).2
  out : ∀ t, (Calm (w.sched t) (w.clock t) (w.clock (m t).2) ∧ m (w.heal t) = ((m t).1, w.heal (m t).2)) ∨
    ∃ e, LastFails (w.sched t) (w.clock t) (w.clock (m t).2) e ∧ (m t).1 = .error (.err (w.wrap e)) ∧
      w.clock (m t).2 ≤ w.clock (m (w.heal t)).2

theorem Spec.Calm.nil {s : Nat → Option (Fault E)} {a : Nat} : Calm s a a := fun n h1 h2 => by omega

theorem Spec.Calm.append {s : Nat → Option (Fault E)} {a b c : Nat} (h : Calm s a b) (h' : Calm s b c) : Calm s a c := fun n h1 h2 => by
  by_cases hn : n < b
  · exact h n h1 hn
  · exact h' n (by omega) h2

theorem FailFast.pure (a : α) : FailFast w (Pure.pure a : Exec σ (Fail ε) α) :=
  ⟨fun _ => rfl, fun _ => Nat.le_refl _, fun _ => .inl ⟨Calm.nil, rfl⟩⟩

theorem FailFast.throw (e : Fail ε) : FailFast w (Exec.throw e : Exec σ (Fail ε) α) :=
  ⟨fun _ => rfl, fun _ => Nat.le_refl _, fun _ => .inl ⟨Calm.nil, rfl⟩⟩

theorem FailFast.lift (r : Res α) : FailFast w (Exec.liftRes r : Exec σ (Fail ε) α) := by
  cases r with
  | ok a => exact .pure a
  | error q => exact .throw (.panic q)

theorem FailFast.modify {g : σ → σ} (h1 : ∀ t, w.sched (g t) = w.sched t) (h2 : ∀ t, w.clock (g t) = w.clock t)
    (h3 : ∀ t, g (w.heal t) = w.heal (g t)) : FailFast w (Exec.modify g : Exec σ (Fail ε) Unit) :=
  ⟨h1, fun t => Nat.le_of_eq (h2 t).symm, fun t => .inl ⟨by rw [Exec.modify_apply, h2]; exact Calm.nil, by simp [h3]⟩⟩

theorem FailFast.bind {m : Exec σ (Fail ε) α} {f : α → Exec σ (Fail ε) β} (hm : FailFast w m) (hf : ∀ a, FailFast w (f a)) :
    FailFast w (m >>= f) := by
  refine ⟨fun t => ?_, fun t => ?_, fun t => ?_⟩
  · have := hm.sched t
    rw [Exec.bind_apply]
    rcases e : m t with ⟨r, s⟩
    rw [e] at this
    cases r with
    | ok a => exact ((hf a).sched s).trans this
    | error _ => exact this
  · have := hm.clock t
    rw [Exec.bind_apply]
    rcases e : m t with ⟨r, s⟩
    rw [e] at this
    cases r with
    | ok a => exact Nat.le_trans this ((hf a).clock s)
    | error _ => exact this
  · have h1 := hm.out t
    have h2 := hm.sched t
    have h3 := hm.clock t
    rw [Exec.bind_apply, Exec.bind_apply]
    rcases e : m t with ⟨r, s⟩
    rw [e] at h1 h2 h3
    simp only at h1 h2 h3 ⊢
    rcases h1 with ⟨c1, h1⟩ | ⟨e', c1, rfl, h1⟩
    · rw [h1]
      cases r with
      | error x => exact .inl ⟨c1, rfl⟩
      | ok a =>
        simp only
        rcases (hf a).out s with ⟨c2, h4⟩ | ⟨e', ⟨c2, c3, c4⟩, h4, h5⟩
        · exact .inl ⟨c1.append (h2 ▸ c2), h4⟩
        · refine .inr ⟨e', ⟨by omega, h2 ▸ c3, ?_⟩, h4, h5⟩
          exact c1.append (h2 ▸ c4)
    · refine .inr ⟨e', c1, rfl, ?_⟩
      refine Nat.le_trans h1 ?_
      rcases m (w.heal t) with ⟨r', s'⟩
      cases r' with
      | ok a => exact (hf a).clock s'
      | error _ => exact Nat.le_refl _

theorem FailFast.get {f : σ → Exec σ (Fail ε) β} (hh : ∀ t, f (w.heal t) = f t) (hf : ∀ t, FailFast w (f t)) : FailFast w (Exec.get >>= f) :=
  ⟨fun t => (hf t).sched t, fun t => (hf t).clock t, fun t => by
    have := (hf t).out t
    rw [Exec.get_bind, Exec.get_bind, hh]
    exact this⟩
end

section
variable {K V E : Type} [DecidableEq K]

/-- A call of the storage that may fail. -/
structure StorageCall {α : Type} (f : Store K V E → Except E α × Store K V E) : Prop where
  sched : ∀ s, (f s).2.sched = s.sched
  clock : ∀ s, (f s).2.clock = s.clock + 1
  calm : ∀ s, s.sched s.clock = none → f { s with sched := fun _ => none } = ((f s).1, { (f s).2 with sched := fun _ => none })
  fault : ∀ s x, s.sched s.clock = some x → (f s).1 = .error x.err

theorem StorageCall.get (k : K) : StorageCall (E := E) (Store.get (V := V) k) := by
  refine ⟨fun s => ?_, fun s => ?_, fun s h => ?_, fun s x h => ?_⟩
  · unfold Store.get; dsimp only; split <;> rfl
  · unfold Store.get; dsimp only; split <;> rfl
  · rw [Store.get_none k h, Store.get_none k rfl]
  · rw [Store.get_fault k h]

theorem StorageCall.insert (k : K) (v : V) : StorageCall (E := E) (Store.insert k v) := by
  refine ⟨fun s => ?_, fun s => ?_, fun s h => ?_, fun s x h => ?_⟩
  · unfold Store.insert; split <;> rfl
  · unfold Store.insert; split <;> rfl
  · rw [Store.insert_none k v h, Store.insert_none k v rfl]
  · rw [Store.insert_fault k v h]
end

/-! ### The binary tree -/
namespace Binary
variable {E : Type} {α : Type}

/-- The storage of a binary tree. -/
def world (E : Type) : World (Tree E) E (Error E) := ⟨fun t => t.storage.sched, fun t => t.storage.clock, Tree.healed, .storageError⟩

theorem onStorage_failFast {f : BStore E → Except E α × BStore E} (h : StorageCall f) : FailFast (world E) (onStorage f) := by
  have es : ∀ t, (onStorage f t).2 = { t with storage := (f t.storage).2 } := by
    intro t; unfold onStorage; rcases f t.storage with ⟨_ | _, _⟩ <;> rfl
  refine ⟨fun t => ?_, fun t => ?_, fun t => ?_⟩
  · rw [es]; exact h.sched _
  · rw [es]; exact Nat.le_trans (Nat.le_succ _) (Nat.le_of_eq (h.clock t.storage).symm)
  · have hc : (world E).clock (onStorage f t).2 = t.storage.clock + 1 := by rw [es]; exact h.clock _
    rw [hc]
    cases hx : t.storage.sched t.storage.clock with
    | none =>
      refine .inl ⟨fun n h1 h2 => ?_, ?_⟩
      · have : n = t.storage.clock := Nat.le_antisymm (Nat.le_of_lt_succ h2) h1
        rw [this]; exact hx
      · have := h.calm _ hx
        unfold onStorage
        rw [show ((world E).heal t).storage = { t.storage with sched := fun _ => none } from rfl, this]
        rcases f t.storage with ⟨_ | _, s⟩ <;> rfl
    | some x =>
      refine .inr ⟨x.err, ⟨Nat.lt_succ_self _, ⟨x.applied, by rw [Nat.add_sub_cancel]; exact hx⟩, by rw [Nat.add_sub_cancel]; exact Calm.nil⟩, ?_, ?_⟩
      · have := h.fault _ x hx
        unfold onStorage
        rcases hf : f t.storage with ⟨r, s⟩
        rw [hf] at this
        subst this
        rfl
      · rw [es]
        exact Nat.le_of_eq (h.clock ((world E).heal t).storage).symm

theorem proveSides_failFast (S : Scratch) (ps : List Position) : FailFast (world E) (proveSides S ps) := by
  induction ps with
  | nil => exact .pure _
  | cons x ps ih =>
    unfold proveSides
    refine (onStorage_failFast (.get _)).bind fun q => ?_
    cases (S x.inOrderIndex).or q with
    | none => exact .throw _
    | some q => exact ih.bind fun _ => .pure _

theorem prove_failFast (p : Profile) (H : HashFn) (i : Nat) : FailFast (world E) (prove p H i) := by
  unfold prove
  refine .get (fun t => rfl) fun t => ?_
  refine (FailFast.lift _).bind fun n => ?_
  split
  · exact .throw _
  · refine (FailFast.lift _).bind fun _ => (FailFast.lift _).bind fun _ => (onStorage_failFast (.get _)).bind fun q => ?_
    cases q with
    | none => exact .throw _
    | some q =>
      exact (FailFast.lift _).bind fun _ => (FailFast.lift _).bind fun _ => (FailFast.lift _).bind fun _ => (proveSides_failFast _ _).bind fun _ => .pure _

theorem buildLoop_failFast (ps : List Position) : ∀ l : List Node, FailFast (world E) (buildLoop ps l) := by
  induction ps with
  | nil => exact fun l => .pure _
  | cons x ps ih =>
    intro l
    unfold buildLoop
    refine (onStorage_failFast (.get _)).bind fun q => ?_
    cases q with
    | none => exact .throw _
    | some q => exact ih _

theorem build_failFast (p : Profile) : FailFast (world E) (build p) := by
  unfold build
  refine .get (fun t => rfl) fun t => ?_
  exact (FailFast.lift _).bind fun n => (buildLoop_failFast _ _).bind fun _ => .modify (fun _ => rfl) (fun _ => rfl) (fun _ => rfl)

theorem joinAllLoop_failFast (p : Profile) (H : HashFn) (rest : List Node) : ∀ n : Node, FailFast (world E) (joinAllLoop p H n rest) := by
  induction rest with
  | nil => exact fun n => .pure _
  | cons x ps ih =>
    intro n
    unfold joinAllLoop
    split
    · refine FailFast.bind (.modify (fun _ => rfl) (fun _ => rfl) (fun _ => rfl)) fun _ => ?_
      refine FailFast.bind (.lift _) fun _ => ?_
      refine FailFast.bind (onStorage_failFast (.insert _ _)) fun _ => ?_
      refine FailFast.bind (.modify (fun _ => rfl) (fun _ => rfl) (fun _ => rfl)) fun _ => ?_
      exact ih _
    · exact .pure _

theorem joinAllSubtrees_failFast (p : Profile) (H : HashFn) : FailFast (world E) (joinAllSubtrees p H) := by
  unfold joinAllSubtrees
  refine .get (fun t => rfl) fun t => ?_
  split
  · exact .throw _
  · exact joinAllLoop_failFast p H _ _

theorem push_failFast (p : Profile) (H : HashFn) (d : Bytes) : FailFast (world E) (push p H d) := by
  unfold push
  refine .get (fun t => rfl) fun t => ?_
  refine FailFast.bind (.lift _) fun n => ?_
  refine FailFast.bind (onStorage_failFast (.insert _ _)) fun _ => ?_
  refine FailFast.bind (.modify (fun _ => rfl) (fun _ => rfl) (fun _ => rfl)) fun _ => ?_
  refine FailFast.bind (joinAllSubtrees_failFast p H) fun _ => .get (fun t => rfl) fun t => ?_
  exact (FailFast.lift _).bind fun n => .modify (fun _ => rfl) (fun _ => rfl) (fun _ => rfl)

end Binary

/-! ### The sum tree -/
namespace Sum
variable {E : Type} {α : Type}

/-- The storage of a sum tree. -/
def world (E : Type) : World (Tree E) E E := ⟨fun t => t.storage.sched, fun t => t.storage.clock, Tree.healed, id⟩

theorem onStorage_failFast {f : SStore E → Except E α × SStore E} (h : StorageCall f) : FailFast (world E) (onStorage f) := by
  have es : ∀ t, (onStorage f t).2 = { t with storage := (f t.storage).2 } := by
    intro t; unfold onStorage; rcases f t.storage with ⟨_ | _, _⟩ <;> rfl
  refine ⟨fun t => ?_, fun t => ?_, fun t => ?_⟩
  · rw [es]; exact h.sched _
  · rw [es]; exact Nat.le_trans (Nat.le_succ _) (Nat.le_of_eq (h.clock t.storage).symm)
  · have hc : (world E).clock (onStorage f t).2 = t.storage.clock + 1 := by rw [es]; exact h.clock _
    rw [hc]
    cases hx : t.storage.sched t.storage.clock with
    | none =>
      refine .inl ⟨fun n h1 h2 => ?_, ?_⟩
      · have : n = t.storage.clock := Nat.le_antisymm (Nat.le_of_lt_succ h2) h1
        rw [this]; exact hx
      · have := h.calm _ hx
        unfold onStorage
        rw [show ((world E).heal t).storage = { t.storage with sched := fun _ => none } from rfl, this]
        rcases f t.storage with ⟨_ | _, s⟩ <;> rfl
    | some x =>
      refine .inr ⟨x.err, ⟨Nat.lt_succ_self _, ⟨x.applied, by rw [Nat.add_sub_cancel]; exact hx⟩, by rw [Nat.add_sub_cancel]; exact Calm.nil⟩, ?_, ?_⟩
      · have := h.fault _ x hx
        unfold onStorage
        rcases hf : f t.storage with ⟨r, s⟩
        rw [hf] at this
        subst this
        rfl
      · rw [es]
        exact Nat.le_of_eq (h.clock ((world E).heal t).storage).symm

theorem joinSubtrees_failFast (p : Profile) (H : HashFn) (l r : Node) : FailFast (world E) (joinSubtrees p H l r) :=
  (FailFast.lift _).bind fun _ => (FailFast.lift _).bind fun _ => (onStorage_failFast (.insert _ _)).bind fun _ => .pure _

theorem rootLoop_failFast (p : Profile) (H : HashFn) (rest : List Node) : ∀ n : Node, FailFast (world E) (rootLoop p H n rest) := by
  induction rest with
  | nil => exact fun n => .pure _
  | cons x ps ih => exact fun n => (joinSubtrees_failFast p H _ _).bind fun _ => ih _

theorem root_failFast (p : Profile) (H : HashFn) : FailFast (world E) (root p H) := by
  unfold root
  refine FailFast.bind ?_ fun r => ?_
  · unfold rootNode
    refine .get (fun t => rfl) fun t => ?_
    split
    · exact .pure _
    · exact (rootLoop_failFast p H _ _).bind fun _ => .pure _
  · cases r <;> exact .pure _

theorem joinAllLoop_failFast (p : Profile) (H : HashFn) (rest : List Node) : ∀ n : Node, FailFast (world E) (joinAllLoop p H n rest) := by
  induction rest with
  | nil => exact fun n => .pure _
  | cons x ps ih =>
    intro n
    unfold joinAllLoop
    split
    · refine FailFast.bind (.modify (fun _ => rfl) (fun _ => rfl) (fun _ => rfl)) fun _ => ?_
      refine FailFast.bind (joinSubtrees_failFast p H _ _) fun _ => ?_
      refine FailFast.bind (.modify (fun _ => rfl) (fun _ => rfl) (fun _ => rfl)) fun _ => ?_
      exact ih _
    · exact .pure _

theorem push_failFast (p : Profile) (H : HashFn) (fee : Nat) (d : Bytes) : FailFast (world E) (push p H fee d) := by
  unfold push
  refine FailFast.bind (onStorage_failFast (.insert _ _)) fun _ => ?_
  refine FailFast.bind (.modify (fun _ => rfl) (fun _ => rfl) (fun _ => rfl)) fun _ => ?_
  unfold joinAllSubtrees
  refine .get (fun t => rfl) fun t => ?_
  split
  · exact .throw _
  · exact joinAllLoop_failFast p H _ _

end Sum
end FuelMerkle
