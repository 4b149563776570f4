import Verif.Spec.Metered
import Verif.Proofs.Counts
import Verif.Proofs.BinaryRun
import Verif.Proofs.SparseAny

/-
The metered model: forgetting the record of hashed messages gives the model back, and how many
messages there are.
-/
namespace FuelMerkle
open Spec

theorem Store.insert_clock' {K V E : Type} [DecidableEq K] (k : K) (v : V) (s : Store K V E) : (Store.insert k v s).2.clock = s.clock + 1 := by
  cases hs : s.sched s.clock with
  | none => rw [Store.insert_none _ _ hs]
  | some f => rw [Store.insert_fault _ _ hs]

section
variable {σ ε α β : Type}

/-- Without the record of messages, `x` is `y`. -/
def Erases (x : Exec (Metered σ) ε α) (y : Exec σ ε α) : Prop :=
  ∀ s, (x s).1 = (y s.inner).1 ∧ (x s).2.inner = (y s.inner).2

theorem Erases.pure (a : α) : Erases (pure a : Exec (Metered σ) ε α) (pure a) := fun _ => ⟨rfl, rfl⟩

theorem Erases.throw (e : ε) : Erases (Exec.throw e : Exec (Metered σ) ε α) (Exec.throw e) := fun _ => ⟨rfl, rfl⟩

theorem Erases.quiet (x : Exec σ ε α) : Erases (quiet x) x := fun _ => ⟨rfl, rfl⟩

theorem Erases.lift (r : Res α) : Erases (Exec.liftRes r : Exec (Metered σ) (Fail ε) α) (Exec.liftRes r) := fun _ => by
  cases r <;> exact ⟨rfl, rfl⟩

theorem Erases.bind {x : Exec (Metered σ) ε α} {y : Exec σ ε α} {f : α → Exec (Metered σ) ε β} {g : α → Exec σ ε β}
    (h : Erases x y) (hf : ∀ a, Erases (f a) (g a)) : Erases (x >>= f) (y >>= g) := by
  intro s
  obtain ⟨h1, h2⟩ := h s
  show (Exec.bind x f s).1 = (Exec.bind y g s.inner).1 ∧ (Exec.bind x f s).2.inner = (Exec.bind y g s.inner).2
  unfold Exec.bind
  rcases hx : x s with ⟨r, s'⟩
  rcases hy : y s.inner with ⟨r', t'⟩
  rw [hx, hy] at h1 h2
  cases h1
  cases h2
  cases r with
  | error e => exact ⟨rfl, rfl⟩
  | ok a => exact hf a s'

theorem Erases.digest (H : HashFn) (m : Bytes) {f : Bytes32 → Exec (Metered σ) ε β} {y : Exec σ ε β} (h : Erases (f (H m)) y) :
    Erases (FuelMerkle.digest H m >>= f) y := fun s => h { s with hashed := s.hashed ++ [m] }

theorem lift_bind (r : Res α) (f : α → Res β) :
    (Exec.liftRes (r >>= f) : Exec σ (Fail ε) β) = (Exec.liftRes r >>= fun a => Exec.liftRes (f a)) := by
  funext s
  cases r <;> rfl

/-- What `x` hashes: at most `n` messages, and exactly `n` when it succeeds. -/
def Exactly (n : Nat) (x : Exec (Metered σ) ε α) : Prop :=
  ∀ s, ∃ new, (x s).2.hashed = s.hashed ++ new ∧ new.length ≤ n ∧ ∀ a, (x s).1 = .ok a → new.length = n

theorem Exactly.quiet (x : Exec σ ε α) : Exactly 0 (FuelMerkle.quiet x) := fun s => ⟨[], by simp [FuelMerkle.quiet], Nat.le_refl _, fun _ _ => rfl⟩

theorem Exactly.pure (a : α) : Exactly 0 (pure a : Exec (Metered σ) ε α) := fun s => ⟨[], by simp [Pure.pure, Exec.pure], Nat.le_refl _, fun _ _ => rfl⟩

theorem Exactly.lift (r : Res α) : Exactly 0 (Exec.liftRes r : Exec (Metered σ) (Fail ε) α) := fun s =>
  ⟨[], by cases r <;> simp [Exec.liftRes], Nat.le_refl _, fun _ _ => rfl⟩

theorem Exactly.throw (n : Nat) (e : ε) : Exactly n (Exec.throw e : Exec (Metered σ) ε α) := fun s =>
  ⟨[], by simp [Exec.throw], Nat.zero_le _, fun a h => by cases h⟩

theorem Exactly.digest (H : HashFn) (m : Bytes) : Exactly 1 (FuelMerkle.digest H m : Exec (Metered σ) ε _) := fun _ =>
  ⟨[m], rfl, Nat.le_refl _, fun _ _ => rfl⟩

theorem Exactly.bind {n m : Nat} {x : Exec (Metered σ) ε α} {f : α → Exec (Metered σ) ε β} (h : Exactly n x)
    (hf : ∀ a, Exactly m (f a)) : Exactly (n + m) (x >>= f) := by
  intro s
  obtain ⟨l, h1, h2, h3⟩ := h s
  show ∃ new, (Exec.bind x f s).2.hashed = _ ∧ _ ∧ ∀ a, (Exec.bind x f s).1 = _ → _
  unfold Exec.bind
  rcases hx : x s with ⟨r, s'⟩
  rw [hx] at h1 h3
  cases r with
  | error e => exact ⟨l, h1, by omega, fun a h => by cases h⟩
  | ok a =>
    obtain ⟨l', e1, e2, e3⟩ := hf a s'
    refine ⟨l ++ l', ?_, ?_, fun b hb => ?_⟩
    · show (f a s').2.hashed = _
      rw [e1, h1, List.append_assoc]
    · rw [List.length_append]
      omega
    · rw [List.length_append, h3 a rfl, e3 b hb]

/-- A bound on the number of messages. -/
def Few (n : Nat) (x : Exec (Metered σ) ε α) : Prop :=
  ∀ s, ∃ new, (x s).2.hashed = s.hashed ++ new ∧ new.length ≤ n

theorem Exactly.few {n : Nat} {x : Exec (Metered σ) ε α} (h : Exactly n x) : Few n x := fun s =>
  have ⟨l, h1, h2, _⟩ := h s; ⟨l, h1, h2⟩

theorem Few.mono {n m : Nat} {x : Exec (Metered σ) ε α} (h : Few n x) (hm : n ≤ m) : Few m x := fun s =>
  have ⟨l, h1, h2⟩ := h s; ⟨l, h1, Nat.le_trans h2 hm⟩

theorem Few.bind_of {n m : Nat} {Q : α → Prop} {x : Exec (Metered σ) ε α} {f : α → Exec (Metered σ) ε β} (h : Few n x)
    (hq : ∀ s a, (x s).1 = .ok a → Q a) (hf : ∀ a, Q a → Few m (f a)) : Few (n + m) (x >>= f) := by
  intro s
  obtain ⟨l, h1, h2⟩ := h s
  show ∃ new, (Exec.bind x f s).2.hashed = _ ∧ _
  unfold Exec.bind
  have hq := hq s
  rcases hx : x s with ⟨r, s'⟩
  rw [hx] at h1 hq
  cases r with
  | error e => exact ⟨l, h1, by omega⟩
  | ok a =>
    obtain ⟨l', e1, e2⟩ := hf a (hq a rfl) s'
    refine ⟨l ++ l', ?_, ?_⟩
    · show (f a s').2.hashed = _
      rw [e1, h1, List.append_assoc]
    · rw [List.length_append]
      omega

theorem Few.bind {n m : Nat} {x : Exec (Metered σ) ε α} {f : α → Exec (Metered σ) ε β} (h : Few n x)
    (hf : ∀ a, Few m (f a)) : Few (n + m) (x >>= f) :=
  Few.bind_of (Q := fun _ => True) h (fun _ _ _ => trivial) fun a _ => hf a

end

section
variable {σ ε α β : Type}

/-- Messages against storage calls: `i` messages were hashed before that no call has followed yet,
and `o` such messages are left when `x` succeeds. Nothing is said when `x` panics. -/
def Paid (calls : σ → Nat) (i o : Nat) (x : Exec (Metered σ) (Fail ε) α) : Prop :=
  ∀ s, ∃ new, (x s).2.hashed = s.hashed ++ new ∧
    (∀ a, (x s).1 = .ok a → new.length + i + calls s.inner = calls (x s).2.inner + o) ∧
    (∀ e, (x s).1 = .error (.err e) → new.length + i + calls s.inner = calls (x s).2.inner)

variable {calls : σ → Nat}

theorem Paid.pure (i : Nat) (a : α) : Paid calls i i (pure a : Exec (Metered σ) (Fail ε) α) := fun s =>
  ⟨[], (List.append_nil _).symm, fun _ _ => by show 0 + i + calls s.inner = calls s.inner + i; omega, fun e h => by cases h⟩

theorem Paid.lift (i : Nat) (r : Res α) : Paid calls i i (Exec.liftRes r : Exec (Metered σ) (Fail ε) α) := fun s => by
  cases r with
  | ok a => exact Paid.pure i a s
  | error e => exact ⟨[], (List.append_nil _).symm, (fun _ h => by cases h), fun _ h => by cases h⟩

theorem Paid.panic (i o : Nat) (p : Panic) : Paid calls i o (Exec.throw (.panic p) : Exec (Metered σ) (Fail ε) α) := fun _ =>
  ⟨[], (List.append_nil _).symm, (fun _ h => by cases h), fun _ h => by cases h⟩

theorem Paid.digest (i : Nat) (H : HashFn) (m : Bytes) : Paid calls i (i + 1) (FuelMerkle.digest H m : Exec (Metered σ) (Fail ε) _) := fun s =>
  ⟨[m], rfl, fun _ _ => by show 1 + i + calls s.inner = calls s.inner + (i + 1); omega, fun e h => by cases h⟩

/-- A part without a storage call. -/
theorem Paid.modify (i : Nat) (f : σ → σ) (h : ∀ t, calls (f t) = calls t) :
    Paid calls i i (quiet (Exec.modify f) : Exec (Metered σ) (Fail ε) _) := fun s =>
  ⟨[], (List.append_nil _).symm, fun _ _ => by show 0 + i + calls s.inner = calls (f s.inner) + i; rw [h]; omega, fun e h => by cases h⟩

theorem Paid.get (i : Nat) : Paid calls i i (quiet Exec.get : Exec (Metered σ) (Fail ε) _) := fun s =>
  ⟨[], (List.append_nil _).symm, fun _ _ => by show 0 + i + calls s.inner = calls s.inner + i; omega, fun e h => by cases h⟩

/-- One storage call. -/
theorem Paid.call (x : Exec σ (Fail ε) α) (h : ∀ t, calls (x t).2 = calls t + 1) : Paid calls 1 0 (quiet x) := fun s =>
  ⟨[], (List.append_nil _).symm, fun _ _ => by show 0 + 1 + calls s.inner = calls (x s.inner).2 + 0; rw [h]; omega,
    fun _ _ => by show 0 + 1 + calls s.inner = calls (x s.inner).2; rw [h]; omega⟩

theorem Paid.bind {i m o : Nat} {x : Exec (Metered σ) (Fail ε) α} {f : α → Exec (Metered σ) (Fail ε) β} (h : Paid calls i m x)
    (hf : ∀ a, Paid calls m o (f a)) : Paid calls i o (x >>= f) := by
  intro s
  obtain ⟨l, h1, h2, h3⟩ := h s
  show ∃ new, (Exec.bind x f s).2.hashed = _ ∧ (∀ a, (Exec.bind x f s).1 = _ → _ = calls (Exec.bind x f s).2.inner + _) ∧
    ∀ e, (Exec.bind x f s).1 = _ → _ = calls (Exec.bind x f s).2.inner
  unfold Exec.bind
  rcases hx : x s with ⟨r, s'⟩
  rw [hx] at h1 h2 h3
  cases r with
  | error e => exact ⟨l, h1, (fun a h => by cases h), fun e' h => by cases h; exact h3 e' rfl⟩
  | ok a =>
    obtain ⟨l', e1, e2, e3⟩ := hf a s'
    have h2 := h2 a rfl
    refine ⟨l ++ l', ?_, fun b hb => ?_, fun e he => ?_⟩
    · show (f a s').2.hashed = _
      rw [e1, h1, List.append_assoc]
    · have := e2 b hb
      simp only [List.length_append] at h2 this ⊢
      omega
    · have := e3 e he
      simp only [List.length_append] at h2 this ⊢
      omega

/-- As `Paid`, with at most three messages to a storage call, and also when `x` panics. -/
def Within (calls : σ → Nat) (i o : Nat) (x : Exec (Metered σ) (Fail ε) α) : Prop :=
  ∀ s, ∃ new, (x s).2.hashed = s.hashed ++ new ∧
    (∀ a, (x s).1 = .ok a → new.length + i + 3 * calls s.inner ≤ 3 * calls (x s).2.inner + o) ∧
    (∀ e, (x s).1 = .error e → new.length + i + 3 * calls s.inner ≤ 3 * calls (x s).2.inner)

theorem Within.pure (i : Nat) (a : α) : Within calls i i (pure a : Exec (Metered σ) (Fail ε) α) := fun s =>
  ⟨[], (List.append_nil _).symm, fun _ _ => by show 0 + i + 3 * calls s.inner ≤ 3 * calls s.inner + i; omega, fun e h => by cases h⟩

theorem Within.mono {i j o q : Nat} {x : Exec (Metered σ) (Fail ε) α} (h : Within calls i o x) (hi : j ≤ i) (ho : o ≤ q) : Within calls j q x := fun s =>
  have ⟨l, h1, h2, h3⟩ := h s
  ⟨l, h1, fun a ha => by have := h2 a ha; omega, fun e he => by have := h3 e he; omega⟩

theorem Within.throw (o : Nat) (e : Fail ε) : Within calls 0 o (Exec.throw e : Exec (Metered σ) (Fail ε) α) := fun s =>
  ⟨[], (List.append_nil _).symm, fun _ h => (by cases h), fun _ _ => by show 0 + 0 + 3 * calls s.inner ≤ 3 * calls s.inner; omega⟩

theorem Within.lift (r : Res α) : Within calls 0 0 (Exec.liftRes r : Exec (Metered σ) (Fail ε) α) := fun s => by
  cases r with
  | ok a => exact Within.pure 0 a s
  | error e => exact Within.throw 0 (.panic e) s

theorem Within.digest (i : Nat) (H : HashFn) (m : Bytes) : Within calls i (i + 1) (FuelMerkle.digest H m : Exec (Metered σ) (Fail ε) _) := fun s =>
  ⟨[m], rfl, fun _ _ => by show 1 + i + 3 * calls s.inner ≤ 3 * calls s.inner + (i + 1); omega, fun e h => by cases h⟩

/-- A part that does not un-count calls. -/
theorem Within.quiet (x : Exec σ (Fail ε) α) (h : ∀ t, calls t ≤ calls (x t).2) : Within calls 0 0 (FuelMerkle.quiet x) := fun s =>
  ⟨[], (List.append_nil _).symm, fun _ _ => by have := h s.inner; show 0 + 0 + 3 * calls s.inner ≤ 3 * calls (x s.inner).2 + 0; omega,
    fun _ _ => by have := h s.inner; show 0 + 0 + 3 * calls s.inner ≤ 3 * calls (x s.inner).2; omega⟩

theorem Within.get (i : Nat) : Within calls i i (FuelMerkle.quiet Exec.get : Exec (Metered σ) (Fail ε) _) := fun s =>
  ⟨[], (List.append_nil _).symm, fun _ _ => by show 0 + i + 3 * calls s.inner ≤ 3 * calls s.inner + i; omega, fun e h => by cases h⟩

theorem Within.call {i : Nat} (hi : i ≤ 3) (x : Exec σ (Fail ε) α) (h : ∀ t, calls (x t).2 = calls t + 1) : Within calls i 0 (FuelMerkle.quiet x) := fun s =>
  ⟨[], (List.append_nil _).symm, fun _ _ => by have := h s.inner; show 0 + i + 3 * calls s.inner ≤ 3 * calls (x s.inner).2 + 0; omega,
    fun _ _ => by have := h s.inner; show 0 + i + 3 * calls s.inner ≤ 3 * calls (x s.inner).2; omega⟩

theorem Within.bind {i m o : Nat} {x : Exec (Metered σ) (Fail ε) α} {f : α → Exec (Metered σ) (Fail ε) β} (h : Within calls i m x)
    (hf : ∀ a, Within calls m o (f a)) : Within calls i o (x >>= f) := by
  intro s
  obtain ⟨l, h1, h2, h3⟩ := h s
  show ∃ new, (Exec.bind x f s).2.hashed = _ ∧ (∀ a, (Exec.bind x f s).1 = _ → _ ≤ 3 * calls (Exec.bind x f s).2.inner + _) ∧
    ∀ e, (Exec.bind x f s).1 = _ → _ ≤ 3 * calls (Exec.bind x f s).2.inner
  unfold Exec.bind
  rcases hx : x s with ⟨r, s'⟩
  rw [hx] at h1 h2 h3
  cases r with
  | error e => exact ⟨l, h1, (fun a h => by cases h), fun e' h => by cases h; exact h3 _ rfl⟩
  | ok a =>
    obtain ⟨l', e1, e2, e3⟩ := hf a s'
    have h2 := h2 a rfl
    refine ⟨l ++ l', ?_, fun b hb => ?_, fun e he => ?_⟩
    · show (f a s').2.hashed = _
      rw [e1, h1, List.append_assoc]
    · have := e2 b hb
      simp only [List.length_append] at h2 this ⊢
      omega
    · have := e3 e he
      simp only [List.length_append] at h2 this ⊢
      omega

end

section
variable {σ ε α β : Type}

/-- `x` with the hash function `H` does what `y` does with `H'`, if the two agree on the messages
that `x` hashes; and these are all in `P`. -/
def Needs (P : Bytes → Prop) (H H' : HashFn) (x y : Exec (Metered σ) ε α) : Prop :=
  ∀ s, ∃ new, (x s).2.hashed = s.hashed ++ new ∧ (∀ m ∈ new, P m) ∧ ((∀ m ∈ new, H m = H' m) → x s = y s)

variable {P : Bytes → Prop} {H H' : HashFn}

theorem Needs.nil {x y : Exec (Metered σ) ε α} {s : Metered σ} (h : (x s).2.hashed = s.hashed) (e : x s = y s) :
    ∃ new, (x s).2.hashed = s.hashed ++ new ∧ (∀ m ∈ new, P m) ∧ ((∀ m ∈ new, H m = H' m) → x s = y s) :=
  ⟨[], by rw [h, List.append_nil], fun _ h => (by cases h), fun _ => e⟩

theorem Needs.pure (a : α) : Needs P H H' (pure a : Exec (Metered σ) ε α) (pure a) := fun _ => Needs.nil rfl rfl

theorem Needs.throw (e : ε) : Needs P H H' (Exec.throw e : Exec (Metered σ) ε α) (Exec.throw e) := fun _ => Needs.nil rfl rfl

theorem Needs.quiet (x : Exec σ ε α) : Needs P H H' (quiet x) (quiet x) := fun _ => Needs.nil rfl rfl

theorem Needs.lift (r : Res α) : Needs P H H' (Exec.liftRes r : Exec (Metered σ) (Fail ε) α) (Exec.liftRes r) := fun _ =>
  Needs.nil (by cases r <;> rfl) rfl

theorem Needs.digest {m : Bytes} (h : P m) : Needs P H H' (FuelMerkle.digest H m : Exec (Metered σ) ε _) (FuelMerkle.digest H' m) := fun _ =>
  ⟨[m], rfl, fun x hx => (by cases List.mem_singleton.1 hx; exact h), fun h => by unfold FuelMerkle.digest; rw [h m List.mem_cons_self]⟩

theorem Needs.bind {x y : Exec (Metered σ) ε α} {f g : α → Exec (Metered σ) ε β} (h : Needs P H H' x y)
    (hf : ∀ a, Needs P H H' (f a) (g a)) : Needs P H H' (x >>= f) (y >>= g) := by
  intro s
  obtain ⟨l, h1, hp, h2⟩ := h s
  show ∃ new, (Exec.bind x f s).2.hashed = _ ∧ _ ∧ (_ → Exec.bind x f s = Exec.bind y g s)
  unfold Exec.bind
  rcases hx : x s with ⟨r, s'⟩
  rw [hx] at h1 h2
  cases r with
  | error e => exact ⟨l, h1, hp, fun h => by rw [← h2 h]⟩
  | ok a =>
    obtain ⟨l', e1, hp', e2⟩ := hf a s'
    refine ⟨l ++ l', ?_, fun m hm => (List.mem_append.1 hm).elim (hp m) (hp' m), fun h => ?_⟩
    · show (f a s').2.hashed = _
      rw [e1, h1, List.append_assoc]
    · rw [← h2 fun m hm => h m (List.mem_append_left _ hm)]
      exact e2 fun m hm => h m (List.mem_append_right _ hm)

theorem Needs.mono {Q : Bytes → Prop} {x y : Exec (Metered σ) ε α} (h : Needs P H H' x y) (hq : ∀ m, P m → Q m) : Needs Q H H' x y := fun s =>
  have ⟨l, h1, hp, h2⟩ := h s; ⟨l, h1, fun m hm => hq m (hp m hm), h2⟩

end

/-! ### The binary tree -/

namespace Binary.Metered
variable {E : Type}

theorem createLeaf_erases (p : Profile) (H : HashFn) (i : Nat) (d : Bytes) :
    Erases (createLeaf p H i d : TreeM E Node) (Exec.liftRes (Node.createLeaf p H i d)) := by
  unfold createLeaf Node.createLeaf
  rw [lift_bind]
  exact .bind (.lift _) fun q => .digest _ _ (.pure _)

theorem joinNodes_erases (p : Profile) (H : HashFn) (a b : Node) :
    Erases (joinNodes p H a b : TreeM E Node) (Exec.liftRes (Binary.joinNodes p H a b)) := by
  unfold joinNodes createNode Binary.joinNodes Node.createNode
  rw [lift_bind]
  exact .bind (.lift _) fun q => .digest _ _ (.pure _)

theorem buildRoot_erases (p : Profile) (H : HashFn) : ∀ (rest : List Node) (c : Node) (sc : Scratch),
    Erases (buildRootNode p H c rest sc : TreeM E _) (Exec.liftRes (Binary.buildRootNode p H c rest sc)) := by
  intro rest
  induction rest with
  | nil => intro c sc; exact .pure _
  | cons x rest ih =>
    intro c sc
    unfold buildRootNode Binary.buildRootNode
    rw [lift_bind]
    exact .bind (joinNodes_erases p H x c) fun j => ih j _

theorem rootNode_erases (p : Profile) (H : HashFn) (hd : List Node) (sc : Scratch) :
    Erases (rootNode p H hd sc : TreeM E _) (Exec.liftRes (Binary.rootNode p H hd sc)) := by
  unfold rootNode Binary.rootNode
  cases hd with
  | nil => exact .pure _
  | cons x rest =>
    simp only
    rw [lift_bind]
    exact .bind (buildRoot_erases p H rest x sc) fun _ => .pure _

theorem root_erases (p : Profile) (H : HashFn) :
    Erases (root p H : TreeM E Bytes32) (fun t => (Exec.liftRes (t.root p H) : Binary.TreeM E _) t) := by
  have h : (fun t => (Exec.liftRes (t.root p H) : Binary.TreeM E _) t) =
      (Exec.get >>= fun t : Tree E => (Exec.liftRes (t.root p H) : Binary.TreeM E _)) := rfl
  rw [h]
  unfold root
  refine .bind (.quiet _) fun t => ?_
  unfold Tree.root
  rw [lift_bind]
  exact .bind (rootNode_erases p H t.head _) fun _ => .pure _

theorem prove_erases (p : Profile) (H : HashFn) (i : Nat) : Erases (prove p H i : TreeM E _) (Binary.prove p H i) := by
  unfold prove Binary.prove
  refine .bind (.quiet _) fun t => .bind (.lift _) fun n => ?_
  split
  · exact .throw _
  · refine .bind (.lift _) fun q => .bind (.lift _) fun q' => .bind (.quiet _) fun o => ?_
    cases o with
    | none => exact .throw _
    | some q2 =>
      refine .bind (.lift _) fun l => .bind (rootNode_erases p H t.head _) fun x => .bind (.lift _) fun r => .bind (.quiet _) fun sd => .pure _

theorem joinAllLoop_erases (p : Profile) (H : HashFn) : ∀ (rest : List Node) (c : Node),
    Erases (joinAllLoop p H c rest : TreeM E _) (Binary.joinAllLoop p H c rest) := by
  intro rest
  induction rest with
  | nil => intro c; exact .pure _
  | cons x rest ih =>
    intro c
    unfold joinAllLoop Binary.joinAllLoop
    split
    · exact .bind (.quiet _) fun _ => .bind (joinNodes_erases p H x c) fun j => .bind (.quiet _) fun _ => .bind (.quiet _) fun _ => ih j
    · exact .pure _

theorem push_erases (p : Profile) (H : HashFn) (d : Bytes) : Erases (push p H d : TreeM E _) (Binary.push p H d) := by
  unfold push Binary.push
  refine .bind (.quiet _) fun t => .bind (createLeaf_erases p H _ d) fun n => .bind (.quiet _) fun _ => .bind (.quiet _) fun _ =>
    .bind ?_ fun _ => .bind (.quiet _) fun t => .bind (.lift _) fun n => .quiet _
  unfold joinAllSubtrees Binary.joinAllSubtrees
  refine .bind (.quiet _) fun t => ?_
  cases t.head with
  | nil => exact .throw _
  | cons c rest => exact joinAllLoop_erases p H rest c

theorem joinNodes_exactly (p : Profile) (H : HashFn) (a b : Node) : Exactly 1 (joinNodes p H a b : TreeM E Node) :=
  .bind (n := 0) (m := 1) (.lift _) fun _ => .bind (n := 1) (m := 0) (.digest _ _) fun _ => .pure _

theorem buildRoot_exactly (p : Profile) (H : HashFn) : ∀ (rest : List Node) (c : Node) (sc : Scratch),
    Exactly rest.length (buildRootNode p H c rest sc : TreeM E _) := by
  intro rest
  induction rest with
  | nil => intro c sc; exact .pure _
  | cons x rest ih =>
    intro c sc
    unfold buildRootNode
    rw [List.length_cons, Nat.add_comm]
    exact .bind (joinNodes_exactly p H x c) fun j => ih j _

theorem rootNode_exactly (p : Profile) (H : HashFn) (hd : List Node) (sc : Scratch) :
    Exactly (hd.length - 1) (rootNode p H hd sc : TreeM E _) := by
  unfold rootNode
  cases hd with
  | nil => exact .pure _
  | cons x rest =>
    simp only [List.length_cons, Nat.add_sub_cancel]
    exact .bind (m := 0) (buildRoot_exactly p H rest x sc) fun _ => .pure _

theorem root_hashed (p : Profile) (H : HashFn) (s : FuelMerkle.Metered (Tree E)) :
    ∃ new, (root p H s).2.hashed = s.hashed ++ new ∧ new.length ≤ s.inner.head.length - 1 ∧
      ∀ r, (root p H s).1 = .ok r → new.length = s.inner.head.length - 1 :=
  Exactly.bind (m := 0) (rootNode_exactly p H s.inner.head _) (fun _ => .pure _) s

theorem prove_hashed (p : Profile) (H : HashFn) (i : Nat) (s : FuelMerkle.Metered (Tree E)) :
    ∃ new, (prove p H i s).2.hashed = s.hashed ++ new ∧ new.length ≤ s.inner.head.length - 1 ∧
      ∀ r, (prove p H i s).1 = .ok r → new.length = s.inner.head.length - 1 := by
  have h : ∀ t : Tree E, Exactly (t.head.length - 1) (do
      let next ← Exec.liftRes (u64Add p i 1)
      if next > t.leavesCount then
        Exec.throw (.err (.invalidProofIndex i))
      else do
        let rootPosition ← Exec.liftRes (rootPosition p t.leavesCount)
        let leafPosition ← Exec.liftRes (Position.fromLeafIndex p i)
        match ← quiet (onStorage (Store.get leafPosition.inOrderIndex)) with
        | none => Exec.throw (.err (.loadError i))
        | some primitive => do
          let leafNode := Node.ofPrim primitive
          let items ← Exec.liftRes (rootPosition.pathList p leafPosition t.leavesCount)
          let sidePositions := (items.map Prod.snd).reverse.dropLast
          let (rootNode, scratch) ← rootNode p H t.head (fun _ => none)
          let rootNode ← Exec.liftRes (runwrap rootNode)
          let sides ← quiet (proveSides scratch sidePositions)
          return (rootNode.hash, leafNode.hash :: sides) : TreeM E (Bytes32 × List Bytes32)) := by
    intro t
    rw [← Nat.zero_add (t.head.length - 1)]
    refine .bind (.lift _) fun n => ?_
    split
    · exact .throw _ _
    · rw [← Nat.zero_add (t.head.length - 1)]
      refine .bind (.lift _) fun q => ?_
      rw [← Nat.zero_add (t.head.length - 1)]
      refine .bind (.lift _) fun q' => ?_
      rw [← Nat.zero_add (t.head.length - 1)]
      refine .bind (.quiet _) fun o => ?_
      cases o with
      | none => exact .throw _ _
      | some q2 =>
        rw [← Nat.zero_add (t.head.length - 1)]
        refine .bind (.lift _) fun l => ?_
        exact .bind (m := 0) (rootNode_exactly p H t.head _) fun x => .bind (n := 0) (m := 0) (.lift _) fun r =>
          .bind (n := 0) (m := 0) (.quiet _) fun sd => .pure _
  exact h s.inner s

theorem insert_calls (k : Nat) (v : Prim) (t : Tree E) :
    ((onStorage (Store.insert k v) : Binary.TreeM E _) t).2.storage.clock = t.storage.clock + 1 := by
  unfold onStorage
  have := Store.insert_clock' k v t.storage
  split <;> rename_i h <;> simp only [h] at this <;> exact this

theorem joinAllLoop_paid (p : Profile) (H : HashFn) : ∀ (rest : List Node) (c : Node),
    Paid (fun t : Tree E => t.storage.clock) 0 0 (joinAllLoop p H c rest : TreeM E _) := by
  intro rest
  induction rest with
  | nil => intro c; exact .pure 0 _
  | cons x rest ih =>
    intro c
    unfold joinAllLoop
    split
    · refine .bind (m := 0) (.modify 0 _ fun _ => rfl) fun _ => .bind (m := 1) (.bind (m := 0) (.lift 0 _) fun _ => .bind (m := 1) (.digest 0 _ _) fun _ => .pure 1 _)
        fun j => .bind (m := 0) (.call _ (insert_calls _ _)) fun _ => .bind (m := 0) (.modify 0 _ fun _ => rfl) fun _ => ih j
    · exact .pure 0 _

theorem push_paid (p : Profile) (H : HashFn) (d : Bytes) : Paid (fun t : Tree E => t.storage.clock) 0 0 (push p H d : TreeM E _) := by
  unfold push
  refine .bind (m := 0) (.get 0) fun t => .bind (m := 1) (.bind (m := 0) (.lift 0 _) fun _ => .bind (m := 1) (.digest 0 _ _) fun _ => .pure 1 _)
    fun n => .bind (m := 0) (.call _ (insert_calls _ _)) fun _ => .bind (m := 0) (.modify 0 _ fun _ => rfl) fun _ =>
    .bind (m := 0) ?_ fun _ => .bind (m := 0) (.get 0) fun t => .bind (m := 0) (.lift 0 _) fun n => .modify 0 _ fun _ => rfl
  unfold joinAllSubtrees
  refine .bind (m := 0) (.get 0) fun t => ?_
  cases t.head with
  | nil => exact .panic 0 0 _
  | cons c rest => exact joinAllLoop_paid p H rest c

theorem joinNodes_needs (p : Profile) (H H' : HashFn) (a b : Node) : Needs (Pair 1) H H' (joinNodes p H a b : TreeM E Node) (joinNodes p H' a b) :=
  .bind (.lift _) fun _ => .bind (.digest ⟨a.hash, b.hash, by simp [Prefix.bytes]⟩) fun _ => .pure _

theorem buildRoot_needs (p : Profile) (H H' : HashFn) : ∀ (rest : List Node) (c : Node) (sc : Scratch),
    Needs (Pair 1) H H' (buildRootNode p H c rest sc : TreeM E _) (buildRootNode p H' c rest sc) := by
  intro rest
  induction rest with
  | nil => intro c sc; exact .pure _
  | cons x rest ih =>
    intro c sc
    unfold buildRootNode
    exact .bind (joinNodes_needs p H H' x c) fun j => ih j _

theorem rootNode_needs (p : Profile) (H H' : HashFn) (hd : List Node) (sc : Scratch) :
    Needs (Pair 1) H H' (rootNode p H hd sc : TreeM E _) (rootNode p H' hd sc) := by
  unfold rootNode
  cases hd with
  | nil => exact .pure _
  | cons x rest => exact .bind (buildRoot_needs p H H' rest x sc) fun _ => .pure _

theorem root_needs (p : Profile) (H H' : HashFn) : Needs (Pair 1) H H' (root p H : TreeM E _) (root p H') :=
  .bind (.quiet _) fun t => .bind (rootNode_needs p H H' t.head _) fun _ => .pure _

theorem prove_needs (p : Profile) (H H' : HashFn) (i : Nat) : Needs (Pair 1) H H' (prove p H i : TreeM E _) (prove p H' i) := by
  unfold prove
  refine .bind (.quiet _) fun t => .bind (.lift _) fun n => ?_
  split
  · exact .throw _
  · refine .bind (.lift _) fun q => .bind (.lift _) fun q' => .bind (.quiet _) fun o => ?_
    cases o with
    | none => exact .throw _
    | some q2 =>
      exact .bind (.lift _) fun l => .bind (rootNode_needs p H H' t.head _) fun x => .bind (.lift _) fun r => .bind (.quiet _) fun sd => .pure _

theorem joinAllLoop_needs (p : Profile) (H H' : HashFn) : ∀ (rest : List Node) (c : Node),
    Needs (Pair 1) H H' (joinAllLoop p H c rest : TreeM E _) (joinAllLoop p H' c rest) := by
  intro rest
  induction rest with
  | nil => intro c; exact .pure _
  | cons x rest ih =>
    intro c
    unfold joinAllLoop
    split
    · exact .bind (.quiet _) fun _ => .bind (joinNodes_needs p H H' x c) fun j => .bind (.quiet _) fun _ => .bind (.quiet _) fun _ => ih j
    · exact .pure _

theorem push_needs (p : Profile) (H H' : HashFn) (d : Bytes) : Needs (fun m => m = 0 :: d ∨ Pair 1 m) H H' (push p H d : TreeM E _) (push p H' d) := by
  unfold push
  refine .bind (.quiet _) fun t => .bind (.bind (.lift _) fun _ => .bind (.digest (.inl rfl)) fun _ => .pure _) fun n => .bind (.quiet _) fun _ =>
    .bind (.quiet _) fun _ => .bind ?_ fun _ => .bind (.quiet _) fun t => .bind (.lift _) fun n => .quiet _
  unfold joinAllSubtrees
  refine .bind (.quiet _) fun t => ?_
  cases t.head with
  | nil => exact .throw _
  | cons c rest => exact (joinAllLoop_needs p H H' rest c).mono fun _ => .inr

end Binary.Metered

/-! ### The sum tree -/

namespace Sum.Metered
variable {E : Type}

theorem joinSubtrees_erases (p : Profile) (H : HashFn) (a b : Node) :
    Erases (joinSubtrees p H a b : TreeM E Node) (Sum.joinSubtrees p H a b) := by
  unfold joinSubtrees Sum.joinSubtrees
  refine .bind (.lift _) fun h => .bind ?_ fun j => .bind (.quiet _) fun _ => .pure _
  unfold createNode Node.createNode
  refine .digest _ _ ?_
  simp only [lift_bind]
  exact .bind (.lift _) fun f => .pure _

theorem rootLoop_erases (p : Profile) (H : HashFn) : ∀ (rest : List Node) (c : Node),
    Erases (rootLoop p H c rest : TreeM E _) (Sum.rootLoop p H c rest) := by
  intro rest
  induction rest with
  | nil => intro c; exact .pure _
  | cons x rest ih =>
    intro c
    unfold rootLoop Sum.rootLoop
    exact .bind (joinSubtrees_erases p H x c) fun j => ih j

theorem root_erases (p : Profile) (H : HashFn) : Erases (root p H : TreeM E _) (Sum.root p H) := by
  unfold root Sum.root
  refine .bind ?_ fun o => by cases o <;> exact .pure _
  unfold rootNode Sum.rootNode
  refine .bind (.quiet _) fun t => ?_
  cases t.head with
  | nil => exact .pure _
  | cons c rest => exact .bind (rootLoop_erases p H rest c) fun _ => .pure _

theorem joinAllLoop_erases (p : Profile) (H : HashFn) : ∀ (rest : List Node) (c : Node),
    Erases (joinAllLoop p H c rest : TreeM E _) (Sum.joinAllLoop p H c rest) := by
  intro rest
  induction rest with
  | nil => intro c; exact .pure _
  | cons x rest ih =>
    intro c
    unfold joinAllLoop Sum.joinAllLoop
    split
    · exact .bind (.quiet _) fun _ => .bind (joinSubtrees_erases p H x c) fun j => .bind (.quiet _) fun _ => ih j
    · exact .pure _

theorem push_erases (p : Profile) (H : HashFn) (fee : Nat) (d : Bytes) : Erases (push p H fee d : TreeM E _) (Sum.push p H fee d) := by
  unfold push Sum.push createLeaf
  have h : ∀ n : Node, Erases (do
      let _ ← quiet (onStorage (Store.insert n.hash n))
      quiet (Exec.modify fun t => { t with head := n :: t.head })
      joinAllSubtrees p H : TreeM E Unit) (do
      let _ ← onStorage (Store.insert n.hash n)
      Exec.modify fun t => { t with head := n :: t.head }
      Sum.joinAllSubtrees p H) := by
    intro n
    refine .bind (.quiet _) fun _ => .bind (.quiet _) fun _ => ?_
    unfold joinAllSubtrees Sum.joinAllSubtrees
    refine .bind (.quiet _) fun t => ?_
    cases t.head with
    | nil => exact .throw _
    | cons c rest => exact joinAllLoop_erases p H rest c
  intro s
  exact h (Node.createLeaf H fee d) { s with hashed := s.hashed ++ [Prefix.leaf.bytes ++ u64ToBeBytes fee ++ d] }

theorem insert_calls (k : Bytes32) (v : Node) (t : Tree E) :
    ((onStorage (Store.insert k v) : Sum.TreeM E _) t).2.storage.clock = t.storage.clock + 1 := by
  unfold onStorage
  have := Store.insert_clock' k v t.storage
  split <;> rename_i h <;> simp only [h] at this <;> exact this

theorem joinSubtrees_paid (p : Profile) (H : HashFn) (a b : Node) :
    Paid (fun t : Tree E => t.storage.clock) 0 0 (joinSubtrees p H a b : TreeM E Node) :=
  .bind (m := 0) (.lift 0 _) fun _ => .bind (m := 1) (.bind (m := 1) (.digest 0 _ _) fun _ => .bind (m := 1) (.lift 1 _) fun _ => .pure 1 _)
    fun _ => .bind (m := 0) (.call _ (insert_calls _ _)) fun _ => .pure 0 _

theorem rootLoop_paid (p : Profile) (H : HashFn) : ∀ (rest : List Node) (c : Node),
    Paid (fun t : Tree E => t.storage.clock) 0 0 (rootLoop p H c rest : TreeM E _) := by
  intro rest
  induction rest with
  | nil => intro c; exact .pure 0 _
  | cons x rest ih => intro c; exact .bind (m := 0) (joinSubtrees_paid p H x c) fun j => ih j

theorem root_paid (p : Profile) (H : HashFn) : Paid (fun t : Tree E => t.storage.clock) 0 0 (root p H : TreeM E _) := by
  unfold root
  refine .bind (m := 0) ?_ fun o => by cases o <;> exact .pure 0 _
  unfold rootNode
  refine .bind (m := 0) (.get 0) fun t => ?_
  cases t.head with
  | nil => exact .pure 0 _
  | cons c rest => exact .bind (m := 0) (rootLoop_paid p H rest c) fun _ => .pure 0 _

theorem joinAllLoop_paid (p : Profile) (H : HashFn) : ∀ (rest : List Node) (c : Node),
    Paid (fun t : Tree E => t.storage.clock) 0 0 (joinAllLoop p H c rest : TreeM E _) := by
  intro rest
  induction rest with
  | nil => intro c; exact .pure 0 _
  | cons x rest ih =>
    intro c
    unfold joinAllLoop
    split
    · exact .bind (m := 0) (.modify 0 _ fun _ => rfl) fun _ => .bind (m := 0) (joinSubtrees_paid p H x c) fun j =>
        .bind (m := 0) (.modify 0 _ fun _ => rfl) fun _ => ih j
    · exact .pure 0 _

theorem push_paid (p : Profile) (H : HashFn) (fee : Nat) (d : Bytes) :
    Paid (fun t : Tree E => t.storage.clock) 0 0 (push p H fee d : TreeM E _) := by
  unfold push
  refine .bind (m := 1) (.bind (m := 1) (.digest 0 _ _) fun _ => .pure 1 _) fun n => .bind (m := 0) (.call _ (insert_calls _ _)) fun _ =>
    .bind (m := 0) (.modify 0 _ fun _ => rfl) fun _ => ?_
  unfold joinAllSubtrees
  refine .bind (m := 0) (.get 0) fun t => ?_
  cases t.head with
  | nil => exact .panic 0 0 _
  | cons c rest => exact joinAllLoop_paid p H rest c

theorem joinSubtrees_needs (p : Profile) (H H' : HashFn) (a b : Node) :
    Needs FeePair H H' (joinSubtrees p H a b : TreeM E Node) (joinSubtrees p H' a b) :=
  .bind (.lift _) fun _ => .bind (.bind (.digest ⟨a.fee, b.fee, a.hash, b.hash, by simp [Prefix.bytes]⟩) fun _ => .bind (.lift _) fun _ => .pure _) fun _ => .bind (.quiet _) fun _ => .pure _

theorem rootLoop_needs (p : Profile) (H H' : HashFn) : ∀ (rest : List Node) (c : Node),
    Needs FeePair H H' (rootLoop p H c rest : TreeM E _) (rootLoop p H' c rest) := by
  intro rest
  induction rest with
  | nil => intro c; exact .pure _
  | cons x rest ih => intro c; exact .bind (joinSubtrees_needs p H H' x c) fun j => ih j

theorem root_needs (p : Profile) (H H' : HashFn) : Needs FeePair H H' (root p H : TreeM E _) (root p H') := by
  unfold root
  refine .bind ?_ fun o => by cases o <;> exact .pure _
  unfold rootNode
  refine .bind (.quiet _) fun t => ?_
  cases t.head with
  | nil => exact .pure _
  | cons c rest => exact .bind (rootLoop_needs p H H' rest c) fun _ => .pure _

theorem joinAllLoop_needs (p : Profile) (H H' : HashFn) : ∀ (rest : List Node) (c : Node),
    Needs FeePair H H' (joinAllLoop p H c rest : TreeM E _) (joinAllLoop p H' c rest) := by
  intro rest
  induction rest with
  | nil => intro c; exact .pure _
  | cons x rest ih =>
    intro c
    unfold joinAllLoop
    split
    · exact .bind (.quiet _) fun _ => .bind (joinSubtrees_needs p H H' x c) fun j => .bind (.quiet _) fun _ => ih j
    · exact .pure _

theorem push_needs (p : Profile) (H H' : HashFn) (fee : Nat) (d : Bytes) : Needs (fun m => m = 0 :: (u64ToBeBytes fee ++ d) ∨ FeePair m) H H' (push p H fee d : TreeM E _) (push p H' fee d) := by
  unfold push
  refine .bind (.bind (.digest (.inl rfl)) fun _ => .pure _) fun n => .bind (.quiet _) fun _ => .bind (.quiet _) fun _ => ?_
  unfold joinAllSubtrees
  refine .bind (.quiet _) fun t => ?_
  cases t.head with
  | nil => exact .throw _
  | cons c rest => exact (joinAllLoop_needs p H H' rest c).mono fun _ => .inr

end Sum.Metered

/-! ### The sparse tree -/

namespace Sparse.Metered
variable {E : Type}

theorem _root_.FuelMerkle.Erases.ofPure {σ ε α β : Type} {x : Exec (FuelMerkle.Metered σ) ε α} {a : α} {f : α → Exec (FuelMerkle.Metered σ) ε β}
    {y : Exec σ ε β} (h : Erases x (Pure.pure a)) (hf : Erases (f a) y) : Erases (x >>= f) y := by
  intro s
  obtain ⟨h1, h2⟩ := h s
  show (Exec.bind x f s).1 = _ ∧ (Exec.bind x f s).2.inner = _
  unfold Exec.bind
  rcases hx : x s with ⟨r, s'⟩
  rw [hx] at h1 h2
  cases h1
  have := hf s'
  rw [show s'.inner = s.inner from h2] at this
  exact this

theorem hash_erases (H : HashFn) (n : Node) : Erases (hash H n : TreeM E _) (pure (n.hash H)) := by
  unfold hash Node.hash
  split
  · exact .pure _
  · exact fun _ => ⟨rfl, rfl⟩

theorem createNode_erases (H : HashFn) (a b : Node) (h : Nat) : Erases (createNode H a b h : TreeM E _) (pure (Node.createNode H a b h)) :=
  .ofPure (hash_erases H a) (.ofPure (hash_erases H b) (.pure _))

theorem createNodeOnPath_erases (p : Profile) (H : HashFn) (path : Bytes) (a b : Node) :
    Erases (createNodeOnPath p H path a b : TreeM E _) (Exec.liftRes (Node.createNodeOnPath p H path a b)) := by
  unfold createNodeOnPath Node.createNodeOnPath
  split
  · simp only [lift_bind]
    refine .bind (.lift _) fun d => .bind (.lift _) fun h => .bind (.lift _) fun i => ?_
    cases i
    · exact createNode_erases H a b h
    · exact createNode_erases H b a h
  · simp only [lift_bind]
    refine .bind (.lift _) fun h => .bind (.lift _) fun d => .bind (.lift _) fun i => ?_
    cases i
    · exact createNode_erases H a b h
    · exact createNode_erases H b a h

theorem root_erases (H : HashFn) : Erases (root H : TreeM E _) (fun t => (.ok (t.root H), t)) :=
  fun s => ⟨(hash_erases H s.inner.rootNode s).1, (hash_erases H s.inner.rootNode s).2⟩

theorem mergeNode_erases (p : Profile) (H : HashFn) (path : Bytes) (a b : Node) :
    Erases (mergeNode p H path a b : TreeM E _) (Sparse.mergeNode p H path a b) :=
  .bind (createNodeOnPath_erases p H path a b) fun n => .ofPure (hash_erases H n) (.bind (.quiet _) fun _ => .pure _)

theorem mergeNodes_erases (p : Profile) (H : HashFn) (path : Bytes) : ∀ (xs : List Node) (a : Node),
    Erases (mergeNodes p H path a xs : TreeM E _) (Sparse.mergeNodes p H path a xs) := by
  intro xs
  induction xs with
  | nil => intro a; exact .pure _
  | cons x xs ih => intro a; exact .bind (mergeNode_erases p H path a x) fun b => ih b

theorem updateWithPathSet_erases (p : Profile) (H : HashFn) (r : Node) (ps ss : List Node) :
    Erases (updateWithPathSet p H r ps ss : TreeM E _) (Sparse.updateWithPathSet p H r ps ss) := by
  unfold updateWithPathSet Sparse.updateWithPathSet
  refine .bind (.lift _) fun path => ?_
  cases ps with
  | nil => exact .throw _
  | cons actual ps =>
    refine .bind (.lift _) fun rk => .bind (.lift _) fun ak => .bind ?_ fun c => .bind (mergeNodes_erases p H _ ss c) fun d => .quiet _
    split
    · refine .bind ?_ fun c => .bind (.lift _) fun d => mergeNodes_erases p H _ _ c
      split
      · exact .pure _
      · exact mergeNode_erases p H _ _ _
    · exact .pure _

theorem removeAll_erases (H : HashFn) : ∀ xs : List Node, Erases (removeAll H xs : TreeM E _) (Sparse.removeAll H xs) := by
  intro xs
  induction xs with
  | nil => exact .pure _
  | cons x xs ih => exact .ofPure (hash_erases H x) (.bind (.quiet _) fun _ => ih)

theorem deleteWithPathSet_erases (p : Profile) (H : HashFn) (r : Node) (ps ss : List Node) :
    Erases (deleteWithPathSet p H r ps ss : TreeM E _) (Sparse.deleteWithPathSet p H r ps ss) := by
  unfold deleteWithPathSet Sparse.deleteWithPathSet
  refine .bind (removeAll_erases H ps) fun _ => .bind (.lift _) fun path => .bind ?_ fun x =>
    .bind (mergeNodes_erases p H _ x.2 x.1) fun d => .quiet _
  cases ss with
  | nil => exact .pure _
  | cons first others =>
    simp only
    split
    · rcases hf : findNonPlaceholder others with ⟨o, rest⟩
      cases o with
      | none => exact .pure _
      | some n => exact .bind (mergeNode_erases p H _ _ _) fun c => .pure _
    · exact .pure _

theorem rootThen_erases {α : Type} (H : HashFn) {f : Bytes32 → TreeM E α} {g : Tree E → Sparse.TreeM E α}
    (h : ∀ t : Tree E, Erases (f (t.root H)) (g t)) : Erases (root H >>= f) (Exec.get >>= g) := by
  intro s
  obtain ⟨h1, h2⟩ := root_erases H s
  show (Exec.bind (root H) f s).1 = (g s.inner s.inner).1 ∧ (Exec.bind (root H) f s).2.inner = (g s.inner s.inner).2
  unfold Exec.bind
  rcases hx : (root H : TreeM E _) s with ⟨r, s'⟩
  rw [hx] at h1 h2
  cases h1
  have := h s.inner s'
  rw [show s'.inner = s.inner from h2] at this
  exact this

theorem delete_erases (p : Profile) (H : HashFn) (k : Bytes32) : Erases (delete p H k : TreeM E _) (Sparse.delete p H k) := by
  unfold delete Sparse.delete
  refine rootThen_erases H fun t => ?_
  split
  · exact .pure _
  · refine .bind (.quiet _) fun o => ?_
    cases o with
    | none => exact .pure _
    | some q =>
      simp only
      cases Node.ofPrim q with
      | error e => exact .throw _
      | ok n => exact .bind (.quiet _) fun x => deleteWithPathSet_erases p H n x.1 x.2

theorem update_erases (p : Profile) (H : HashFn) (k : Bytes32) (d : Bytes) : Erases (update p H k d : TreeM E _) (Sparse.update p H k d) := by
  unfold update Sparse.update
  split
  · exact delete_erases p H k
  · refine .ofPure (a := Node.createLeaf H k d) (fun _ => ⟨rfl, rfl⟩) (.ofPure (hash_erases H _) ?_)
    refine .bind (.quiet _) fun _ => .bind (.lift _) fun lk => .bind (.quiet _) fun _ => .bind (.quiet _) fun t => ?_
    split
    · exact .quiet _
    · exact .bind (.quiet _) fun x => updateWithPathSet_erases p H _ x.1 x.2

theorem hash_needs (H H' : HashFn) (n : Node) : Needs (fun m => Pair 0 m ∨ Pair 1 m) H H' (hash H n : TreeM E _) (hash H' n) := by
  unfold hash
  split
  · exact .pure _
  · refine .digest ?_
    rcases n with ⟨_, x, a, b⟩
    cases x
    · exact .inr ⟨a, b, by simp [Prefix.bytes]⟩
    · exact .inl ⟨a, b, by simp [Prefix.bytes]⟩

theorem createNode_needs (H H' : HashFn) (a b : Node) (h : Nat) : Needs (fun m => Pair 0 m ∨ Pair 1 m) H H' (createNode H a b h : TreeM E _) (createNode H' a b h) :=
  .bind (hash_needs H H' a) fun _ => .bind (hash_needs H H' b) fun _ => .pure _

theorem createNodeOnPath_needs (p : Profile) (H H' : HashFn) (path : Bytes) (a b : Node) :
    Needs (fun m => Pair 0 m ∨ Pair 1 m) H H' (createNodeOnPath p H path a b : TreeM E _) (createNodeOnPath p H' path a b) := by
  unfold createNodeOnPath
  split
  · refine .bind (.lift _) fun d => .bind (.lift _) fun h => .bind (.lift _) fun i => ?_
    cases i
    · exact createNode_needs H H' a b h
    · exact createNode_needs H H' b a h
  · refine .bind (.lift _) fun h => .bind (.lift _) fun d => .bind (.lift _) fun i => ?_
    cases i
    · exact createNode_needs H H' a b h
    · exact createNode_needs H H' b a h

theorem root_needs (H H' : HashFn) : Needs (fun m => Pair 0 m ∨ Pair 1 m) H H' (root H : TreeM E _) (root H') := .bind (.quiet _) fun t => hash_needs H H' _

theorem mergeNode_needs (p : Profile) (H H' : HashFn) (path : Bytes) (a b : Node) :
    Needs (fun m => Pair 0 m ∨ Pair 1 m) H H' (mergeNode p H path a b : TreeM E _) (mergeNode p H' path a b) :=
  .bind (createNodeOnPath_needs p H H' path a b) fun n => .bind (hash_needs H H' n) fun _ => .bind (.quiet _) fun _ => .pure _

theorem mergeNodes_needs (p : Profile) (H H' : HashFn) (path : Bytes) : ∀ (xs : List Node) (a : Node),
    Needs (fun m => Pair 0 m ∨ Pair 1 m) H H' (mergeNodes p H path a xs : TreeM E _) (mergeNodes p H' path a xs) := by
  intro xs
  induction xs with
  | nil => intro a; exact .pure _
  | cons x xs ih => intro a; exact .bind (mergeNode_needs p H H' path a x) fun b => ih b

theorem updateWithPathSet_needs (p : Profile) (H H' : HashFn) (r : Node) (ps ss : List Node) :
    Needs (fun m => Pair 0 m ∨ Pair 1 m) H H' (updateWithPathSet p H r ps ss : TreeM E _) (updateWithPathSet p H' r ps ss) := by
  unfold updateWithPathSet
  refine .bind (.lift _) fun path => ?_
  cases ps with
  | nil => exact .throw _
  | cons actual ps =>
    refine .bind (.lift _) fun rk => .bind (.lift _) fun ak => .bind ?_ fun c => .bind (mergeNodes_needs p H H' _ ss c) fun d => .quiet _
    split
    · refine .bind ?_ fun c => .bind (.lift _) fun d => mergeNodes_needs p H H' _ _ c
      split
      · exact .pure _
      · exact mergeNode_needs p H H' _ _ _
    · exact .pure _

theorem removeAll_needs (H H' : HashFn) : ∀ xs : List Node, Needs (fun m => Pair 0 m ∨ Pair 1 m) H H' (removeAll H xs : TreeM E _) (removeAll H' xs) := by
  intro xs
  induction xs with
  | nil => exact .pure _
  | cons x xs ih => exact .bind (hash_needs H H' x) fun _ => .bind (.quiet _) fun _ => ih

theorem deleteWithPathSet_needs (p : Profile) (H H' : HashFn) (r : Node) (ps ss : List Node) :
    Needs (fun m => Pair 0 m ∨ Pair 1 m) H H' (deleteWithPathSet p H r ps ss : TreeM E _) (deleteWithPathSet p H' r ps ss) := by
  unfold deleteWithPathSet
  refine .bind (removeAll_needs H H' ps) fun _ => .bind (.lift _) fun path => .bind ?_ fun x =>
    .bind (mergeNodes_needs p H H' _ x.2 x.1) fun d => .quiet _
  cases ss with
  | nil => exact .pure _
  | cons first others =>
    simp only
    split
    · rcases hf : findNonPlaceholder others with ⟨o, rest⟩
      cases o with
      | none => exact .pure _
      | some n => exact .bind (mergeNode_needs p H H' _ _ _) fun c => .pure _
    · exact .pure _

theorem delete_needs (p : Profile) (H H' : HashFn) (k : Bytes32) : Needs (fun m => Pair 0 m ∨ Pair 1 m) H H' (delete p H k : TreeM E _) (delete p H' k) := by
  unfold delete
  refine .bind (root_needs H H') fun r => ?_
  split
  · exact .pure _
  · refine .bind (.quiet _) fun o => ?_
    cases o with
    | none => exact .pure _
    | some q =>
      simp only
      cases Node.ofPrim q with
      | error e => exact .throw _
      | ok n => exact .bind (.quiet _) fun x => deleteWithPathSet_needs p H H' n x.1 x.2

theorem update_needs (p : Profile) (H H' : HashFn) (k : Bytes32) (d : Bytes) : Needs (fun m => m = d ∨ Pair 0 m ∨ Pair 1 m) H H' (update p H k d : TreeM E _) (update p H' k d) := by
  unfold update
  split
  · exact (delete_needs p H H' k).mono fun _ => .inr
  · refine .bind (.bind (.digest (.inl rfl)) fun _ => .pure _) fun n => .bind ((hash_needs H H' n).mono fun _ => .inr) fun _ => .bind (.quiet _) fun _ => .bind (.lift _) fun lk =>
      .bind (.quiet _) fun _ => .bind (.quiet _) fun t => ?_
    split
    · exact .quiet _
    · exact .bind (.quiet _) fun x => (updateWithPathSet_needs p H H' _ x.1 x.2).mono fun _ => .inr

/-! Against the storage calls. -/

abbrev clock (t : Tree E) : Nat := t.storage.clock

theorem storage_calls {α : Type} {f : SpStore E → Except E α × SpStore E} (h : ∀ s, (f s).2.clock = s.clock + 1) (t : Tree E) :
    clock ((onStorage f : Sparse.TreeM E _) t).2 = clock t + 1 := by
  unfold onStorage
  have := h t.storage
  split <;> rename_i he <;> rw [he] at this <;> exact this

theorem kept_clock (H : HashFn) (c : Nat) : Kept H (fun s : SpStore E => c ≤ s.clock) where
  get s k h := by rw [get_clock]; omega
  insert s k q _ h := by rw [insert_clock]; omega

theorem setRoot_calls (p : Profile) (n : Node) (t : Tree E) : clock t ≤ clock ((setRootNode p n : Sparse.TreeM E _) t).2 :=
  Pres.setRootNode (kept_clock (fun _ => zeroSum) _) p n t (Nat.le_refl _)

theorem pathSet_calls (p : Profile) (n : Node) (t : Tree E) : clock t ≤ clock ((pathSet p n : Sparse.TreeM E _) t).2 :=
  Pres.path (kept_clock (fun _ => zeroSum) _) p n t (Nat.le_refl _)

theorem hash_within (H : HashFn) (n : Node) (i : Nat) : Within clock i (i + 1) (hash H n : TreeM E _) := by
  unfold hash
  split
  · exact (Within.pure i _).mono (Nat.le_refl _) (by omega)
  · exact .digest i _ _

theorem createNode_within (H : HashFn) (a b : Node) (h : Nat) : Within clock 0 2 (createNode H a b h : TreeM E _) :=
  .bind (m := 1) (hash_within H a 0) fun _ => .bind (m := 2) (hash_within H b 1) fun _ => .pure 2 _

theorem createNodeOnPath_within (p : Profile) (H : HashFn) (path : Bytes) (a b : Node) :
    Within clock 0 2 (createNodeOnPath p H path a b : TreeM E _) := by
  unfold createNodeOnPath
  split
  · refine .bind (m := 0) (.lift _) fun d => .bind (m := 0) (.lift _) fun h => .bind (m := 0) (.lift _) fun i => ?_
    cases i
    · exact createNode_within H a b h
    · exact createNode_within H b a h
  · refine .bind (m := 0) (.lift _) fun h => .bind (m := 0) (.lift _) fun d => .bind (m := 0) (.lift _) fun i => ?_
    cases i
    · exact createNode_within H a b h
    · exact createNode_within H b a h

theorem mergeNode_within (p : Profile) (H : HashFn) (path : Bytes) (a b : Node) : Within clock 0 0 (mergeNode p H path a b : TreeM E _) :=
  .bind (m := 2) (createNodeOnPath_within p H path a b) fun n => .bind (m := 3) (hash_within H n 2) fun k =>
    .bind (m := 0) (.call (by omega) _ (storage_calls (insert_clock _ _))) fun _ => .pure 0 _

theorem mergeNodes_within (p : Profile) (H : HashFn) (path : Bytes) : ∀ (xs : List Node) (a : Node),
    Within clock 0 0 (mergeNodes p H path a xs : TreeM E _) := by
  intro xs
  induction xs with
  | nil => intro a; exact .pure 0 _
  | cons x xs ih => intro a; exact .bind (m := 0) (mergeNode_within p H path a x) fun b => ih b

theorem updateWithPathSet_within (p : Profile) (H : HashFn) (r : Node) (ps ss : List Node) :
    Within clock 0 0 (updateWithPathSet p H r ps ss : TreeM E _) := by
  unfold updateWithPathSet
  refine .bind (m := 0) (.lift _) fun path => ?_
  cases ps with
  | nil => exact .throw 0 _
  | cons actual ps =>
    refine .bind (m := 0) (.lift _) fun rk => .bind (m := 0) (.lift _) fun ak => .bind (m := 0) ?_ fun c =>
      .bind (m := 0) (mergeNodes_within p H _ ss c) fun d => .quiet _ (setRoot_calls p d)
    split
    · refine .bind (m := 0) ?_ fun c => .bind (m := 0) (.lift _) fun d => mergeNodes_within p H _ _ c
      split
      · exact .pure 0 _
      · exact mergeNode_within p H _ _ _
    · exact .pure 0 _

theorem removeAll_within (H : HashFn) : ∀ xs : List Node, Within clock 0 0 (removeAll H xs : TreeM E _) := by
  intro xs
  induction xs with
  | nil => exact .pure 0 _
  | cons x xs ih => exact .bind (m := 1) (hash_within H x 0) fun _ => .bind (m := 0) (.call (by omega) _ (storage_calls (remove_clock _))) fun _ => ih

theorem deleteWithPathSet_within (p : Profile) (H : HashFn) (r : Node) (ps ss : List Node) :
    Within clock 0 0 (deleteWithPathSet p H r ps ss : TreeM E _) := by
  unfold deleteWithPathSet
  refine .bind (m := 0) (removeAll_within H ps) fun _ => .bind (m := 0) (.lift _) fun path => .bind (m := 0) ?_ fun x =>
    .bind (m := 0) (mergeNodes_within p H _ x.2 x.1) fun d => .quiet _ (setRoot_calls p d)
  cases ss with
  | nil => exact .pure 0 _
  | cons first others =>
    simp only
    split
    · rcases hf : findNonPlaceholder others with ⟨o, rest⟩
      cases o with
      | none => exact .pure 0 _
      | some n => exact .bind (m := 0) (mergeNode_within p H _ _ _) fun c => .pure 0 _
    · exact .pure 0 _

theorem delete_within (p : Profile) (H : HashFn) (k : Bytes32) : Within clock 0 1 (delete p H k : TreeM E _) := by
  unfold delete root
  refine .bind (m := 1) (.bind (m := 0) (.get 0) fun t => hash_within H _ 0) fun r => ?_
  split
  · exact .pure 1 _
  · refine .bind (m := 0) (.call (by omega) _ (storage_calls (get_clock _))) fun o => Within.mono (o := 0) ?_ (Nat.le_refl _) (by omega)
    cases o with
    | none => exact .pure 0 _
    | some q =>
      simp only
      cases Node.ofPrim q with
      | error e => exact .throw 0 _
      | ok n => exact .bind (m := 0) (.quiet _ (pathSet_calls p n)) fun x => deleteWithPathSet_within p H n x.1 x.2

theorem update_within (p : Profile) (H : HashFn) (k : Bytes32) (d : Bytes) (hd : d ≠ []) : Within clock 0 0 (update p H k d : TreeM E _) := by
  unfold update
  split
  · rename_i h; cases d <;> simp_all
  · refine .bind (m := 1) (.bind (m := 1) (.digest 0 _ _) fun _ => .pure 1 _) fun n => .bind (m := 2) (hash_within H n 1) fun _ => ?_
    refine .bind (m := 0) (.call (by omega) _ (storage_calls (insert_clock _ _))) fun _ => .bind (m := 0) (.lift _) fun lk =>
      .bind (m := 0) (.call (by omega) _ (storage_calls (insert_clock _ _))) fun _ => .bind (m := 0) (.get 0) fun t => ?_
    split
    · exact .quiet _ (setRoot_calls p n)
    · exact .bind (m := 0) (.quiet _ (pathSet_calls p n)) fun x => updateWithPathSet_within p H _ x.1 x.2

/-! Bounds that do not depend on the number of calls. -/

theorem hash_few (H : HashFn) (n : Node) : Few 1 (hash H n : TreeM E _) := by
  unfold hash
  split
  · exact (Exactly.pure _).few.mono (by omega)
  · exact (Exactly.digest _ _).few

theorem createNode_few (H : HashFn) (a b : Node) (h : Nat) : Few 2 (createNode H a b h : TreeM E _) :=
  .bind (n := 1) (m := 1 + 0) (hash_few H a) fun _ => .bind (hash_few H b) fun _ => (Exactly.pure _).few

theorem lift_few {σ ε α β : Type} {n : Nat} (r : Res α) {f : α → Exec (FuelMerkle.Metered σ) (Fail ε) β} (h : ∀ a, Few n (f a)) :
    Few n (Exec.liftRes r >>= f) := by
  have := Few.bind (n := 0) (m := n) (Exactly.lift (σ := σ) (ε := ε) r).few h
  exact this.mono (by omega)

theorem quiet_few {σ ε α β : Type} {n : Nat} (r : Exec σ ε α) {f : α → Exec (FuelMerkle.Metered σ) ε β} (h : ∀ a, Few n (f a)) :
    Few n (quiet r >>= f) :=
  (Few.bind (n := 0) (m := n) (Exactly.quiet r).few h).mono (by omega)

theorem createNodeOnPath_few (p : Profile) (H : HashFn) (path : Bytes) (a b : Node) : Few 2 (createNodeOnPath p H path a b : TreeM E _) := by
  unfold createNodeOnPath
  split
  · refine lift_few _ fun d => lift_few _ fun h => lift_few _ fun i => ?_
    cases i
    · exact createNode_few H a b h
    · exact createNode_few H b a h
  · refine lift_few _ fun h => lift_few _ fun d => lift_few _ fun i => ?_
    cases i
    · exact createNode_few H a b h
    · exact createNode_few H b a h

theorem mergeNode_few (p : Profile) (H : HashFn) (path : Bytes) (a b : Node) : Few 3 (mergeNode p H path a b : TreeM E _) :=
  .bind (n := 2) (m := 1 + 0) (createNodeOnPath_few p H path a b) fun n => .bind (hash_few H n) fun _ => quiet_few _ fun _ => (Exactly.pure _).few

theorem mergeNodes_few (p : Profile) (H : HashFn) (path : Bytes) : ∀ (xs : List Node) (a : Node),
    Few (3 * xs.length) (mergeNodes p H path a xs : TreeM E _) := by
  intro xs
  induction xs with
  | nil => intro a; exact (Exactly.pure _).few
  | cons x xs ih =>
    intro a
    exact Few.mono (n := 3 + 3 * xs.length) (.bind (mergeNode_few p H path a x) fun b => ih b) (by rw [List.length_cons]; omega)

theorem updateWithPathSet_few (p : Profile) (H : HashFn) (r : Node) (ps ss : List Node) (hs : ss.length ≤ 256) :
    Few (3 * 257) (updateWithPathSet p H r ps ss : TreeM E _) := by
  unfold updateWithPathSet
  refine lift_few _ fun path => ?_
  cases ps with
  | nil => exact (Exactly.throw 0 _).few.mono (by omega)
  | cons actual ps =>
    refine lift_few _ fun rk => lift_few _ fun ak => ?_
    refine Few.mono (n := 3 * (257 - ss.length) + (3 * ss.length + 0)) (.bind ?_ fun c =>
      .bind (mergeNodes_few p H _ ss c) fun d => (Exactly.quiet _).few) (by omega)
    split
    · refine Few.mono (n := 3 + (0 + 3 * (256 - ss.length))) (.bind ?_ fun c => Few.bind_of (Q := fun d => d ≤ 256) (Exactly.lift _).few ?_ fun d hd => ?_) (by omega)
      · split
        · exact (Exactly.pure _).few.mono (by omega)
        · exact mergeNode_few p H _ _ _
      · intro s d hd
        refine commonPath_le _ _ _ _ (?_ : r.commonPathLength p actual = .ok d)
        revert hd
        cases r.commonPathLength p actual with
        | ok a => intro h; cases h; rfl
        | error e => intro h; cases h
      · refine (mergeNodes_few p H _ _ c).mono ?_
        rw [List.length_replicate]
        omega
    · exact (Exactly.pure _).few.mono (by omega)

theorem removeAll_few (H : HashFn) : ∀ xs : List Node, Few xs.length (removeAll H xs : TreeM E _) := by
  intro xs
  induction xs with
  | nil => exact (Exactly.pure _).few
  | cons x xs ih =>
    rw [List.length_cons, Nat.add_comm]
    exact .bind (hash_few H x) fun _ => quiet_few _ fun _ => ih

theorem deleteWithPathSet_few (p : Profile) (H : HashFn) (r : Node) (ps ss : List Node) (hp : ps.length ≤ 257) (hs : ss.length ≤ 256) :
    Few (257 + 3 * 256) (deleteWithPathSet p H r ps ss : TreeM E _) := by
  unfold deleteWithPathSet
  refine .bind ((removeAll_few H ps).mono hp) fun _ => lift_few _ fun path => ?_
  have hend : ∀ (c : Node) (rest : List Node) (n : Nat), rest.length ≤ n → Few (3 * n)
      (do let current ← mergeNodes p H path.val c rest; quiet (setRootNode p current) : TreeM E Unit) := fun c rest n h =>
    Few.mono (n := 3 * rest.length + 0) (.bind (mergeNodes_few p H _ _ _) fun c => (Exactly.quiet _).few) (by omega)
  cases ss with
  | nil => exact (hend Node.createPlaceholder [] 0 (by simp)).mono (by omega)
  | cons first others =>
    simp only [List.length_cons] at hs
    have hl := findNonPlaceholder_length others
    by_cases hf : first.isLeaf
    · simp only [hf, if_true]
      rcases he : findNonPlaceholder others with ⟨o, rest⟩
      rw [he] at hl
      cases o with
      | none =>
        simp only [if_true] at hl
        exact (hend first rest 256 (by omega)).mono (by omega)
      | some n =>
        simp only [reduceCtorEq, if_false] at hl
        refine Few.mono (n := (3 + 0) + 3 * 255) (Few.bind_of (Q := fun x : Node × List Node => x.2 = rest) (.bind (mergeNode_few p H _ _ _) fun c => (Exactly.pure _).few) ?_
          fun x hx => hend x.1 x.2 255 (by rw [hx]; omega)) (by omega)
        intro s x hx
        revert hx
        show (Exec.bind (mergeNode p H path.val first n) _ s).1 = _ → _
        unfold Exec.bind
        rcases (mergeNode p H path.val first n : TreeM E Node) s with ⟨q, s'⟩
        cases q with
        | error e => intro h; cases h
        | ok a => intro h; cases h; rfl
    · simp only [hf]
      exact (hend Node.createPlaceholder (first :: others) 256 (by rw [List.length_cons]; omega)).mono (by omega)

theorem pathSet_lengths (p : Profile) (n : Node) (s : FuelMerkle.Metered (Tree E)) (x : List Node × List Node)
    (h : ((quiet (pathSet p n) : TreeM E _) s).1 = .ok x) : x.1.length ≤ 257 ∧ x.2.length ≤ 256 :=
  (Bounded.path p n).post s.inner x h

theorem delete_few (p : Profile) (H : HashFn) (k : Bytes32) : Few 1026 (delete p H k : TreeM E _) := by
  unfold delete root
  refine Few.mono (n := 1 + 1025) (.bind (quiet_few _ fun t => hash_few H _) fun r => ?_) (by omega)
  split
  · exact (Exactly.pure _).few.mono (by omega)
  · refine quiet_few _ fun o => ?_
    cases o with
    | none => exact (Exactly.pure _).few.mono (by omega)
    | some q =>
      simp only
      cases Node.ofPrim q with
      | error e => exact (Exactly.throw 0 _).few.mono (by omega)
      | ok n =>
        exact (Few.bind_of (n := 0) (Exactly.quiet _).few (pathSet_lengths p n) fun x hx => deleteWithPathSet_few p H n x.1 x.2 hx.1 hx.2).mono (by omega)

theorem update_few (p : Profile) (H : HashFn) (k : Bytes32) (d : Bytes) (hd : d ≠ []) : Few 773 (update p H k d : TreeM E _) := by
  unfold update
  split
  · rename_i h; cases d <;> simp_all
  · refine Few.mono (n := (1 + 0) + (1 + 3 * 257)) (.bind (.bind (Exactly.digest _ _).few fun _ => (Exactly.pure _).few) fun n =>
      .bind (hash_few H n) fun _ => quiet_few _ fun _ => lift_few _ fun lk => quiet_few _ fun _ => quiet_few _ fun t => ?_) (by omega)
    split
    · exact (Exactly.quiet _).few.mono (by omega)
    · exact (Few.bind_of (n := 0) (Exactly.quiet _).few (pathSet_lengths p n) fun x hx => updateWithPathSet_few p H _ x.1 x.2 hx.2).mono (by omega)

end Sparse.Metered

namespace Verify.Metered

theorem loop_erases (p : Profile) (H : HashFn) (ps : List Bytes32) (i n : Nat) : ∀ (fuel : Nat) (st : St),
    Erases (loop p H ps i n fuel st) (Exec.liftRes (Verify.loop p H ps i n fuel st)) := by
  intro fuel
  induction fuel with
  | zero => exact fun st => .throw _
  | succ fuel ih =>
    intro st
    unfold loop Verify.loop
    simp only [lift_bind]
    refine .bind (.lift _) fun w => .bind (.lift _) fun start => .bind (.lift _) fun e => .bind (.lift _) fun se => ?_
    by_cases hc : se ≥ n
    · simp only [if_pos hc]
      exact .pure _
    · simp only [if_neg hc]
      cases ps[st.height]? with
      | none => exact .pure _
      | some d =>
        simp only [lift_bind]
        refine .bind (.lift _) fun x => .bind (.lift _) fun half => ?_
        by_cases hd : x < half
        · simp only [if_pos hd]
          exact .digest H _ (ih _)
        · simp only [if_neg hd]
          exact .digest H _ (ih _)

theorem finish_erases (H : HashFn) : ∀ (rest : List Bytes32) (sum : Bytes32),
    Erases (finish H sum rest) (pure (Verify.finish H sum rest)) := by
  intro rest
  induction rest with
  | nil => exact fun sum => .pure _
  | cons d rest ih => exact fun sum => .digest H _ (ih _)

theorem verify_erases (p : Profile) (H : HashFn) (root : Bytes32) (ps : List Bytes32) (i n : Nat) :
    Erases (verify p H root ps i n) (Exec.liftRes (Verify.verify p H root ps i n)) := by
  unfold verify Verify.verify
  by_cases hc : i ≥ n
  · simp only [if_pos hc]
    exact .pure _
  · simp only [if_neg hc]
    cases ps with
    | nil => exact .pure _
    | cons first others =>
      simp only [lift_bind]
      refine .bind (loop_erases p H _ i n _ _) fun o => ?_
      cases o with
      | none => exact .pure _
      | some st =>
        simp only [lift_bind]
        refine .bind (.lift _) fun last => ?_
        by_cases hs : st.stableEnd ≠ last
        · simp only [if_pos hs]
          cases (first :: others)[st.height]? with
          | none => exact .pure _
          | some d => exact .digest H _ (.ofPure (finish_erases H _ _) (.pure _))
        · simp only [if_neg hs]
          exact .ofPure (finish_erases H _ _) (.pure _)

theorem sum_needs (H H' : HashFn) (a b : Bytes32) : Needs (Pair 1) H H' (nodeSum H a.val b.val) (nodeSum H' a.val b.val) :=
  .digest ⟨a, b, rfl⟩

theorem loop_needs (p : Profile) (H H' : HashFn) (ps : List Bytes32) (i n : Nat) : ∀ (fuel : Nat) (st : St),
    Needs (Pair 1) H H' (loop p H ps i n fuel st) (loop p H' ps i n fuel st) := by
  intro fuel
  induction fuel with
  | zero => exact fun st => .throw _
  | succ fuel ih =>
    intro st
    unfold loop
    refine .bind (.lift _) fun w => .bind (.lift _) fun start => .bind (.lift _) fun e => .bind (.lift _) fun se => ?_
    by_cases hc : se ≥ n
    · simp only [if_pos hc]
      exact .pure _
    · simp only [if_neg hc]
      cases ps[st.height]? with
      | none => exact .pure _
      | some d =>
        refine .bind (.lift _) fun x => .bind (.lift _) fun half => ?_
        by_cases hd : x < half
        · simp only [if_pos hd]
          exact .bind (sum_needs H H' _ _) fun _ => ih _
        · simp only [if_neg hd]
          exact .bind (sum_needs H H' _ _) fun _ => ih _

theorem finish_needs (H H' : HashFn) : ∀ (rest : List Bytes32) (sum : Bytes32),
    Needs (Pair 1) H H' (finish H sum rest) (finish H' sum rest) := by
  intro rest
  induction rest with
  | nil => exact fun sum => .pure _
  | cons d rest ih => exact fun sum => .bind (sum_needs H H' _ _) fun _ => ih _

theorem verify_needs (p : Profile) (H H' : HashFn) (root : Bytes32) (ps : List Bytes32) (i n : Nat) :
    Needs (Pair 1) H H' (verify p H root ps i n) (verify p H' root ps i n) := by
  unfold verify
  by_cases hc : i ≥ n
  · simp only [if_pos hc]
    exact .pure _
  · simp only [if_neg hc]
    cases ps with
    | nil => exact .pure _
    | cons first others =>
      refine .bind (loop_needs p H H' _ i n _ _) fun o => ?_
      cases o with
      | none => exact .pure _
      | some st =>
        refine .bind (.lift _) fun last => ?_
        by_cases hs : st.stableEnd ≠ last
        · simp only [if_pos hs]
          cases (first :: others)[st.height]? with
          | none => exact .pure _
          | some d => exact .bind (sum_needs H H' _ _) fun _ => .bind (finish_needs H H' _ _) fun _ => .pure _
        · simp only [if_neg hs]
          exact .bind (finish_needs H H' _ _) fun _ => .pure _

/-- Hashing against the elements of the proof set used: `h` before. -/
def Uses {α : Type} (len h : Nat) (Q : α → Nat → Prop) (x : PlainM α) : Prop :=
  ∀ s, ∃ new, (x s).2.hashed = s.hashed ++ new ∧ h + new.length ≤ len ∧ ∀ a, (x s).1 = .ok a → Q a (h + new.length)

theorem Uses.pure {α : Type} {len h : Nat} {Q : α → Nat → Prop} {a : α} (hl : h ≤ len) (hq : Q a h) : Uses len h Q (Pure.pure a) := fun s =>
  ⟨[], by simp [Pure.pure, Exec.pure], hl, fun b hb => by cases hb; exact hq⟩

theorem Uses.lift {α β : Type} {len h : Nat} {Q : β → Nat → Prop} (r : Res α) {f : α → PlainM β} (hl : h ≤ len) (hf : ∀ a, Uses len h Q (f a)) :
    Uses len h Q (Exec.liftRes r >>= f) := fun s => by
  cases r with
  | error e => exact ⟨[], by show s.hashed = _; simp, hl, fun b hb => by cases hb⟩
  | ok a => exact hf a s

theorem Uses.throw {α : Type} {len h : Nat} {Q : α → Nat → Prop} (e : Fail Empty) (hl : h ≤ len) : Uses len h Q (Exec.throw e : PlainM α) := fun s =>
  ⟨[], by simp [Exec.throw], hl, fun b hb => by cases hb⟩

theorem Uses.digest {β : Type} {len h : Nat} {Q : β → Nat → Prop} (H : HashFn) (m : Bytes) {f : Bytes32 → PlainM β} (hf : Uses len (h + 1) Q (f (H m))) :
    Uses len h Q (FuelMerkle.digest H m >>= f) := fun s => by
  obtain ⟨l, h1, h2, h3⟩ := hf { s with hashed := s.hashed ++ [m] }
  refine ⟨m :: l, ?_, by simp only [List.length_cons]; omega, fun a ha => ?_⟩
  · show (f (H m) { s with hashed := s.hashed ++ [m] }).2.hashed = _
    rw [h1]
    simp
  · have := h3 a ha
    rwa [show h + (m :: l).length = h + 1 + l.length by simp only [List.length_cons]; omega]

theorem Uses.bind {α β : Type} {len h : Nat} {Q : α → Nat → Prop} {R : β → Nat → Prop} {x : PlainM α} {f : α → PlainM β} (hx : Uses len h Q x)
    (hf : ∀ a k, k ≤ len → Q a k → Uses len k R (f a)) : Uses len h R (x >>= f) := by
  intro s
  obtain ⟨l, h1, h2, h3⟩ := hx s
  show ∃ new, (Exec.bind x f s).2.hashed = _ ∧ _ ∧ ∀ a, (Exec.bind x f s).1 = _ → _
  unfold Exec.bind
  rcases hxs : x s with ⟨r, s'⟩
  rw [hxs] at h1 h3
  cases r with
  | error e => exact ⟨l, h1, h2, fun a h => by cases h⟩
  | ok a =>
    obtain ⟨l', e1, e2, e3⟩ := hf a _ h2 (h3 a rfl) s'
    refine ⟨l ++ l', ?_, ?_, fun b hb => ?_⟩
    · show (f a s').2.hashed = _
      rw [e1, h1, List.append_assoc]
    · rw [List.length_append]
      omega
    · have := e3 b hb
      rwa [List.length_append, ← Nat.add_assoc]

theorem loop_uses (p : Profile) (H : HashFn) (ps : List Bytes32) (i n : Nat) : ∀ (fuel : Nat) (st : St), st.height ≤ ps.length →
    Uses ps.length st.height (fun o k => ∀ st', o = some st' → k = st'.height) (loop p H ps i n fuel st) := by
  intro fuel
  induction fuel with
  | zero => exact fun st hl => .throw _ hl
  | succ fuel ih =>
    intro st hl
    unfold loop
    refine .lift _ hl fun w => .lift _ hl fun start => .lift _ hl fun e => .lift _ hl fun se => ?_
    by_cases hc : se ≥ n
    · simp only [if_pos hc]
      exact .pure hl fun st' h => by cases h; rfl
    · simp only [if_neg hc]
      cases hg : ps[st.height]? with
      | none => exact .pure hl fun st' h => by cases h
      | some d =>
        have hlt : st.height + 1 ≤ ps.length := (List.getElem?_eq_some_iff.1 hg).1
        refine .lift _ hl fun x => .lift _ hl fun half => ?_
        by_cases hd : x < half
        · simp only [if_pos hd]
          exact .digest H _ (ih _ hlt)
        · simp only [if_neg hd]
          exact .digest H _ (ih _ hlt)

theorem finish_uses (H : HashFn) (len : Nat) : ∀ (rest : List Bytes32) (h : Nat) (sum : Bytes32), h + rest.length = len →
    Uses len h (fun _ k => k = len) (finish H sum rest) := by
  intro rest
  induction rest with
  | nil => exact fun h sum hl => .pure (Nat.le_of_eq hl) hl
  | cons d rest ih => exact fun h sum hl => .digest H _ (ih (h + 1) _ (by simp only [List.length_cons] at hl; omega))

theorem verify_uses (p : Profile) (H : HashFn) (root : Bytes32) (first : Bytes32) (others : List Bytes32) (i n : Nat) :
    Uses (others.length + 1) 1 (fun r k => r = true → k = others.length + 1) (verify p H root (first :: others) i n) := by
  unfold verify
  by_cases hc : i ≥ n
  · simp only [if_pos hc]
    exact .pure (by omega) fun h => by cases h
  · simp only [if_neg hc]
    refine .bind (loop_uses p H (first :: others) i n _ ⟨1, first, i⟩ (by simp)) fun o k hk ho => ?_
    cases o with
    | none => exact .pure hk fun h => by cases h
    | some st =>
      have hks := ho st rfl
      refine .lift _ hk fun last => ?_
      by_cases hs : st.stableEnd ≠ last
      · simp only [if_pos hs]
        cases hg : (first :: others)[st.height]? with
        | none => exact .pure hk fun h => by cases h
        | some d =>
          have hlt : st.height < (first :: others).length := (List.getElem?_eq_some_iff.1 hg).1
          simp only [List.length_cons] at hlt
          exact .digest H _ (.bind (finish_uses H _ _ _ _ (by rw [List.length_drop, List.length_cons]; omega)) fun _ k' h1 h2 => .pure h1 fun _ => h2)
      · simp only [if_neg hs]
        exact .bind (finish_uses H _ _ _ _ (by rw [List.length_drop, List.length_cons]; omega)) fun _ k' h1 h2 => .pure h1 fun _ => h2

end Verify.Metered
end FuelMerkle
