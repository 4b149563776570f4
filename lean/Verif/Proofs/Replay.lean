import Verif.Proofs.Concurrent

/-
What a program does on a storage, it does on the tape of the calls it made there.
-/
namespace FuelMerkle
variable {S K V E : Type} [DecidableEq K] [DecidableEq V] {R R' : Type}

omit [DecidableEq K] [DecidableEq V] in
/-- Calls made one after the other, with their answers. -/
def Performed (B : Backend S K V E) : List (Answered K V E) → S → S → Prop
  | [], s, s' => s' = s
  | (c, a) :: l, s, s' => (B.perform c s).1 = a ∧ Performed B l (B.perform c s).2 s'

omit [DecidableEq K] [DecidableEq V] in
theorem Performed.append {B : Backend S K V E} : ∀ {l l' : List (Answered K V E)} {s s' s'' : S}, Performed B l s s' → Performed B l' s' s'' → Performed B (l ++ l') s s''
  | [], _, _, _, _, h, h' => by cases h; exact h'
  | _ :: _, _, _, _, _, h, h' => ⟨h.1, h.2.append h'⟩

omit [DecidableEq K] [DecidableEq V] in
/-- `F` on the storage is `G` on the tape. -/
def Replays (B : Backend S K V E) (F : S → R × S) (G : Tape K V E → R × Tape K V E) : Prop :=
  (∀ t : Tape K V E, t.waiting ≠ none → (G t).2 = t) ∧
    ∀ s, ∃ l, Performed B l s (F s).2 ∧ (∀ rest, G ⟨l ++ rest, none⟩ = ((F s).1, ⟨rest, none⟩)) ∧
      ∀ pre c a post, l = pre ++ (c, a) :: post → (G ⟨pre, none⟩).2 = ⟨[], some c⟩

variable {B : Backend S K V E}

omit [DecidableEq K] [DecidableEq V] in
theorem Replays.pure (r : R) : Replays B (fun s => (r, s)) (fun t => (r, t)) :=
  ⟨fun _ _ => rfl, fun s => ⟨[], rfl, fun _ => rfl, fun pre c a post h => by simp at h⟩⟩

omit [DecidableEq K] [DecidableEq V] in
theorem Replays.bind {F : S → R × S} {G : Tape K V E → R × Tape K V E} {F' : R → S → R' × S} {G' : R → Tape K V E → R' × Tape K V E}
    (h : Replays B F G) (h' : ∀ r, Replays B (F' r) (G' r)) : Replays B (fun s => F' (F s).1 (F s).2) (fun t => G' (G t).1 (G t).2) := by
  refine ⟨fun t ht => ?_, fun s => ?_⟩
  · have := h.1 t ht
    simp only [this]
    exact (h' _).1 t ht
  · obtain ⟨l, h1, h2, h3⟩ := h.2 s
    obtain ⟨l', h1', h2', h3'⟩ := (h' (F s).1).2 (F s).2
    refine ⟨l ++ l', h1.append h1', fun rest => ?_, fun pre c a post he => ?_⟩
    · simp only
      rw [List.append_assoc, h2]
      exact h2' rest
    · rcases List.append_eq_append_iff.1 he with ⟨m, hm, hm'⟩ | ⟨m, hm, hm'⟩
      · simp only
        rw [hm, h2]
        exact h3' m c a post hm'
      · cases m with
        | nil =>
          simp only [List.append_nil] at hm
          simp only [List.nil_append] at hm'
          have := h2 []
          rw [List.append_nil, hm] at this
          simp only
          rw [this]
          exact h3' [] c a post hm'.symm
        | cons x m =>
          simp only [List.cons_append, List.cons.injEq] at hm'
          obtain ⟨rfl, _⟩ := hm'
          simp only
          rw [h3 pre c a m hm]
          exact (h' _).1 _ (by simp)

omit [DecidableEq K] [DecidableEq V] in
theorem Replays.map (f : R → R') {F : S → R × S} {G : Tape K V E → R × Tape K V E} (h : Replays B F G) :
    Replays B (fun s => (f (F s).1, (F s).2)) (fun t => (f (G t).1, (G t).2)) :=
  Replays.bind (F' := fun r s => (f r, s)) (G' := fun r t => (f r, t)) h fun r => Replays.pure (f r)

omit [DecidableEq K] [DecidableEq V] in
theorem Replays.of_eq {F F' : S → R × S} {G G' : Tape K V E → R × Tape K V E} (h : Replays B F G) (hF : ∀ s, F' s = F s) (hG : ∀ t, G' t = G t) :
    Replays B F' G' := by
  rw [funext hF, funext hG]
  exact h

theorem Replays.call (cut : E) (c : MethodCall K V) : Replays B (B.perform c) (Tape.ask cut c) := by
  refine ⟨fun t ht => ?_, fun s => ⟨[(c, (B.perform c s).1)], ⟨rfl, rfl⟩, fun rest => ?_, fun pre c' a post h => ?_⟩⟩
  · unfold Tape.ask
    split
    · rfl
    · rename_i h _; exact absurd h ht
    · rename_i h _; exact absurd h ht
  · simp [Tape.ask]
  · cases pre with
    | nil =>
      simp only [List.nil_append, List.cons.injEq, Prod.mk.injEq] at h
      rw [← h.1.1]
      rfl
    | cons x pre => simp at h

/-! ### Computations on a tree -/

/-- A state made of a storage and what is in memory. -/
structure Split (σ S M : Type) where
  join : S → M → σ
  mem : σ → M
  sto : σ → S
  eta : ∀ x, join (sto x) (mem x) = x
  mem_join : ∀ s m, mem (join s m) = m
  sto_join : ∀ s m, sto (join s m) = s

variable {σ τ M ε α β : Type}

/-- A computation as a function of the storage. -/
def Split.run (a : Split σ S M) (x : Exec σ ε α) (m : M) (s : S) : (Except ε α × M) × S :=
  (((x (a.join s m)).1, a.mem (x (a.join s m)).2), a.sto (x (a.join s m)).2)

omit [DecidableEq K] [DecidableEq V] in
/-- The computation on the storage is the one on the tape. -/
def RunReplays (B : Backend S K V E) (a : Split σ S M) (b : Split τ (Tape K V E) M) (x : Exec σ ε α) (y : Exec τ ε α) : Prop :=
  ∀ m, Replays B (a.run x m) (b.run y m)

variable {a : Split σ S M} {b : Split τ (Tape K V E) M}

/-- What comes after a computation. -/
def Split.andThen (a : Split σ S M) (f : α → Exec σ ε β) (r : Except ε α × M) (s : S) : (Except ε β × M) × S :=
  match r with
  | (.ok v, m) => a.run (f v) m s
  | (.error e, m) => ((.error e, m), s)

theorem Split.run_bind (a : Split σ S M) (x : Exec σ ε α) (f : α → Exec σ ε β) (m : M) (s : S) :
    a.run (x >>= f) m s = a.andThen f (a.run x m s).1 (a.run x m s).2 := by
  have e1 : a.run x m s = (((x (a.join s m)).1, a.mem (x (a.join s m)).2), a.sto (x (a.join s m)).2) := rfl
  rw [e1]
  have e2 : a.run (x >>= f) m s = ((((x >>= f) (a.join s m)).1, a.mem ((x >>= f) (a.join s m)).2), a.sto ((x >>= f) (a.join s m)).2) := rfl
  rw [e2]
  rcases hx : x (a.join s m) with ⟨e | v, st⟩
  · rw [Exec.bind_error hx]
    rfl
  · rw [Exec.bind_ok hx]
    simp only [Split.andThen, Split.run, a.eta]

omit [DecidableEq K] [DecidableEq V] in
theorem RunReplays.bind {x : Exec σ ε α} {y : Exec τ ε α} {f : α → Exec σ ε β} {g : α → Exec τ ε β} (h : RunReplays B a b x y)
    (h' : ∀ v, RunReplays B a b (f v) (g v)) : RunReplays B a b (x >>= f) (y >>= g) := by
  intro m
  rw [show a.run (x >>= f) m = _ from funext (a.run_bind x f m), show b.run (y >>= g) m = _ from funext (b.run_bind y g m)]
  refine Replays.bind (F' := a.andThen f) (G' := b.andThen g) (h m) fun r => ?_
  rcases r with ⟨e | v, m'⟩
  · exact Replays.pure _
  · exact h' v m'

omit [DecidableEq K] [DecidableEq V] in
theorem RunReplays.pure (v : α) : RunReplays B a b (Pure.pure v : Exec σ ε α) (Pure.pure v) := by
  intro m
  have h1 : ∀ s, a.run (Pure.pure v : Exec σ ε α) m s = ((.ok v, m), s) := fun s => by
    simp only [Split.run, Exec.pure_apply, a.mem_join, a.sto_join]
  have h2 : ∀ s, b.run (Pure.pure v : Exec τ ε α) m s = ((.ok v, m), s) := fun s => by
    simp only [Split.run, Exec.pure_apply, b.mem_join, b.sto_join]
  rw [show a.run _ m = _ from funext h1, show b.run _ m = _ from funext h2]
  exact Replays.pure _

omit [DecidableEq K] [DecidableEq V] in
theorem RunReplays.throw (e : ε) : RunReplays B a b (Exec.throw e : Exec σ ε α) (Exec.throw e) := by
  intro m
  have h1 : ∀ s, a.run (Exec.throw e : Exec σ ε α) m s = ((.error e, m), s) := fun s => by
    simp only [Split.run, Exec.throw, a.mem_join, a.sto_join]
  have h2 : ∀ s, b.run (Exec.throw e : Exec τ ε α) m s = ((.error e, m), s) := fun s => by
    simp only [Split.run, Exec.throw, b.mem_join, b.sto_join]
  rw [show a.run _ m = _ from funext h1, show b.run _ m = _ from funext h2]
  exact Replays.pure _

omit [DecidableEq K] [DecidableEq V] in
theorem RunReplays.lift {E' : Type} (r : Res α) : RunReplays B a b (Exec.liftRes r : Exec σ (Fail E') α) (Exec.liftRes r) := by
  cases r with
  | ok v => exact RunReplays.pure v
  | error e => exact RunReplays.throw (Fail.panic e)

omit [DecidableEq K] [DecidableEq V] in
/-- The memory is read. -/
theorem RunReplays.get (f : M → Exec σ ε β) (g : M → Exec τ ε β) (h : ∀ m, RunReplays B a b (f m) (g m)) :
    RunReplays B a b (Exec.get >>= fun st => f (a.mem st)) (Exec.get >>= fun st => g (b.mem st)) := by
  intro m
  have h1 : ∀ s, a.run (Exec.get >>= fun st => f (a.mem st)) m s = a.run (f m) m s := fun s => by
    simp only [Split.run, Exec.get_bind, a.mem_join]
  have h2 : ∀ s, b.run (Exec.get >>= fun st => g (b.mem st)) m s = b.run (g m) m s := fun s => by
    simp only [Split.run, Exec.get_bind, b.mem_join]
  rw [show a.run _ m = _ from funext h1, show b.run _ m = _ from funext h2]
  exact h m m

omit [DecidableEq K] [DecidableEq V] in
/-- The memory is changed. -/
theorem RunReplays.modify (f : σ → σ) (g : τ → τ) (u : M → M) (hf : ∀ s m, f (a.join s m) = a.join s (u m)) (hg : ∀ s m, g (b.join s m) = b.join s (u m)) :
    RunReplays B a b (Exec.modify f : Exec σ ε Unit) (Exec.modify g) := by
  intro m
  have h1 : ∀ s, a.run (Exec.modify f : Exec σ ε Unit) m s = ((.ok (), u m), s) := fun s => by
    simp only [Split.run, Exec.modify_apply, hf, a.mem_join, a.sto_join]
  have h2 : ∀ s, b.run (Exec.modify g : Exec τ ε Unit) m s = ((.ok (), u m), s) := fun s => by
    simp only [Split.run, Exec.modify_apply, hg, b.mem_join, b.sto_join]
  rw [show a.run _ m = _ from funext h1, show b.run _ m = _ from funext h2]
  exact Replays.pure _

/-- The error of a call is converted. -/
def relabel {T : Type} (w : E → ε) (m : M) (r : Except E (Option V)) (s : T) : (Except ε (Option V) × M) × T :=
  ((match r with | .ok v => .ok v | .error e => .error (w e), m), s)

/-- A storage call whose error is converted. -/
theorem RunReplays.storage (cut : E) (c : MethodCall K V) (w : E → ε) (x : Exec σ ε (Option V)) (y : Exec τ ε (Option V))
    (hx : ∀ s m, x (a.join s m) = (match (B.perform c s).1 with | .ok v => .ok v | .error e => .error (w e), a.join (B.perform c s).2 m))
    (hy : ∀ t m, y (b.join t m) = (match (t.ask cut c).1 with | .ok v => .ok v | .error e => .error (w e), b.join (t.ask cut c).2 m)) :
    RunReplays B a b x y := by
  intro m
  have h1 : ∀ s, a.run x m s = relabel w m (B.perform c s).1 (B.perform c s).2 := fun s => by
    simp only [Split.run, relabel, hx, a.mem_join, a.sto_join]
  have h2 : ∀ s, b.run y m s = relabel w m (s.ask cut c).1 (s.ask cut c).2 := fun s => by
    simp only [Split.run, relabel, hy, b.mem_join, b.sto_join]
  rw [show a.run _ m = _ from funext h1, show b.run _ m = _ from funext h2]
  exact Replays.bind (F' := relabel w m) (G' := relabel w m) (Replays.call cut c) fun r => Replays.pure _

/-! ### Working alone -/

theorem Performed.split {B : Backend S K V E} : ∀ {l : List (Answered K V E)} {s s' : S}, Performed B l s s' → ∀ (pre : List (Answered K V E)) c x post,
    l = pre ++ (c, x) :: post → ∃ s1, Performed B pre s s1 ∧ (B.perform c s1).1 = x ∧ Performed B post (B.perform c s1).2 s'
  | l, s, s', h, [], c, x, post, he => by subst he; exact ⟨s, rfl, h.1, h.2⟩
  | l, s, s', h, y :: pre, c, x, post, he => by
    subst he
    obtain ⟨s1, h1, h2, h3⟩ := Performed.split h.2 pre c x post rfl
    exact ⟨s1, ⟨h.1, h1⟩, h2, h3⟩

/-- A process that works alone makes its calls, one after the other, and comes to its end. -/
theorem Replays.alone {F : S → R × S} {G : Tape K V E → R × Tape K V E} (h : Replays B F G) (i : Nat) (process : Nat → Tape K V E → Tape K V E)
    (hp : ∀ t, process i t = (G t).2) (o₀ : Office S K V E)
    (h₀ : o₀.answered i = []) :
    ∃ n, let o := o₀.turns B process (List.replicate n i)
      o.storage = (F o₀.storage).2 ∧ nextCall (process i) (o.answered i) = none ∧ G ⟨o.answered i, none⟩ = ((F o₀.storage).1, ⟨[], none⟩) := by
  generalize hs : o₀.storage = s
  obtain ⟨l, h1, h2, h3⟩ := h.2 s
  have hend : G ⟨l, none⟩ = ((F s).1, ⟨[], none⟩) := by have := h2 []; rwa [List.append_nil] at this
  have key : ∀ (post pre : List (Answered K V E)) (o : Office S K V E), l = pre ++ post → o.answered i = pre → Performed B post o.storage (F s).2 →
      (o.turns B process (List.replicate post.length i)).storage = (F s).2 ∧ (o.turns B process (List.replicate post.length i)).answered i = l := by
    intro post
    induction post with
    | nil => intro pre o hl ho hP; exact ⟨hP.symm, by rw [hl, List.append_nil]; exact ho⟩
    | cons y post ih =>
      intro pre o hl ho hP
      obtain ⟨c, x⟩ := y
      have hn : nextCall (process i) (o.answered i) = some c := by
        unfold nextCall
        rw [hp, ho, h3 pre c x post hl]
      have ht : o.turn B process i = ⟨(B.perform c o.storage).2, fun j => if j = i then o.answered i ++ [(c, (B.perform c o.storage).1)] else o.answered j⟩ := by
        simp only [Office.turn, hn]
      rw [List.length_cons, List.replicate_succ, Office.turns]
      refine ih (pre ++ [(c, x)]) _ (by rw [hl]; simp) ?_ ?_
      · rw [ht]; simp only [if_true, ho, hP.1]
      · rw [ht]; exact hP.2
  obtain ⟨e1, e2⟩ := key l [] o₀ rfl h₀ (by rw [hs]; exact h1)
  refine ⟨l.length, e1, ?_, ?_⟩
  · rw [nextCall, e2, hp, hend]
  · rw [e2, hend]

end FuelMerkle
