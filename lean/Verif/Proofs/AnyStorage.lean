import Verif.Spec.AnyStorage
import Verif.Proofs.Exec

/-
A run on a storage implementation that behaves like a map is a run on a map with failures.
-/
namespace FuelMerkle
variable {S K V E : Type} [DecidableEq K]

/-- The next calls fare as the log says. -/
def Follows (log : List (Option (Fault E))) (s : Store K V E) : Prop :=
  ∀ i f, log[i]? = some f → s.sched (s.clock + i) = f

/-- As many calls later. -/
def After (log : List (Option (Fault E))) (s s' : Store K V E) : Prop :=
  s'.sched = s.sched ∧ s'.clock = s.clock + log.length

omit [DecidableEq K] in
theorem Follows.left {l1 l2 : List (Option (Fault E))} {s : Store K V E} (h : Follows (l1 ++ l2) s) : Follows l1 s := by
  intro i f hi
  apply h i f
  rw [List.getElem?_append_left]
  · exact hi
  · exact (List.getElem?_eq_some_iff.1 hi).1

omit [DecidableEq K] in
theorem Follows.right {l1 l2 : List (Option (Fault E))} {s s1 : Store K V E} (h : Follows (l1 ++ l2) s) (a : After l1 s s1) :
    Follows l2 s1 := by
  intro i f hi
  rw [a.1, a.2, Nat.add_assoc]
  apply h (l1.length + i) f
  rw [List.getElem?_append_right (by omega)]
  simpa using hi

omit [DecidableEq K] in
theorem After.trans {l1 l2 : List (Option (Fault E))} {s s1 s2 : Store K V E} (a : After l1 s s1) (b : After l2 s1 s2) :
    After (l1 ++ l2) s s2 := by
  refine ⟨b.1.trans a.1, ?_⟩
  rw [b.2, a.2, List.length_append, Nat.add_assoc]

section
variable {σ σ' ε α β : Type} {Q : σ → σ' → Prop} {st : σ' → Store K V E} {nf : Prop}

/-- From the state `t`, the computation `x` does what `y` does from a related state, for a certain fate of the
storage calls of `y`; if nothing can fail (`nf`), nothing fails. -/
def CoversAt (Q : σ → σ' → Prop) (st : σ' → Store K V E) (nf : Prop) (t : σ) (x : Exec σ ε α) (y : Exec σ' ε α) : Prop :=
  ∃ log : List (Option (Fault E)), (nf → ∀ f ∈ log, f = none) ∧ ∀ t', Q t t' → Follows log (st t') →
    (y t').1 = (x t).1 ∧ Q (x t).2 (y t').2 ∧ After log (st t') (st (y t').2)

omit [DecidableEq K] in
theorem CoversAt.still {t : σ} {x : Exec σ ε α} {y : Exec σ' ε α}
    (h : ∀ t', Q t t' → (y t').1 = (x t).1 ∧ Q (x t).2 (y t').2 ∧ st (y t').2 = st t') : CoversAt Q st nf t x y := by
  refine ⟨[], by simp, fun t' hq _ => ?_⟩
  obtain ⟨h1, h2, h3⟩ := h t' hq
  exact ⟨h1, h2, by rw [h3]; exact ⟨rfl, rfl⟩⟩

omit [DecidableEq K] in
theorem CoversAt.pure {t : σ} (a : α) : CoversAt Q st nf t (Pure.pure a : Exec σ ε α) (Pure.pure a) :=
  .still fun _ hq => ⟨rfl, hq, rfl⟩

omit [DecidableEq K] in
theorem CoversAt.throw {t : σ} (e : ε) : CoversAt Q st nf t (Exec.throw e : Exec σ ε α) (Exec.throw e) :=
  .still fun _ hq => ⟨rfl, hq, rfl⟩

omit [DecidableEq K] in
theorem CoversAt.lift {δ : Type} {t : σ} (r : Res α) :
    CoversAt Q st nf t (Exec.liftRes r : Exec σ (Fail δ) α) (Exec.liftRes r) :=
  .still fun t' hq => by cases r <;> exact ⟨rfl, hq, rfl⟩

omit [DecidableEq K] in
theorem CoversAt.bind {t : σ} {x : Exec σ ε α} {y : Exec σ' ε α} {f : α → Exec σ ε β} {g : α → Exec σ' ε β}
    (h : CoversAt Q st nf t x y) (k : ∀ a t1, x t = (.ok a, t1) → CoversAt Q st nf t1 (f a) (g a)) :
    CoversAt Q st nf t (x >>= f) (y >>= g) := by
  obtain ⟨l1, n1, h1⟩ := h
  rcases hx : x t with ⟨r, t1⟩
  cases r with
  | error e =>
    refine ⟨l1, n1, fun t' hq hf => ?_⟩
    obtain ⟨a1, a2, a3⟩ := h1 t' hq hf
    rw [Exec.bind_error hx]
    rw [hx] at a1 a2
    rcases hy : y t' with ⟨r', t1'⟩
    rw [hy] at a1 a2 a3
    simp only at a1
    subst a1
    rw [Exec.bind_error hy]
    exact ⟨rfl, a2, a3⟩
  | ok a =>
    obtain ⟨l2, n2, h2⟩ := k a t1 hx
    refine ⟨l1 ++ l2, fun hn f hf => ?_, fun t' hq hf => ?_⟩
    · rcases List.mem_append.1 hf with h | h
      · exact n1 hn f h
      · exact n2 hn f h
    · obtain ⟨a1, a2, a3⟩ := h1 t' hq hf.left
      rw [Exec.bind_ok hx]
      rw [hx] at a1 a2
      rcases hy : y t' with ⟨r', t1'⟩
      rw [hy] at a1 a2 a3
      simp only at a1
      subst a1
      rw [Exec.bind_ok hy]
      obtain ⟨b1, b2, b3⟩ := h2 t1' a2 (hf.right a3)
      exact ⟨b1, b2, a3.trans b3⟩

/-- Run and forget the result. -/
def discarded (x : Exec σ ε α) : Exec σ ε Unit := x >>= fun _ => Pure.pure ()

theorem bind_discarded (x : Exec σ ε α) (f : Exec σ ε β) : (x >>= fun _ => f) = (discarded x >>= fun _ => f) := by
  unfold discarded
  rw [Exec.bind_assoc]
  rfl

omit [DecidableEq K] in
theorem CoversAt.thenBind {γ : Type} {t : σ} {x : Exec σ ε α} {y : Exec σ' ε γ} {f : Exec σ ε β} {g : Exec σ' ε β}
    (h : CoversAt Q st nf t (discarded x) (discarded y)) (k : ∀ t1, CoversAt Q st nf t1 f g) :
    CoversAt Q st nf t (x >>= fun _ => f) (y >>= fun _ => g) := by
  rw [bind_discarded x, bind_discarded y]
  exact h.bind fun _ t1 _ => k t1

omit [DecidableEq K] in
theorem CoversAt.getBind {t : σ} {f : σ → Exec σ ε β} {g : σ' → Exec σ' ε β} (t0 : σ')
    (h : CoversAt Q st nf t (f t) (g t0)) (e : ∀ t', Q t t' → g t' = g t0) : CoversAt Q st nf t (Exec.get >>= f) (Exec.get >>= g) := by
  obtain ⟨l, n, h⟩ := h
  refine ⟨l, n, fun t' hq hf => ?_⟩
  rw [Exec.get_bind, Exec.get_bind, e t' hq]
  exact h t' hq hf

omit [DecidableEq K] in
theorem CoversAt.modifyBind {t : σ} {u : σ → σ} {v : σ' → σ'} {f : Unit → Exec σ ε β} {g : Unit → Exec σ' ε β}
    (hq : ∀ t', Q t t' → Q (u t) (v t') ∧ st (v t') = st t') (k : CoversAt Q st nf (u t) (f ()) (g ())) :
    CoversAt Q st nf t (Exec.modify u >>= f) (Exec.modify v >>= g) := by
  refine CoversAt.bind (.still fun t' h => ⟨rfl, (hq t' h).1, (hq t' h).2⟩) fun a t1 h => ?_
  cases h
  exact k

omit [DecidableEq K] in
theorem CoversAt.modify {t : σ} {u : σ → σ} {v : σ' → σ'} (hq : ∀ t', Q t t' → Q (u t) (v t') ∧ st (v t') = st t') :
    CoversAt Q st nf t (Exec.modify u : Exec σ ε Unit) (Exec.modify v) :=
  .still fun t' h => ⟨rfl, (hq t' h).1, (hq t' h).2⟩

omit [DecidableEq K] in
theorem CoversAt.ite {t : σ} {c : Prop} [Decidable c] {x x' : Exec σ ε α} {y y' : Exec σ' ε α}
    (h1 : c → CoversAt Q st nf t x y) (h2 : ¬ c → CoversAt Q st nf t x' y') :
    CoversAt Q st nf t (if c then x else x') (if c then y else y') := by
  split
  · exact h1 ‹_›
  · exact h2 ‹_›

end

/-! ### Storage calls -/

variable {B : Backend S K V E} {ok : S → Prop} {view : S → K → Option V}

/-- The map holds what the implementation holds. -/
def Shows (ok : S → Prop) (view : S → K → Option V) (s : S) (s' : Store K V E) : Prop := ok s ∧ s'.map = view s

theorem MapLike.get (hB : MapLike B ok view) (k : K) (s : S) :
    ok s → CoversAt (Shows ok view) id (NeverFails B ok) s (B.get k : Exec S E _) (Store.get k : Exec (Store K V E) E _) := by
  intro hok
  rcases hx : B.get k s with ⟨r, s1⟩
  cases r with
  | ok v =>
    obtain ⟨o, e1, e2⟩ := hB.get_ok hok hx
    refine ⟨[none], by simp, fun s' hq hf => ?_⟩
    have h0 : s'.sched s'.clock = none := hf 0 none rfl
    rw [hx, Store.get_none k h0]
    exact ⟨by rw [e1, hq.2], ⟨o, by rw [e2]; exact hq.2⟩, rfl, rfl⟩
  | error e =>
    obtain ⟨o, e2⟩ := hB.get_error hok hx
    refine ⟨[some ⟨e, false⟩], fun hn => absurd hx ((hn s hok).1 k e s1), fun s' hq hf => ?_⟩
    have h0 : s'.sched s'.clock = some ⟨e, false⟩ := hf 0 _ rfl
    have : Store.get k s' = (.error e, { s' with clock := s'.clock + 1 }) := by simp only [Store.get, h0]
    rw [hx, this]
    exact ⟨rfl, ⟨o, by rw [e2]; exact hq.2⟩, rfl, rfl⟩

theorem MapLike.insert (hB : MapLike B ok view) (k : K) (v : V) (s : S) :
    ok s → CoversAt (Shows ok view) id (NeverFails B ok) s (discarded (B.insert k v : Exec S E _))
      (discarded (Store.insert k v : Exec (Store K V E) E _)) := by
  intro hok
  rcases hx : B.insert k v s with ⟨r, s1⟩
  have hu : ∀ s' : Store K V E, s'.map = view s → (∀ x, view s1 x = if x = k then some v else view s x) →
      Store.upd s'.map k (some v) = view s1 := by
    intro s' h1 h2
    funext x
    rw [h2 x, Store.upd, h1]
  unfold discarded
  cases r with
  | ok r =>
    obtain ⟨o, e2⟩ := hB.insert_ok hok hx
    refine ⟨[none], by simp, fun s' hq hf => ?_⟩
    have h0 : s'.sched s'.clock = none := hf 0 none rfl
    rw [Exec.bind_ok hx, Exec.bind_ok (Store.insert_none k v h0)]
    exact ⟨rfl, ⟨o, hu s' hq.2 e2⟩, rfl, rfl⟩
  | error e =>
    obtain ⟨o, e2⟩ := hB.insert_error hok hx
    rcases e2 with e2 | e2
    · refine ⟨[some ⟨e, false⟩], fun hn => absurd hx ((hn s hok).2.1 k v e s1), fun s' hq hf => ?_⟩
      have h0 : s'.sched s'.clock = some ⟨e, false⟩ := hf 0 _ rfl
      have : Store.insert k v s' = (.error e, { s' with clock := s'.clock + 1 }) := by simp only [Store.insert, h0]; rfl
      rw [Exec.bind_error hx, Exec.bind_error this]
      exact ⟨rfl, ⟨o, by rw [e2]; exact hq.2⟩, rfl, rfl⟩
    · refine ⟨[some ⟨e, true⟩], fun hn => absurd hx ((hn s hok).2.1 k v e s1), fun s' hq hf => ?_⟩
      have h0 : s'.sched s'.clock = some ⟨e, true⟩ := hf 0 _ rfl
      have : Store.insert k v s' = (.error e, { s' with clock := s'.clock + 1, map := Store.upd s'.map k (some v) }) := by
        simp only [Store.insert, h0]; rfl
      rw [Exec.bind_error hx, Exec.bind_error this]
      exact ⟨rfl, ⟨o, hu s' hq.2 e2⟩, rfl, rfl⟩

theorem MapLike.remove (hB : MapLike B ok view) (k : K) (s : S) :
    ok s → CoversAt (Shows ok view) id (NeverFails B ok) s (discarded (B.remove k : Exec S E _))
      (discarded (Store.remove k : Exec (Store K V E) E _)) := by
  intro hok
  rcases hx : B.remove k s with ⟨r, s1⟩
  have hu : ∀ s' : Store K V E, s'.map = view s → (∀ x, view s1 x = if x = k then none else view s x) →
      Store.upd s'.map k none = view s1 := by
    intro s' h1 h2
    funext x
    rw [h2 x, Store.upd, h1]
  unfold discarded
  cases r with
  | ok r =>
    obtain ⟨o, e2⟩ := hB.remove_ok hok hx
    refine ⟨[none], by simp, fun s' hq hf => ?_⟩
    have h0 : s'.sched s'.clock = none := hf 0 none rfl
    rw [Exec.bind_ok hx, Exec.bind_ok (Store.remove_none k h0)]
    exact ⟨rfl, ⟨o, hu s' hq.2 e2⟩, rfl, rfl⟩
  | error e =>
    obtain ⟨o, e2⟩ := hB.remove_error hok hx
    rcases e2 with e2 | e2
    · refine ⟨[some ⟨e, false⟩], fun hn => absurd hx ((hn s hok).2.2 k e s1), fun s' hq hf => ?_⟩
      have h0 : s'.sched s'.clock = some ⟨e, false⟩ := hf 0 _ rfl
      have : Store.remove k s' = (.error e, { s' with clock := s'.clock + 1 }) := by simp only [Store.remove, h0]; rfl
      rw [Exec.bind_error hx, Exec.bind_error this]
      exact ⟨rfl, ⟨o, by rw [e2]; exact hq.2⟩, rfl, rfl⟩
    · refine ⟨[some ⟨e, true⟩], fun hn => absurd hx ((hn s hok).2.2 k e s1), fun s' hq hf => ?_⟩
      have h0 : s'.sched s'.clock = some ⟨e, true⟩ := hf 0 _ rfl
      have : Store.remove k s' = (.error e, { s' with clock := s'.clock + 1, map := Store.upd s'.map k none }) := by
        simp only [Store.remove, h0]; rfl
      rw [Exec.bind_error hx, Exec.bind_error this]
      exact ⟨rfl, ⟨o, hu s' hq.2 e2⟩, rfl, rfl⟩

/-- What is needed of `get`: on related states it fares the same. -/
def Gets (B : Backend S K V E) (Q : S → Store K V E → Prop) (nf : Prop) : Prop :=
  ∀ k s, CoversAt Q id nf s (B.get k : Exec S E _) (Store.get k : Exec (Store K V E) E _)

/-- What is needed of `insert`, but for the value it returns. -/
def Inserts (B : Backend S K V E) (Q : S → Store K V E → Prop) (nf : Prop) : Prop :=
  ∀ k v s, CoversAt Q id nf s (discarded (B.insert k v : Exec S E _)) (discarded (Store.insert k v : Exec (Store K V E) E _))

theorem MapLike.gets (hB : MapLike B ok view) : Gets B (Shows ok view) (NeverFails B ok) := by
  intro k s
  rcases Classical.em (ok s) with o | o
  · exact hB.get k s o
  · exact ⟨[], by simp, fun t' hq _ => absurd hq.1 o⟩

theorem MapLike.inserts (hB : MapLike B ok view) : Inserts B (Shows ok view) (NeverFails B ok) := by
  intro k v s
  rcases Classical.em (ok s) with o | o
  · exact hB.insert k v s o
  · exact ⟨[], by simp, fun t' hq _ => absurd hq.1 o⟩


/-! ### Binary trees -/

namespace Binary.Any
variable {S E : Type} {B : Backend S Nat Prim E} {Q : S → BStore E → Prop} {nf : Prop} {α : Type}

/-- The same tree, on a related storage. -/
def Like (Q : S → BStore E → Prop) (t : Tree S) (t' : Binary.Tree E) : Prop :=
  Q t.storage t'.storage ∧ t'.head = t.head ∧ t'.leavesCount = t.leavesCount

/-- `CoversAt` for binary trees. -/
abbrev Covers (Q : S → BStore E → Prop) (nf : Prop) (t : Tree S) (x : TreeM S E α)
    (y : Binary.TreeM E α) : Prop :=
  CoversAt (Like Q) Binary.Tree.storage nf t x y

theorem covers_storage {t : Tree S} {f : S → Except E α × S} {g : BStore E → Except E α × BStore E}
    (h : CoversAt Q id nf t.storage (f : Exec S E α) (g : Exec (BStore E) E α)) :
    Covers Q nf t (onStorage f) (Binary.onStorage g) := by
  obtain ⟨l, n, h⟩ := h
  refine ⟨l, n, fun t' hq hf => ?_⟩
  obtain ⟨h1, h2, h3⟩ := h t'.storage hq.1 hf
  unfold onStorage Binary.onStorage
  rcases hx : f t.storage with ⟨r, s⟩
  rcases hy : g t'.storage with ⟨r', s'⟩
  rw [hx] at h1 h2
  rw [hy] at h1 h2 h3
  simp only at h1
  subst h1
  cases r' <;> exact ⟨rfl, ⟨h2, hq.2⟩, h3⟩

theorem discarded_onStorage (f : S → Except E α × S) :
    discarded (onStorage f : TreeM S E α) = onStorage (discarded (f : Exec S E α)) := by
  funext t
  rcases h : f t.storage with ⟨r, s⟩
  have e1 : onStorage (E := E) f t = match (r, s) with
      | (.ok a, s) => (.ok a, { t with storage := s })
      | (.error e, s) => (.error (.err (.storageError e)), { t with storage := s }) := by rw [← h]; rfl
  cases r with
  | error e =>
    have e2 : discarded (f : Exec S E α) t.storage = (.error e, s) := Exec.bind_error h
    unfold discarded
    rw [Exec.bind_error e1]
    unfold onStorage
    rw [show (_ >>= _ : Exec S E Unit) t.storage = _ from e2]
  | ok a =>
    have e2 : discarded (f : Exec S E α) t.storage = (.ok (), s) := Exec.bind_ok h
    unfold discarded
    rw [Exec.bind_ok e1]
    unfold onStorage
    rw [show (_ >>= _ : Exec S E Unit) t.storage = _ from e2]
    rfl

theorem discarded_onStorage' (f : BStore E → Except E α × BStore E) :
    discarded (Binary.onStorage f : Binary.TreeM E α) = Binary.onStorage (discarded (f : Exec (BStore E) E α)) := by
  funext t
  rcases h : f t.storage with ⟨r, s⟩
  have e1 : Binary.onStorage (E := E) f t = match (r, s) with
      | (.ok a, s) => (.ok a, { t with storage := s })
      | (.error e, s) => (.error (.err (.storageError e)), { t with storage := s }) := by rw [← h]; rfl
  cases r with
  | error e =>
    have e2 : discarded (f : Exec (BStore E) E α) t.storage = (.error e, s) := Exec.bind_error h
    unfold discarded
    rw [Exec.bind_error e1]
    unfold Binary.onStorage
    rw [show (_ >>= _ : Exec (BStore E) E Unit) t.storage = _ from e2]
  | ok a =>
    have e2 : discarded (f : Exec (BStore E) E α) t.storage = (.ok (), s) := Exec.bind_ok h
    unfold discarded
    rw [Exec.bind_ok e1]
    unfold Binary.onStorage
    rw [show (_ >>= _ : Exec (BStore E) E Unit) t.storage = _ from e2]
    rfl

theorem covers_get (hG : Gets B Q nf) (t : Tree S) (k : Nat) :
    Covers Q nf t (onStorage (B.get k)) (Binary.onStorage (Store.get k)) :=
  covers_storage (hG k t.storage)

theorem covers_insert (hI : Inserts B Q nf) (t : Tree S) (k : Nat) (v : Prim) :
    Covers Q nf t (discarded (onStorage (B.insert k v))) (discarded (Binary.onStorage (Store.insert k v))) := by
  rw [discarded_onStorage, discarded_onStorage']
  exact covers_storage (hI k v t.storage)

theorem covers_buildLoop (hG : Gets B Q nf) : ∀ (peaks : List Position) (head : List Node) (t : Tree S),
    Covers Q nf t (buildLoop B peaks head) (Binary.buildLoop peaks head) := by
  intro peaks
  induction peaks with
  | nil => intro head t; exact .pure _
  | cons q peaks ih =>
    intro head t
    refine (covers_get hG t _).bind fun a t1 _ => ?_
    cases a with
    | none => exact .throw _
    | some a => exact ih _ t1

/-- A tree with a storage of no interest. -/
def stub (t : Tree S) : Binary.Tree E := ⟨⟨fun _ => none, fun _ => none, 0⟩, t.head, t.leavesCount⟩

theorem covers_build (hG : Gets B Q nf) (p : Profile) (t : Tree S) : Covers Q nf t (build B p) (Binary.build p) := by
  refine CoversAt.getBind (stub t) ?_ (fun t' hq => by simp only [hq.2.2, stub])
  refine (CoversAt.lift _).bind fun peaks t1 _ => (covers_buildLoop hG peaks [] t1).bind fun head t2 _ => ?_
  exact .modify fun t' hq => ⟨⟨hq.1, rfl, hq.2.2⟩, rfl⟩

theorem covers_proveSides (hG : Gets B Q nf) (scratch : Scratch) : ∀ (sides : List Position) (t : Tree S),
    Covers Q nf t (proveSides B scratch sides) (Binary.proveSides scratch sides) := by
  intro sides
  induction sides with
  | nil => intro t; exact .pure _
  | cons q sides ih =>
    intro t
    refine (covers_get hG t _).bind fun a t1 _ => ?_
    cases hs : (scratch q.inOrderIndex).or a with
    | none => exact .throw _
    | some x => exact (ih t1).bind fun rest t2 _ => .pure _

theorem covers_prove (hG : Gets B Q nf) (p : Profile) (H : HashFn) (i : Nat) (t : Tree S) :
    Covers Q nf t (prove B p H i) (Binary.prove p H i) := by
  refine CoversAt.getBind (stub t) ?_ (fun t' hq => by simp only [hq.2.1, hq.2.2, stub]; rfl)
  refine (CoversAt.lift _).bind fun next t1 _ => ?_
  refine CoversAt.ite (fun _ => .throw _) fun _ => ?_
  refine (CoversAt.lift _).bind fun rp t1 _ => (CoversAt.lift _).bind fun lp t2 _ => (covers_get hG t2 _).bind fun a t3 _ => ?_
  cases a with
  | none => exact .throw _
  | some a =>
    refine (CoversAt.lift _).bind fun items t4 _ => (CoversAt.lift _).bind fun rn t5 _ => (CoversAt.lift _).bind fun r t6 _ => ?_
    exact (covers_proveSides hG rn.2 _ t6).bind fun sides t7 _ => .pure _

theorem covers_joinAllLoop (hI : Inserts B Q nf) (p : Profile) (H : HashFn) : ∀ (rest : List Node) (c : Node) (t : Tree S),
    Covers Q nf t (joinAllLoop B p H c rest) (Binary.joinAllLoop p H c rest) := by
  intro rest
  induction rest with
  | nil => intro c t; exact .pure _
  | cons n rest ih =>
    intro c t
    unfold joinAllLoop Binary.joinAllLoop
    refine CoversAt.ite (fun _ => ?_) fun _ => .pure _
    refine CoversAt.modifyBind (fun t' hq => ⟨⟨hq.1, rfl, hq.2.2⟩, rfl⟩) ?_
    refine (CoversAt.lift _).bind fun j t1 _ => (covers_insert hI t1 _ _).thenBind fun t2 => ?_
    exact CoversAt.modifyBind (fun t' hq => ⟨⟨hq.1, rfl, hq.2.2⟩, rfl⟩) (ih _ _)

theorem covers_joinAllSubtrees (hI : Inserts B Q nf) (p : Profile) (H : HashFn) (t : Tree S) :
    Covers Q nf t (joinAllSubtrees B p H) (Binary.joinAllSubtrees p H) := by
  refine CoversAt.getBind (stub t) ?_ (fun t' hq => by simp only [hq.2.1, stub])
  show CoversAt _ _ _ t (match t.head with | [] => _ | c :: rest => _) (match t.head with | [] => _ | c :: rest => _)
  cases t.head with
  | nil => exact .throw _
  | cons c rest => exact covers_joinAllLoop hI p H rest c t

theorem covers_push (hI : Inserts B Q nf) (p : Profile) (H : HashFn) (d : Bytes) (t : Tree S) :
    Covers Q nf t (push B p H d) (Binary.push p H d) := by
  refine CoversAt.getBind (stub t) ?_ (fun t' hq => by simp only [hq.2.2, stub])
  refine (CoversAt.lift _).bind fun n t1 _ => (covers_insert hI t1 _ _).thenBind fun t2 => ?_
  refine CoversAt.modifyBind (fun t' hq => ⟨⟨hq.1, by rw [hq.2.1], hq.2.2⟩, rfl⟩) ?_
  refine (covers_joinAllSubtrees hI p H _).bind fun _ t3 _ => ?_
  refine CoversAt.getBind (stub t3) ?_ (fun t' hq => by simp only [hq.2.2, stub])
  refine (CoversAt.lift _).bind fun n t4 _ => ?_
  exact .modify fun t' hq => ⟨⟨hq.1, hq.2.1, rfl⟩, rfl⟩

end Binary.Any

/-! ### Sum trees -/

namespace Sum.Any
variable {S E : Type} {B : Backend S Bytes32 Node E} {Q : S → SStore E → Prop} {nf : Prop} {α : Type}

/-- The same tree, on a related storage. -/
def Like (Q : S → SStore E → Prop) (t : Tree S) (t' : Sum.Tree E) : Prop :=
  Q t.storage t'.storage ∧ t'.head = t.head

/-- `CoversAt` for sum trees. -/
abbrev Covers (Q : S → SStore E → Prop) (nf : Prop) (t : Tree S) (x : TreeM S E α)
    (y : Sum.TreeM E α) : Prop :=
  CoversAt (Like Q) Sum.Tree.storage nf t x y

theorem covers_storage {t : Tree S} {f : S → Except E α × S} {g : SStore E → Except E α × SStore E}
    (h : CoversAt Q id nf t.storage (f : Exec S E α) (g : Exec (SStore E) E α)) :
    Covers Q nf t (onStorage f) (Sum.onStorage g) := by
  obtain ⟨l, n, h⟩ := h
  refine ⟨l, n, fun t' hq hf => ?_⟩
  obtain ⟨h1, h2, h3⟩ := h t'.storage hq.1 hf
  unfold onStorage Sum.onStorage
  rcases hx : f t.storage with ⟨r, s⟩
  rcases hy : g t'.storage with ⟨r', s'⟩
  rw [hx] at h1 h2
  rw [hy] at h1 h2 h3
  simp only at h1
  subst h1
  cases r' <;> exact ⟨rfl, ⟨h2, hq.2⟩, h3⟩

theorem discarded_onStorage (f : S → Except E α × S) :
    discarded (onStorage f : TreeM S E α) = onStorage (discarded (f : Exec S E α)) := by
  funext t
  rcases h : f t.storage with ⟨r, s⟩
  have e1 : onStorage (E := E) f t = match (r, s) with
      | (.ok a, s) => (.ok a, { t with storage := s })
      | (.error e, s) => (.error (.err e), { t with storage := s }) := by rw [← h]; rfl
  cases r with
  | error e =>
    have e2 : discarded (f : Exec S E α) t.storage = (.error e, s) := Exec.bind_error h
    unfold discarded
    rw [Exec.bind_error e1]
    unfold onStorage
    rw [show (_ >>= _ : Exec S E Unit) t.storage = _ from e2]
  | ok a =>
    have e2 : discarded (f : Exec S E α) t.storage = (.ok (), s) := Exec.bind_ok h
    unfold discarded
    rw [Exec.bind_ok e1]
    unfold onStorage
    rw [show (_ >>= _ : Exec S E Unit) t.storage = _ from e2]
    rfl

theorem discarded_onStorage' (f : SStore E → Except E α × SStore E) :
    discarded (Sum.onStorage f : Sum.TreeM E α) = Sum.onStorage (discarded (f : Exec (SStore E) E α)) := by
  funext t
  rcases h : f t.storage with ⟨r, s⟩
  have e1 : Sum.onStorage (E := E) f t = match (r, s) with
      | (.ok a, s) => (.ok a, { t with storage := s })
      | (.error e, s) => (.error (.err e), { t with storage := s }) := by rw [← h]; rfl
  cases r with
  | error e =>
    have e2 : discarded (f : Exec (SStore E) E α) t.storage = (.error e, s) := Exec.bind_error h
    unfold discarded
    rw [Exec.bind_error e1]
    unfold Sum.onStorage
    rw [show (_ >>= _ : Exec (SStore E) E Unit) t.storage = _ from e2]
  | ok a =>
    have e2 : discarded (f : Exec (SStore E) E α) t.storage = (.ok (), s) := Exec.bind_ok h
    unfold discarded
    rw [Exec.bind_ok e1]
    unfold Sum.onStorage
    rw [show (_ >>= _ : Exec (SStore E) E Unit) t.storage = _ from e2]
    rfl

theorem covers_get (hG : Gets B Q nf) (t : Tree S) (k : Bytes32) :
    Covers Q nf t (onStorage (B.get k)) (Sum.onStorage (Store.get k)) :=
  covers_storage (hG k t.storage)

theorem covers_insert (hI : Inserts B Q nf) (t : Tree S) (k : Bytes32) (v : Node) :
    Covers Q nf t (discarded (onStorage (B.insert k v))) (discarded (Sum.onStorage (Store.insert k v))) := by
  rw [discarded_onStorage, discarded_onStorage']
  exact covers_storage (hI k v t.storage)

/-- A tree with a storage of no interest. -/
def stub (t : Tree S) : Sum.Tree E := ⟨⟨fun _ => none, fun _ => none, 0⟩, t.head⟩

theorem covers_joinSubtrees (hI : Inserts B Q nf) (p : Profile) (H : HashFn) (a b : Node) (t : Tree S) :
    Covers Q nf t (joinSubtrees B p H a b) (Sum.joinSubtrees p H a b) := by
  refine (CoversAt.lift _).bind fun h t1 _ => (CoversAt.lift _).bind fun j t2 _ => ?_
  exact (covers_insert hI t2 _ _).thenBind fun t3 => .pure _

theorem covers_rootLoop (hI : Inserts B Q nf) (p : Profile) (H : HashFn) : ∀ (rest : List Node) (c : Node) (t : Tree S),
    Covers Q nf t (rootLoop B p H c rest) (Sum.rootLoop p H c rest) := by
  intro rest
  induction rest with
  | nil => intro c t; exact .pure _
  | cons n rest ih => intro c t; exact (covers_joinSubtrees hI p H _ _ t).bind fun j t1 _ => ih j t1

theorem covers_rootNode (hI : Inserts B Q nf) (p : Profile) (H : HashFn) (t : Tree S) :
    Covers Q nf t (rootNode B p H) (Sum.rootNode p H) := by
  refine CoversAt.getBind (stub t) ?_ (fun t' hq => by simp only [hq.2, stub])
  show CoversAt _ _ _ t (match t.head with | [] => _ | c :: rest => _) (match t.head with | [] => _ | c :: rest => _)
  cases t.head with
  | nil => exact .pure _
  | cons c rest => exact (covers_rootLoop hI p H rest c t).bind fun _ _ _ => .pure _

theorem covers_root (hI : Inserts B Q nf) (p : Profile) (H : HashFn) (t : Tree S) :
    Covers Q nf t (root B p H) (Sum.root p H) := by
  refine (covers_rootNode hI p H t).bind fun a t1 _ => ?_
  cases a <;> exact .pure _

theorem covers_joinAllLoop (hI : Inserts B Q nf) (p : Profile) (H : HashFn) : ∀ (rest : List Node) (c : Node) (t : Tree S),
    Covers Q nf t (joinAllLoop B p H c rest) (Sum.joinAllLoop p H c rest) := by
  intro rest
  induction rest with
  | nil => intro c t; exact .pure _
  | cons n rest ih =>
    intro c t
    unfold joinAllLoop Sum.joinAllLoop
    refine CoversAt.ite (fun _ => ?_) fun _ => .pure _
    refine CoversAt.modifyBind (fun t' hq => ⟨⟨hq.1, rfl⟩, rfl⟩) ?_
    refine (covers_joinSubtrees hI p H _ _ _).bind fun j t1 _ => ?_
    exact CoversAt.modifyBind (fun t' hq => ⟨⟨hq.1, rfl⟩, rfl⟩) (ih _ _)

theorem covers_joinAllSubtrees (hI : Inserts B Q nf) (p : Profile) (H : HashFn) (t : Tree S) :
    Covers Q nf t (joinAllSubtrees B p H) (Sum.joinAllSubtrees p H) := by
  refine CoversAt.getBind (stub t) ?_ (fun t' hq => by simp only [hq.2, stub])
  show CoversAt _ _ _ t (match t.head with | [] => _ | c :: rest => _) (match t.head with | [] => _ | c :: rest => _)
  cases t.head with
  | nil => exact .throw _
  | cons c rest => exact covers_joinAllLoop hI p H rest c t

theorem covers_push (hI : Inserts B Q nf) (p : Profile) (H : HashFn) (fee : Nat) (d : Bytes) (t : Tree S) :
    Covers Q nf t (push B p H fee d) (Sum.push p H fee d) := by
  refine (covers_insert hI t _ _).thenBind fun t2 => ?_
  exact CoversAt.modifyBind (fun t' hq => ⟨⟨hq.1, by rw [hq.2]⟩, rfl⟩) (covers_joinAllSubtrees hI p H _)

end Sum.Any

/-! ### Sparse trees -/

namespace Sparse.Any
variable {S E : Type} {B : Backend S Bytes32 Prim E} {ok : S → Prop} {view : S → Bytes32 → Option Prim} {α : Type}

/-- The same tree, on a map that holds the same. -/
def Like (ok : S → Prop) (view : S → Bytes32 → Option Prim) (t : Tree S) (t' : Sparse.Tree E) : Prop :=
  Shows ok view t.storage t'.storage ∧ t'.rootNode = t.rootNode

/-- `CoversAt` for sparse trees. -/
abbrev Covers (B : Backend S Bytes32 Prim E) (ok : S → Prop) (view : S → Bytes32 → Option Prim) (t : Tree S) (x : TreeM S E α)
    (y : Sparse.TreeM E α) : Prop :=
  CoversAt (Like ok view) Sparse.Tree.storage (NeverFails B ok) t x y

theorem covers_of_ok {t : Tree S} {x : TreeM S E α} {y : Sparse.TreeM E α} (h : ok t.storage → Covers B ok view t x y) :
    Covers B ok view t x y := by
  by_cases o : ok t.storage
  · exact h o
  · exact ⟨[], by simp, fun t' hq _ => absurd hq.1.1 o⟩

theorem covers_storage {t : Tree S} {f : S → Except E α × S} {g : SpStore E → Except E α × SpStore E}
    (h : ok t.storage → CoversAt (Shows ok view) id (NeverFails B ok) t.storage (f : Exec S E α) (g : Exec (SpStore E) E α)) :
    Covers B ok view t (onStorage f) (Sparse.onStorage g) := by
  refine covers_of_ok fun o => ?_
  obtain ⟨l, n, h⟩ := h o
  refine ⟨l, n, fun t' hq hf => ?_⟩
  obtain ⟨h1, h2, h3⟩ := h t'.storage hq.1 hf
  unfold onStorage Sparse.onStorage
  rcases hx : f t.storage with ⟨r, s⟩
  rcases hy : g t'.storage with ⟨r', s'⟩
  rw [hx] at h1 h2
  rw [hy] at h1 h2 h3
  simp only at h1
  subst h1
  cases r' <;> exact ⟨rfl, ⟨h2, hq.2⟩, h3⟩

theorem discarded_onStorage (f : S → Except E α × S) :
    discarded (onStorage f : TreeM S E α) = onStorage (discarded (f : Exec S E α)) := by
  funext t
  rcases h : f t.storage with ⟨r, s⟩
  have e1 : onStorage (E := E) f t = match (r, s) with
      | (.ok a, s) => (.ok a, { t with storage := s })
      | (.error e, s) => (.error (.err (.storageError e)), { t with storage := s }) := by rw [← h]; rfl
  cases r with
  | error e =>
    have e2 : discarded (f : Exec S E α) t.storage = (.error e, s) := Exec.bind_error h
    unfold discarded
    rw [Exec.bind_error e1]
    unfold onStorage
    rw [show (_ >>= _ : Exec S E Unit) t.storage = _ from e2]
  | ok a =>
    have e2 : discarded (f : Exec S E α) t.storage = (.ok (), s) := Exec.bind_ok h
    unfold discarded
    rw [Exec.bind_ok e1]
    unfold onStorage
    rw [show (_ >>= _ : Exec S E Unit) t.storage = _ from e2]
    rfl

theorem discarded_onStorage' (f : SpStore E → Except E α × SpStore E) :
    discarded (Sparse.onStorage f : Sparse.TreeM E α) = Sparse.onStorage (discarded (f : Exec (SpStore E) E α)) := by
  funext t
  rcases h : f t.storage with ⟨r, s⟩
  have e1 : Sparse.onStorage (E := E) f t = match (r, s) with
      | (.ok a, s) => (.ok a, { t with storage := s })
      | (.error e, s) => (.error (.err (.storageError e)), { t with storage := s }) := by rw [← h]; rfl
  cases r with
  | error e =>
    have e2 : discarded (f : Exec (SpStore E) E α) t.storage = (.error e, s) := Exec.bind_error h
    unfold discarded
    rw [Exec.bind_error e1]
    unfold Sparse.onStorage
    rw [show (_ >>= _ : Exec (SpStore E) E Unit) t.storage = _ from e2]
  | ok a =>
    have e2 : discarded (f : Exec (SpStore E) E α) t.storage = (.ok (), s) := Exec.bind_ok h
    unfold discarded
    rw [Exec.bind_ok e1]
    unfold Sparse.onStorage
    rw [show (_ >>= _ : Exec (SpStore E) E Unit) t.storage = _ from e2]
    rfl

theorem covers_get (hB : MapLike B ok view) (t : Tree S) (k : Bytes32) :
    Covers B ok view t (onStorage (B.get k)) (Sparse.onStorage (Store.get k)) :=
  covers_storage (hB.get k t.storage)

theorem covers_insert (hB : MapLike B ok view) (t : Tree S) (k : Bytes32) (v : Prim) :
    Covers B ok view t (discarded (onStorage (B.insert k v))) (discarded (Sparse.onStorage (Store.insert k v))) := by
  rw [discarded_onStorage, discarded_onStorage']
  exact covers_storage (hB.insert k v t.storage)

theorem covers_remove (hB : MapLike B ok view) (t : Tree S) (k : Bytes32) :
    Covers B ok view t (discarded (onStorage (B.remove k))) (discarded (Sparse.onStorage (Store.remove k))) := by
  rw [discarded_onStorage, discarded_onStorage']
  exact covers_storage (hB.remove k t.storage)

theorem covers_try (hB : MapLike B ok view) (t : Tree S) (k : Bytes32) :
    Covers B ok view t (tryStorage (B.get k)) (Sparse.tryStorage (Store.get k)) := by
  refine covers_of_ok fun o => ?_
  obtain ⟨l, n, h⟩ := hB.get k t.storage o
  refine ⟨l, n, fun t' hq hf => ?_⟩
  obtain ⟨h1, h2, h3⟩ := h t'.storage hq.1 hf
  exact ⟨congrArg Except.ok h1, ⟨h2, hq.2⟩, h3⟩

/-- A tree with a storage of no interest. -/
def stub (t : Tree S) : Sparse.Tree E := ⟨t.rootNode, ⟨fun _ => none, fun _ => none, 0⟩⟩

theorem covers_childByKey (hB : MapLike B ok view) (k : Bytes32) (t : Tree S) :
    Covers B ok view t (childByKey B k) (Sparse.childByKey k) := by
  unfold childByKey Sparse.childByKey
  refine CoversAt.ite (fun _ => .pure _) fun _ => (covers_try hB t k).bind fun a t1 _ => ?_
  rcases a with e | _ | q
  · exact .pure _
  · exact .pure _
  · show CoversAt _ _ _ t1 (match Node.ofPrim q with | .ok n => _ | .error e => _) (match Node.ofPrim q with | .ok n => _ | .error e => _)
    cases Node.ofPrim q <;> exact .pure _

theorem covers_leftChild (hB : MapLike B ok view) (n : Node) (t : Tree S) :
    Covers B ok view t (leftChild B n) (Sparse.leftChild n) := by
  unfold leftChild Sparse.leftChild
  exact CoversAt.ite (fun _ => .pure _) fun _ => (CoversAt.lift _).bind fun k t1 _ => covers_childByKey hB k t1

theorem covers_rightChild (hB : MapLike B ok view) (n : Node) (t : Tree S) :
    Covers B ok view t (rightChild B n) (Sparse.rightChild n) := by
  unfold rightChild Sparse.rightChild
  exact CoversAt.ite (fun _ => .pure _) fun _ => (CoversAt.lift _).bind fun k t1 _ => covers_childByKey hB k t1

theorem covers_next (hB : MapLike B ok view) (it : PathIter Node (CErr E)) (t : Tree S) :
    Covers B ok view t (it.next (storageNode B) : TreeM S E _) (it.next Sparse.storageNode : Sparse.TreeM E _) := by
  unfold PathIter.next
  split
  · show CoversAt _ _ _ t (if Node.isNode _ then _ else _) (if Node.isNode _ then _ else _)
    refine CoversAt.ite (fun _ => ?_) fun _ => .pure _
    refine CoversAt.bind ((CoversAt.lift _).bind fun k t1 _ => .pure _) fun path t1 _ => ?_
    split
    · exact (covers_leftChild hB _ t1).bind fun l t2 _ => (covers_rightChild hB _ t2).bind fun r t3 _ => .pure _
    · exact (covers_rightChild hB _ t1).bind fun l t2 _ => (covers_leftChild hB _ t2).bind fun r t3 _ => .pure _
    · exact .pure _
  · exact .pure _
  · exact .pure _

theorem covers_collectPath (hB : MapLike B ok view) : ∀ (fuel : Nat) (it : PathIter Node (CErr E)) (t : Tree S),
    Covers B ok view t (collectPath B fuel it) (Sparse.collectPath fuel it) := by
  intro fuel
  induction fuel with
  | zero => intro it t; exact .throw _
  | succ fuel ih =>
    intro it t
    refine (covers_next hB it t).bind fun x t1 _ => ?_
    obtain ⟨v, it'⟩ := x
    rcases v with _ | ⟨_ | a, _ | b⟩
    · exact .pure _
    · exact .throw _
    · exact .throw _
    · exact .throw _
    · exact (ih it' t1).bind fun rest t2 _ => .pure _

theorem covers_pathSet (hB : MapLike B ok view) (p : Profile) (n : Node) (t : Tree S) :
    Covers B ok view t (pathSet B p n) (Sparse.pathSet p n) := by
  refine CoversAt.getBind (stub t) ?_ (fun t' hq => by simp only [hq.2, stub])
  refine CoversAt.bind ((CoversAt.lift _).bind fun k t1 _ => .pure _) fun it t1 _ => ?_
  exact (covers_collectPath hB _ it t1).bind fun items t2 _ => .pure _

theorem covers_mergeNode (hB : MapLike B ok view) (p : Profile) (H : HashFn) (path : Bytes) (a b : Node) (t : Tree S) :
    Covers B ok view t (mergeNode B p H path a b) (Sparse.mergeNode p H path a b) := by
  refine (CoversAt.lift _).bind fun c t1 _ => (covers_insert hB t1 _ _).thenBind fun t2 => .pure _

theorem covers_mergeNodes (hB : MapLike B ok view) (p : Profile) (H : HashFn) (path : Bytes) : ∀ (sides : List Node) (c : Node) (t : Tree S),
    Covers B ok view t (mergeNodes B p H path c sides) (Sparse.mergeNodes p H path c sides) := by
  intro sides
  induction sides with
  | nil => intro c t; exact .pure _
  | cons n rest ih => intro c t; exact (covers_mergeNode hB p H path _ _ t).bind fun j t1 _ => ih j t1

theorem covers_setRootNode (p : Profile) (n : Node) (t : Tree S) :
    Covers B ok view t (setRootNode p n) (Sparse.setRootNode p n) :=
  (CoversAt.lift _).bind fun _ _ _ => .modify fun _ hq => ⟨⟨hq.1, rfl⟩, rfl⟩

theorem covers_updateWithPathSet (hB : MapLike B ok view) (p : Profile) (H : HashFn) (r : Node) (ps ss : List Node) (t : Tree S) :
    Covers B ok view t (updateWithPathSet B p H r ps ss) (Sparse.updateWithPathSet p H r ps ss) := by
  refine (CoversAt.lift _).bind fun path t1 _ => ?_
  cases ps with
  | nil => exact .throw _
  | cons actual ps =>
    refine (CoversAt.lift _).bind fun k1 t2 _ => (CoversAt.lift _).bind fun k2 t3 _ => ?_
    refine CoversAt.bind (CoversAt.ite (fun _ => ?_) fun _ => .pure _) fun c t4 _ =>
      (covers_mergeNodes hB p H _ _ c t4).bind fun c t5 _ => covers_setRootNode p c t5
    refine CoversAt.bind (CoversAt.ite (fun _ => .pure _) fun _ => covers_mergeNode hB p H _ _ _ t3) fun c t4 _ => ?_
    exact (CoversAt.lift _).bind fun d t5 _ => covers_mergeNodes hB p H _ _ c t5

theorem covers_removeAll (hB : MapLike B ok view) (H : HashFn) : ∀ (ns : List Node) (t : Tree S),
    Covers B ok view t (removeAll B H ns) (Sparse.removeAll H ns) := by
  intro ns
  induction ns with
  | nil => intro t; exact .pure _
  | cons n ns ih => intro t; exact (covers_remove hB t _).thenBind fun t1 => ih t1

theorem covers_deleteWithPathSet (hB : MapLike B ok view) (p : Profile) (H : HashFn) (r : Node) (ps ss : List Node) (t : Tree S) :
    Covers B ok view t (deleteWithPathSet B p H r ps ss) (Sparse.deleteWithPathSet p H r ps ss) := by
  refine (covers_removeAll hB H ps t).bind fun _ t1 _ => (CoversAt.lift _).bind fun path t2 _ => ?_
  refine CoversAt.bind ?_ fun x t3 _ => (covers_mergeNodes hB p H _ x.2 x.1 t3).bind fun c t4 _ => covers_setRootNode p c t4
  cases ss with
  | nil => exact .pure _
  | cons first others =>
    refine CoversAt.ite (fun _ => ?_) fun _ => .pure _
    rcases findNonPlaceholder others with ⟨_ | side, rest⟩
    · exact .pure _
    · exact (covers_mergeNode hB p H _ _ _ t2).bind fun c t3 _ => .pure _

theorem covers_delete (hB : MapLike B ok view) (p : Profile) (H : HashFn) (k : Bytes32) (t : Tree S) :
    Covers B ok view t (delete B p H k) (Sparse.delete p H k) := by
  refine CoversAt.getBind (stub t) ?_ (fun t' hq => by simp only [Sparse.Tree.root, hq.2, stub]; rfl)
  refine CoversAt.ite (fun _ => .pure _) fun _ => (covers_get hB t k).bind fun a t1 _ => ?_
  cases a with
  | none => exact .pure _
  | some q =>
    show CoversAt _ _ _ t1 (match Node.ofPrim q with | .error e => _ | .ok n => _) (match Node.ofPrim q with | .error e => _ | .ok n => _)
    cases Node.ofPrim q with
    | error e => exact .throw _
    | ok n => exact (covers_pathSet hB p n t1).bind fun x t2 _ => covers_deleteWithPathSet hB p H n x.1 x.2 t2

theorem covers_update (hB : MapLike B ok view) (p : Profile) (H : HashFn) (k : Bytes32) (d : Bytes) (t : Tree S) :
    Covers B ok view t (update B p H k d) (Sparse.update p H k d) := by
  unfold update Sparse.update
  refine CoversAt.ite (fun _ => covers_delete hB p H k t) fun _ => ?_
  refine (covers_insert hB t _ _).thenBind fun t1 => (CoversAt.lift _).bind fun key t2 _ => (covers_insert hB t2 _ _).thenBind fun t3 => ?_
  refine CoversAt.getBind (stub t3) ?_ (fun t' hq => by simp only [hq.2, stub]; rfl)
  refine CoversAt.ite (fun _ => covers_setRootNode p _ t3) fun _ => (covers_pathSet hB p _ t3).bind fun x t4 _ => ?_
  exact covers_updateWithPathSet hB p H _ x.1 x.2 t4

end Sparse.Any

/-! ### Several trees, all requests -/

/-- A request that always answers, as a computation. -/
def answering {σ α : Type} (f : σ → α × σ) : Exec σ Empty α := fun s => (.ok (f s).1, (f s).2)

section
variable {S K V E : Type} [DecidableEq K] {σ σ' α : Type} {Q : σ → σ' → Prop} {st : σ' → Store K V E} {nf : Prop}

omit [DecidableEq K] in
theorem CoversAt.answers {c : σ} {f : σ → α × σ} {g : σ' → α × σ'}
    (h : ∃ log : List (Option (Fault E)), (nf → ∀ f ∈ log, f = none) ∧ ∀ c', Q c c' → Follows log (st c') →
      (g c').1 = (f c).1 ∧ Q (f c).2 (g c').2 ∧ After log (st c') (st (g c').2)) :
    CoversAt Q st nf c (answering f) (answering g) := by
  obtain ⟨l, n, h⟩ := h
  exact ⟨l, n, fun c' hq hf => ⟨congrArg Except.ok (h c' hq hf).1, (h c' hq hf).2⟩⟩

omit [DecidableEq K] in
/-- From a covered computation to one on a map. -/
theorem CoversAt.elimExec {ε : Type} {c : σ} {x : Exec σ ε α} {y : Exec σ' ε α} (h : CoversAt Q st nf c x y) :
    ∃ sched : Nat → Option (Fault E), (nf → ∀ n, sched n = none) ∧ ∀ c', Q c c' → (st c').sched = sched → (st c').clock = 0 →
      (y c').1 = (x c).1 ∧ Q (x c).2 (y c').2 := by
  obtain ⟨l, n, h⟩ := h
  refine ⟨fun i => (l[i]?).getD none, fun hn i => ?_, fun c' hq hs hc => ?_⟩
  · cases hl : l[i]? with
    | none => simp only [hl, Option.getD_none]
    | some f => simpa only [hl, Option.getD_some] using n hn f (List.mem_of_getElem? hl)
  · obtain ⟨h1, h2, _⟩ := h c' hq (fun i f hi => by rw [hs, hc, Nat.zero_add]; simp only [hi, Option.getD_some])
    exact ⟨h1, h2⟩

omit [DecidableEq K] in
/-- From a covered run to a run on a map. -/
theorem CoversAt.elim {c : σ} {f : σ → α × σ} {g : σ' → α × σ'} (h : CoversAt Q st nf c (answering f) (answering g)) :
    ∃ sched : Nat → Option (Fault E), (nf → ∀ n, sched n = none) ∧ ∀ c', Q c c' → (st c').sched = sched → (st c').clock = 0 →
      (g c').1 = (f c).1 ∧ Q (f c).2 (g c').2 := by
  obtain ⟨sched, hn, h⟩ := h.elimExec
  exact ⟨sched, hn, fun c' hq hs hc => ⟨Except.ok.inj (h c' hq hs hc).1, (h c' hq hs hc).2⟩⟩
end

namespace Binary.Any
variable {S E : Type} {B : Backend S Nat Prim E} {ok : S → Prop} {view : S → Nat → Option Prim}

/-- The same trees on a map that holds the same. -/
def LikeBench (ok : S → Prop) (view : S → Nat → Option Prim) (c : Bench S) (c' : Binary.Bench E) : Prop :=
  Shows ok view c.storage c'.storage ∧ c'.head = c.head ∧ c'.count = c.count

theorem covers_load (hB : MapLike B ok view) (p : Profile) (n : Nat) (s : S) :
    ∃ log : List (Option (Fault E)), (NeverFails B ok → ∀ f ∈ log, f = none) ∧ ∀ s', Shows ok view s s' → Follows log s' →
      (Binary.Tree.load p s' n).1.map (fun t => (t.head, t.leavesCount)) = (Tree.load B p s n).1.map (fun t => (t.head, t.leavesCount)) ∧
      Shows ok view (Tree.load B p s n).2 (Binary.Tree.load p s' n).2 ∧ After log s' (Binary.Tree.load p s' n).2 := by
  obtain ⟨l, nf, h⟩ := covers_build hB.gets p ⟨s, [], n⟩
  refine ⟨l, nf, fun s' hq hf => ?_⟩
  obtain ⟨h1, h2, h3⟩ := h ⟨s', [], n⟩ ⟨hq, rfl, rfl⟩ hf
  rcases hx : build B p ⟨s, [], n⟩ with ⟨r, t⟩
  rcases hy : Binary.build p ⟨s', [], n⟩ with ⟨r', t'⟩
  rw [hx] at h1 h2
  rw [hy] at h1 h2 h3
  simp only at h1
  subst h1
  cases r' with
  | error e => simp only [Tree.load, Binary.Tree.load, hx, hy]; exact ⟨rfl, h2.1, h3⟩
  | ok u =>
    simp only [Tree.load, Binary.Tree.load, hx, hy]
    exact ⟨by simp only [Except.map]; rw [h2.2.1, h2.2.2], h2.1, h3⟩

theorem covers_act (hB : MapLike B ok view) (p : Profile) (H : HashFn) (a : Action) (c : Bench S) :
    CoversAt (LikeBench ok view) Binary.Bench.storage (NeverFails B ok) c (answering (Bench.act B p H a))
      (answering (Binary.Bench.act p H a)) := by
  apply CoversAt.answers
  cases a with
  | new i =>
    refine ⟨[], by simp, fun c' hq _ => ⟨rfl, ⟨hq.1, ?_, ?_⟩, rfl, rfl⟩⟩
    · simp only [Bench.act, Binary.Bench.act, hq.2.1]; rfl
    · simp only [Bench.act, Binary.Bench.act, hq.2.2]; rfl
  | load i n =>
    obtain ⟨l, nf, h⟩ := covers_load hB p n c.storage
    refine ⟨l, nf, fun c' hq hf => ?_⟩
    obtain ⟨h1, h2, h3⟩ := h c'.storage hq.1 hf
    rcases hx : Tree.load B p c.storage n with ⟨r, s⟩
    rcases hy : Binary.Tree.load p c'.storage n with ⟨r', s'⟩
    rw [hx] at h1 h2
    rw [hy] at h1 h2 h3
    cases r with
    | error e =>
      cases r' with
      | error e' =>
        simp only [Except.map, Except.error.injEq] at h1
        subst h1
        simp only [Bench.act, Binary.Bench.act, hx, hy]
        exact ⟨trivial, ⟨h2, hq.2⟩, h3⟩
      | ok t' => simp [Except.map] at h1
    | ok t =>
      cases r' with
      | error e' => simp [Except.map] at h1
      | ok t' =>
        simp only [Except.map, Except.ok.injEq, Prod.mk.injEq] at h1
        simp only [Bench.act, Binary.Bench.act, hx, hy]
        exact ⟨trivial, ⟨h2, by simp only [h1.1, hq.2.1], by simp only [h1.2, hq.2.2]⟩, h3⟩
  | call i op =>
    have key : ∃ log : List (Option (Fault E)), (NeverFails B ok → ∀ f ∈ log, f = none) ∧ ∀ c', LikeBench ok view c c' → Follows log c'.storage →
        let x := step B p H op ⟨c.storage, c.head i, c.count i⟩
        let y := Binary.step p H op ⟨c'.storage, c'.head i, c'.count i⟩
        y.1 = x.1 ∧ Like (Shows ok view) x.2 y.2 ∧ After log c'.storage y.2.storage := by
      cases op with
      | push d =>
        obtain ⟨l, nf, h⟩ := covers_push hB.inserts p H d ⟨c.storage, c.head i, c.count i⟩
        refine ⟨l, nf, fun c' hq hf => ?_⟩
        obtain ⟨h1, h2, h3⟩ := h ⟨c'.storage, c'.head i, c'.count i⟩ ⟨hq.1, by rw [hq.2.1], by rw [hq.2.2]⟩ hf
        exact ⟨congrArg Out.push h1, h2, h3⟩
      | prove k =>
        obtain ⟨l, nf, h⟩ := covers_prove hB.gets p H k ⟨c.storage, c.head i, c.count i⟩
        refine ⟨l, nf, fun c' hq hf => ?_⟩
        obtain ⟨h1, h2, h3⟩ := h ⟨c'.storage, c'.head i, c'.count i⟩ ⟨hq.1, by rw [hq.2.1], by rw [hq.2.2]⟩ hf
        exact ⟨congrArg Out.prove h1, h2, h3⟩
      | root =>
        refine ⟨[], by simp, fun c' hq _ => ⟨?_, ⟨hq.1, by simp only [step, Binary.step, hq.2.1], by simp only [step, Binary.step, hq.2.2]⟩, rfl, rfl⟩⟩
        simp only [step, Binary.step, Tree.root, Binary.Tree.root, hq.2.1]
        rfl
    obtain ⟨l, nf, h⟩ := key
    refine ⟨l, nf, fun c' hq hf => ?_⟩
    obtain ⟨h1, h2, h3⟩ := h c' hq hf
    refine ⟨congrArg Reply.call h1, ⟨h2.1, ?_, ?_⟩, h3⟩
    · funext j
      show (if j = i then _ else c'.head j) = if j = i then _ else c.head j
      split
      · exact h2.2.1
      · rw [hq.2.1]
    · funext j
      show (if j = i then _ else c'.count j) = if j = i then _ else c.count j
      split
      · exact h2.2.2
      · rw [hq.2.2]

theorem covers_acts (hB : MapLike B ok view) (p : Profile) (H : HashFn) : ∀ (as : List Action) (c : Bench S),
    CoversAt (LikeBench ok view) Binary.Bench.storage (NeverFails B ok) c (answering (Bench.acts B p H as))
      (answering (Binary.Bench.acts p H as)) := by
  intro as
  induction as with
  | nil => intro c; exact .still fun _ hq => ⟨rfl, hq, rfl⟩
  | cons a as ih =>
    intro c
    exact CoversAt.bind (covers_act hB p H a c) fun o c1 _ => CoversAt.bind (ih c1) fun os c2 _ => .pure (o :: os)

theorem covers_pushAll {Q : S → BStore E → Prop} {nf : Prop} (hI : Inserts B Q nf) (p : Profile) (H : HashFn) : ∀ (ds : List Bytes) (t : Tree S),
    Covers Q nf t (pushAll B p H ds) (Binary.pushAll p H ds) := by
  intro ds
  induction ds with
  | nil => intro t; exact .pure _
  | cons d ds ih => intro t; exact (covers_push hI p H d t).bind fun _ t1 _ => ih t1

end Binary.Any

namespace Sum.Any
variable {S E : Type} {B : Backend S Bytes32 Node E} {ok : S → Prop} {view : S → Bytes32 → Option Node}

/-- The same trees on a map that holds the same. -/
def LikeDesk (ok : S → Prop) (view : S → Bytes32 → Option Node) (c : Desk S) (c' : Sum.Desk E) : Prop :=
  Shows ok view c.storage c'.storage ∧ c'.head = c.head

theorem covers_step (hB : MapLike B ok view) (p : Profile) (H : HashFn) (x : Nat × Op) (c : Desk S) :
    CoversAt (LikeDesk ok view) Sum.Desk.storage (NeverFails B ok) c (answering (Desk.step B p H x))
      (answering (Sum.Desk.step p H x)) := by
  apply CoversAt.answers
  obtain ⟨i, op⟩ := x
  have key : ∃ log : List (Option (Fault E)), (NeverFails B ok → ∀ f ∈ log, f = none) ∧ ∀ c', LikeDesk ok view c c' → Follows log c'.storage →
      let x := step B p H op ⟨c.storage, c.head i⟩
      let y := Sum.step p H op ⟨c'.storage, c'.head i⟩
      y.1 = x.1 ∧ Like (Shows ok view) x.2 y.2 ∧ After log c'.storage y.2.storage := by
    cases op with
    | push fee d =>
      obtain ⟨l, nf, h⟩ := covers_push hB.inserts p H fee d ⟨c.storage, c.head i⟩
      refine ⟨l, nf, fun c' hq hf => ?_⟩
      obtain ⟨h1, h2, h3⟩ := h ⟨c'.storage, c'.head i⟩ ⟨hq.1, by rw [hq.2]⟩ hf
      exact ⟨congrArg Out.push h1, h2, h3⟩
    | root =>
      obtain ⟨l, nf, h⟩ := covers_root hB.inserts p H ⟨c.storage, c.head i⟩
      refine ⟨l, nf, fun c' hq hf => ?_⟩
      obtain ⟨h1, h2, h3⟩ := h ⟨c'.storage, c'.head i⟩ ⟨hq.1, by rw [hq.2]⟩ hf
      exact ⟨congrArg Out.root h1, h2, h3⟩
  obtain ⟨l, nf, h⟩ := key
  refine ⟨l, nf, fun c' hq hf => ?_⟩
  obtain ⟨h1, h2, h3⟩ := h c' hq hf
  refine ⟨h1, ⟨h2.1, ?_⟩, h3⟩
  funext j
  show (if j = i then _ else c'.head j) = if j = i then _ else c.head j
  split
  · exact h2.2
  · rw [hq.2]

theorem covers_run (hB : MapLike B ok view) (p : Profile) (H : HashFn) : ∀ (xs : List (Nat × Op)) (c : Desk S),
    CoversAt (LikeDesk ok view) Sum.Desk.storage (NeverFails B ok) c (answering (Desk.run B p H xs))
      (answering (Sum.Desk.run p H xs)) := by
  intro xs
  induction xs with
  | nil => intro c; exact .still fun _ hq => ⟨rfl, hq, rfl⟩
  | cons x xs ih =>
    intro c
    exact CoversAt.bind (covers_step hB p H x c) fun o c1 _ => CoversAt.bind (ih c1) fun os c2 _ => .pure (o :: os)

theorem covers_pushAll {Q : S → SStore E → Prop} {nf : Prop} (hI : Inserts B Q nf) (p : Profile) (H : HashFn) : ∀ (ds : List Spec.Item) (t : Tree S),
    Covers Q nf t (pushAll B p H ds) (Sum.pushAll p H ds) := by
  intro ds
  induction ds with
  | nil => intro t; exact .pure _
  | cons d ds ih => intro t; exact (covers_push hI p H d.1 d.2 t).bind fun _ t1 _ => ih t1

end Sum.Any

namespace Sparse.Any
variable {S E : Type} {B : Backend S Bytes32 Prim E} {ok : S → Prop} {view : S → Bytes32 → Option Prim}

/-- The same trees on a map that holds the same. -/
def LikeBench (ok : S → Prop) (view : S → Bytes32 → Option Prim) (c : Bench S) (c' : Sparse.Bench E) : Prop :=
  Shows ok view c.storage c'.storage ∧ c'.node = c.node

theorem covers_opRun (hB : MapLike B ok view) (p : Profile) (H : HashFn) (op : Op) (t : Tree S) :
    Covers B ok view t (run B p H op) (op.run p H) := by
  cases op with
  | update k d => exact covers_update hB p H k d _
  | delete k => exact covers_delete hB p H k _

theorem covers_runAll (hB : MapLike B ok view) (p : Profile) (H : HashFn) : ∀ (ops : List Op) (t : Tree S),
    Covers B ok view t (runAll B p H ops) (Sparse.runAll p H ops) := by
  intro ops
  induction ops with
  | nil => intro t; exact .pure _
  | cons op ops ih => intro t; exact (covers_opRun hB p H op t).bind fun _ t1 _ => ih t1

theorem covers_handle (hB : MapLike B ok view) (p : Profile) (H : HashFn) (r : Request) (c : Bench S) :
    CoversAt (LikeBench ok view) Sparse.Bench.storage (NeverFails B ok) c (answering (Bench.handle B p H r))
      (answering (Sparse.Bench.serve p H r)) := by
  rcases Classical.em (ok c.storage) with hok | hok
  case inr => exact ⟨[], by simp, fun c' hq _ => absurd hq.1.1 hok⟩
  apply CoversAt.answers
  cases r with
  | new i =>
    refine ⟨[], by simp, fun c' hq _ => ⟨rfl, ⟨hq.1, ?_⟩, rfl, rfl⟩⟩
    simp only [Bench.handle, Sparse.Bench.serve, Sparse.Bench.set, hq.2]
    rfl
  | root i =>
    refine ⟨[], by simp, fun c' hq _ => ⟨?_, hq, rfl, rfl⟩⟩
    simp only [Bench.handle, Sparse.Bench.serve, Sparse.Bench.tree, Tree.root, Sparse.Tree.root, hq.2]
  | load i root =>
    obtain ⟨l, nf, h⟩ := hB.get root c.storage hok
    refine ⟨l, nf, fun c' hq hf => ?_⟩
    obtain ⟨h1, h2, h3⟩ := h c'.storage hq.1 hf
    rcases hx : B.get root c.storage with ⟨r, s⟩
    rcases hy : Store.get root c'.storage with ⟨r', s'⟩
    rw [hx] at h1 h2
    rw [hy] at h1 h2 h3
    simp only at h1
    subst h1
    rcases r' with e | _ | q
    · simp only [Bench.handle, Sparse.Bench.serve, Tree.load, Sparse.Tree.load, hx, hy]
      exact ⟨trivial, ⟨h2, hq.2⟩, h3⟩
    · simp only [Bench.handle, Sparse.Bench.serve, Tree.load, Sparse.Tree.load, hx, hy]
      exact ⟨trivial, ⟨h2, hq.2⟩, h3⟩
    · rcases hn : Node.ofPrim q with e | n
      · simp only [Bench.handle, Sparse.Bench.serve, Tree.load, Sparse.Tree.load, hx, hy, hn]
        exact ⟨trivial, ⟨h2, hq.2⟩, h3⟩
      · simp only [Bench.handle, Sparse.Bench.serve, Tree.load, Sparse.Tree.load, hx, hy, hn, Sparse.Bench.set]
        exact ⟨trivial, ⟨h2, by simp only [hq.2]⟩, h3⟩
  | call i op =>
    obtain ⟨l, nf, h⟩ := covers_opRun hB p H op ⟨c.node i, c.storage⟩
    refine ⟨l, nf, fun c' hq hf => ?_⟩
    obtain ⟨h1, h2, h3⟩ := h (c'.tree i) ⟨hq.1, by rw [← hq.2]; rfl⟩ hf
    refine ⟨congrArg Answer.done h1, ⟨h2.1, ?_⟩, h3⟩
    funext j
    show (if j = i then _ else c'.node j) = if j = i then _ else c.node j
    split
    · exact h2.2
    · rw [hq.2]

theorem covers_handleAll (hB : MapLike B ok view) (p : Profile) (H : HashFn) : ∀ (rs : List Request) (c : Bench S),
    CoversAt (LikeBench ok view) Sparse.Bench.storage (NeverFails B ok) c (answering (Bench.handleAll B p H rs))
      (answering (Sparse.Bench.serveAll p H rs)) := by
  intro rs
  induction rs with
  | nil => intro c; exact .still fun _ hq => ⟨rfl, hq, rfl⟩
  | cons r rs ih =>
    intro c
    exact CoversAt.bind (covers_handle hB p H r c) fun o c1 _ => CoversAt.bind (ih c1) fun os c2 _ => .pure (o :: os)

end Sparse.Any
end FuelMerkle
