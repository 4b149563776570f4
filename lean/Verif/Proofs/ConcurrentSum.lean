import Verif.Spec.ConcurrentSum
import Verif.Proofs.AnyStorage
import Verif.Proofs.SumDesk
import Verif.Proofs.TapeLive
import Verif.Proofs.Replay

/-
Processes with sum trees that share a storage.
-/
namespace FuelMerkle.Sum.Any
open Spec
variable {S E : Type}

/-! ### The next call of a process -/

section
variable {A : List (Answered Bytes32 Node E)}

/-- The map holds what the process knows to be written, and the record it is about to write. -/
def Wrote (A : List (Answered Bytes32 Node E)) (t : Tape Bytes32 Node E) (s : SStore E) : Prop :=
  (∃ used, A = used ++ t.answered) ∧
  match t.waiting with
  | none => ∀ k n, s.map k = some n → ∃ r, (.insert k n, .ok r) ∈ A
  | some c => ∃ k n, c = .insert k n ∧ s.map k = some n ∧ ∀ k' n', s.map k' = some n' → (k' = k ∧ n' = n) ∨ ∃ r, (.insert k' n', .ok r) ∈ A

theorem inserts_wrote (cut : E) : Inserts (tape cut) (Wrote A) False := by
  intro k v t
  unfold discarded
  have hi : (tape cut).insert k v t = t.ask cut (.insert k v) := rfl
  rcases Tape.ask_cases cut (.insert k v) t with ⟨hw, e⟩ | ⟨hn, a, rest, ha, e⟩ | ⟨hn, e⟩
  · refine ⟨[some ⟨cut, false⟩], by simp, fun s' hq hf => ?_⟩
    have h0 : s'.sched s'.clock = some ⟨cut, false⟩ := hf 0 _ rfl
    have h1 : Store.insert k v s' = (.error cut, { s' with clock := s'.clock + 1 }) := by simp only [Store.insert, h0]; rfl
    rw [Exec.bind_error (hi.trans e), Exec.bind_error h1]
    exact ⟨rfl, hq, rfl, rfl⟩
  · cases a with
    | error f =>
      refine ⟨[some ⟨f, false⟩], by simp, fun s' hq hf => ?_⟩
      have h0 : s'.sched s'.clock = some ⟨f, false⟩ := hf 0 _ rfl
      have h1 : Store.insert k v s' = (.error f, { s' with clock := s'.clock + 1 }) := by simp only [Store.insert, h0]; rfl
      rw [Exec.bind_error (hi.trans e), Exec.bind_error h1]
      refine ⟨rfl, ?_, rfl, rfl⟩
      obtain ⟨⟨used, hu⟩, hm⟩ := hq
      refine ⟨⟨used ++ [(.insert k v, .error f)], by rw [hu, ha]; simp⟩, ?_⟩
      simp only [hn] at hm ⊢
      exact hm
    | ok r =>
      refine ⟨[none], by simp, fun s' hq hf => ?_⟩
      have h0 : s'.sched s'.clock = none := hf 0 none rfl
      rw [Exec.bind_ok (hi.trans e), Exec.bind_ok (Store.insert_none k v h0)]
      refine ⟨rfl, ?_, rfl, rfl⟩
      obtain ⟨⟨used, hu⟩, hm⟩ := hq
      refine ⟨⟨used ++ [(.insert k v, .ok r)], by rw [hu, ha]; simp⟩, ?_⟩
      simp only [hn] at hm ⊢
      intro k' n' h
      simp only [Exec.pure_apply, Store.upd] at h
      split at h
      · rename_i hk
        cases h
        exact ⟨r, by rw [hu, ha, hk]; simp⟩
      · exact hm k' n' h
  · refine ⟨[some ⟨cut, true⟩], by simp, fun s' hq hf => ?_⟩
    have h0 : s'.sched s'.clock = some ⟨cut, true⟩ := hf 0 _ rfl
    have h1 : Store.insert k v s' = (.error cut, { s' with clock := s'.clock + 1, map := Store.upd s'.map k (some v) }) := by
      simp only [Store.insert, h0]; rfl
    rw [Exec.bind_error (hi.trans e), Exec.bind_error h1]
    refine ⟨rfl, ?_, rfl, rfl⟩
    obtain ⟨hu, hm⟩ := hq
    refine ⟨hu, ?_⟩
    simp only [hn] at hm ⊢
    refine ⟨k, v, rfl, by simp [Store.upd], fun k' n' h => ?_⟩
    unfold Store.upd at h
    split at h
    · rename_i hk
      cases h
      exact .inl ⟨hk, rfl⟩
    · exact .inr (hm k' n' h)

/-- The same trees, on a related storage. -/
def LikeOn (Q : S → SStore E → Prop) (c : Desk S) (c' : Sum.Desk E) : Prop := Q c.storage c'.storage ∧ c'.head = c.head

theorem covers_stepOn {B : Backend S Bytes32 Node E} {Q : S → SStore E → Prop} {nf : Prop} (hI : Inserts B Q nf) (p : Profile) (H : HashFn) (x : Nat × Op) (c : Desk S) :
    CoversAt (LikeOn Q) Sum.Desk.storage nf c (answering (Desk.step B p H x)) (answering (Sum.Desk.step p H x)) := by
  apply CoversAt.answers
  obtain ⟨i, op⟩ := x
  have key : ∃ log : List (Option (Fault E)), (nf → ∀ f ∈ log, f = none) ∧ ∀ c', LikeOn Q c c' → Follows log c'.storage →
      let x := step B p H op ⟨c.storage, c.head i⟩
      let y := Sum.step p H op ⟨c'.storage, c'.head i⟩
      y.1 = x.1 ∧ Like Q x.2 y.2 ∧ After log c'.storage y.2.storage := by
    cases op with
    | push fee d =>
      obtain ⟨l, nf, h⟩ := covers_push hI p H fee d ⟨c.storage, c.head i⟩
      refine ⟨l, nf, fun c' hq hf => ?_⟩
      obtain ⟨h1, h2, h3⟩ := h ⟨c'.storage, c'.head i⟩ ⟨hq.1, by rw [hq.2]⟩ hf
      exact ⟨congrArg Out.push h1, h2, h3⟩
    | root =>
      obtain ⟨l, nf, h⟩ := covers_root hI p H ⟨c.storage, c.head i⟩
      refine ⟨l, nf, fun c' hq hf => ?_⟩
      obtain ⟨h1, h2, h3⟩ := h ⟨c'.storage, c'.head i⟩ ⟨hq.1, by rw [hq.2]⟩ hf
      exact ⟨congrArg Out.root h1, h2, h3⟩
  obtain ⟨l, nf, h⟩ := key
  refine ⟨l, nf, fun c' hq hf => ?_⟩
  obtain ⟨h1, h2, h3⟩ := h c' hq hf
  refine ⟨h1, ⟨h2.1, ?_⟩, h3⟩
  funext j
  show (if j = i then _ else c'.head j) = if j = i then _ else c.head j
  split
  · exact h2.2
  · rw [hq.2]

theorem covers_runOn {B : Backend S Bytes32 Node E} {Q : S → SStore E → Prop} {nf : Prop} (hI : Inserts B Q nf) (p : Profile) (H : HashFn) :
    ∀ (xs : List (Nat × Op)) (c : Desk S), CoversAt (LikeOn Q) Sum.Desk.storage nf c (answering (Desk.run B p H xs)) (answering (Sum.Desk.run p H xs)) := by
  intro xs
  induction xs with
  | nil => intro c; exact .still fun _ hq => ⟨rfl, hq, rfl⟩
  | cons x xs ih =>
    intro c
    exact CoversAt.bind (covers_stepOn hI p H x c) fun o c1 _ => CoversAt.bind (ih c1) fun os c2 _ => .pure (o :: os)

/-- The next call writes a record whose children the process has written, the record of some leaves pushed on one of
its trees. -/
theorem next_call (cut : E) (p : Profile) (H : HashFn) (xs : List (Nat × Op)) {c : MethodCall Bytes32 Node} (hc : nextCall (worker cut p H xs) A = some c) :
    ∃ k n, c = .insert k n ∧
      (∀ l, n.leftChildKey = some l ∨ n.rightChildKey = some l → l = k ∨ ∃ n' r, (.insert l n', .ok r) ∈ A) ∧
      ((∀ i, (leavesOf i xs).length < 2 ^ 64) → (∀ i, ∀ x ∈ leavesOf i xs, x.1 < 2 ^ 64) →
        ∃ j ds, ds.Sublist (leavesOf j xs) ∧ sumHash H ds = k ∧ n = recordOf H ds) := by
  obtain ⟨sched, _, h⟩ := (covers_runOn (inserts_wrote (A := A) cut) p H xs (.start ⟨A, none⟩)).elim
  obtain ⟨_, h2, _⟩ := h (.start ⟨fun _ => none, sched, 0⟩) ⟨⟨⟨[], rfl⟩, fun k n hk => by cases hk⟩, rfl⟩ rfl rfl
  have hw : (Desk.run (tape cut) p H xs (.start ⟨A, none⟩)).2.storage.waiting = some c := hc
  have h2 := h2.2
  rw [hw] at h2
  obtain ⟨k, n, e1, e2, e3⟩ := h2
  refine ⟨k, n, e1, fun l hl => ?_, fun hn hf => ?_⟩
  · have hlink := (desk_whole p H xs (Sum.Desk.start (⟨fun _ => none, sched, 0⟩ : SStore E)) (fun i x hx => by cases hx)).1.linked
      (fun k n h => by cases h) k n e2
    have : (Sum.Desk.run p H xs (Sum.Desk.start (⟨fun _ => none, sched, 0⟩ : SStore E))).2.storage.map l ≠ none := by
      rcases hl with hl | hl
      · exact hlink.1 l hl
      · exact hlink.2 l hl
    obtain ⟨n', hn'⟩ := Option.ne_none_iff_exists'.1 this
    rcases e3 l n' hn' with ⟨e, _⟩ | ⟨r, hr⟩
    · exact .inl e
    · exact .inr ⟨n', r, hr⟩
  · obtain ⟨_, g2, _⟩ := desk_exact p H xs (Sum.Desk.start (⟨fun _ => none, sched, 0⟩ : SStore E)) (fun _ => [])
      (fun _ => ⟨[], rfl, rfl, trivial, fun a ha => by cases ha⟩) (by simpa using hn) hf
    rcases lists_origin p H xs ⟨(⟨fun _ => none, sched, 0⟩ : SStore E), fun _ => []⟩ k with h | ⟨i, ds, q2, q3, q4⟩
    · rw [g2] at e2
      have := h.symm.trans e2
      cases this
    · rw [g2] at e2
      have := q4.symm.trans e2
      cases this
      exact ⟨i, ds, by simpa using q2, q3, rfl⟩
end

/-! ### The storage at every moment -/

section
variable {B : Backend S Bytes32 Node E} {ok : S → Prop} {view : S → Bytes32 → Option Node}

/-- What is true of the storage at every moment. -/
structure Sound (ok : S → Prop) (view : S → Bytes32 → Option Node) (H : HashFn) (xs : Nat → List (Nat × Op)) (s : S) (o : Office S Bytes32 Node E) : Prop where
  ok : ok o.storage
  linked : Linked (view s) → Linked (view o.storage)
  keeps : ∀ k, view s k ≠ none → view o.storage k ≠ none
  written : ∀ i k n r, (.insert k n, .ok r) ∈ o.answered i → view o.storage k ≠ none
  origin : (∀ i j, (leavesOf j (xs i)).length < 2 ^ 64) → (∀ i j, ∀ x ∈ leavesOf j (xs i), x.1 < 2 ^ 64) → ∀ k, view o.storage k = view s k ∨
    ∃ i j ds, ds.Sublist (leavesOf j (xs i)) ∧ sumHash H ds = k ∧ view o.storage k = some (recordOf H ds)

theorem Sound.turn (hB : MapLike B ok view) (cut : E) (p : Profile) {H : HashFn} {xs : Nat → List (Nat × Op)} {s : S} {o : Office S Bytes32 Node E}
    (h : Sound ok view H xs s o) (i : Nat) : Sound ok view H xs s (o.turn B (fun i => worker cut p H (xs i)) i) := by
  unfold Office.turn
  cases hc : nextCall (worker cut p H (xs i)) (o.answered i) with
  | none => exact h
  | some c =>
    obtain ⟨k, n, rfl, h1, h2⟩ := next_call cut p H (xs i) hc
    simp only [Backend.perform]
    rcases hx : B.insert k n o.storage with ⟨a, s'⟩
    have hs : ok s' ∧ ((∃ e, a = .error e ∧ view s' = view o.storage) ∨ view s' = Store.upd (view o.storage) k (some n)) := by
      cases a with
      | ok r =>
        obtain ⟨g1, g2⟩ := hB.insert_ok h.ok hx
        exact ⟨g1, .inr (funext fun y => g2 y)⟩
      | error e =>
        obtain ⟨g1, g2 | g2⟩ := hB.insert_error h.ok hx
        · exact ⟨g1, .inl ⟨e, rfl, g2⟩⟩
        · exact ⟨g1, .inr (funext fun y => g2 y)⟩
    have hkeep : ∀ y, view o.storage y ≠ none → view s' y ≠ none := by
      intro y hy
      rcases hs.2 with ⟨e, _, e2⟩ | e2
      · rwa [e2]
      · rw [e2, Store.upd]
        split
        · simp
        · exact hy
    refine ⟨hs.1, fun hl => ?_, fun y hy => hkeep y (h.keeps y hy), fun j y v r hm => ?_, fun hn hf y => ?_⟩
    · rcases hs.2 with ⟨e, _, e2⟩ | e2
      · rw [e2]; exact h.linked hl
      · intro y v hv
        have hv' := hv
        rw [e2, Store.upd] at hv'
        split at hv'
        · rename_i hy
          cases hv'
          have key : ∀ l, n.leftChildKey = some l ∨ n.rightChildKey = some l → view s' l ≠ none := by
            intro l hl
            rcases h1 l hl with rfl | ⟨n', r, hr⟩
            · rw [← hy, hv]; simp
            · exact hkeep l (h.written i l n' r hr)
          exact ⟨fun l hl => key l (.inl hl), fun l hl => key l (.inr hl)⟩
        · have := h.linked hl y v hv'
          exact ⟨fun l e => hkeep l (this.1 l e), fun l e => hkeep l (this.2 l e)⟩
    · simp only at hm
      split at hm
      · rcases List.mem_append.1 hm with hm | hm
        · exact hkeep y (h.written _ y v r hm)
        · simp only [List.mem_singleton, Prod.mk.injEq, MethodCall.insert.injEq] at hm
          obtain ⟨⟨rfl, rfl⟩, rfl⟩ := hm
          rcases hs.2 with ⟨e, e1, _⟩ | e2
          · cases e1
          · rw [e2]; simp [Store.upd]
      · exact hkeep y (h.written _ y v r hm)
    · rcases hs.2 with ⟨e, _, e2⟩ | e2
      · rw [e2]; exact h.origin hn hf y
      · rw [e2, Store.upd]
        split
        · rename_i hy
          obtain ⟨j, ds, q1, q2, q3⟩ := h2 (hn i) (hf i)
          exact .inr ⟨i, j, ds, q1, by rw [q2, hy], by rw [q3]⟩
        · exact h.origin hn hf y

theorem Sound.turns (hB : MapLike B ok view) (cut : E) (p : Profile) {H : HashFn} {xs : Nat → List (Nat × Op)} {s : S} :
    ∀ (schedule : List Nat) {o : Office S Bytes32 Node E}, Sound ok view H xs s o → Sound ok view H xs s (o.turns B (fun i => worker cut p H (xs i)) schedule)
  | [], _, h => h
  | i :: is, _, h => Sound.turns hB cut p is (h.turn hB cut p i)

theorem crew_sound (hB : MapLike B ok view) (cut : E) (p : Profile) (H : HashFn) (xs : Nat → List (Nat × Op)) (s : S) (hs : ok s) (schedule : List Nat) :
    Sound ok view H xs s (crew B cut p H s xs schedule) :=
  Sound.turns hB cut p schedule ⟨hs, id, fun _ => id, fun _ _ _ _ hm => (by cases hm), fun _ _ _ => .inl rfl⟩
end

/-! ### What a process is told -/

section
variable {A : List (Answered Bytes32 Node E)} {α β : Type}

/-- While the process has not come to its next call, its map has the same fate. -/
def Fares (A : List (Answered Bytes32 Node E)) (t : Tape Bytes32 Node E) (s : SStore E) : Prop :=
  s.sched = (fate A).sched ∧ t.answered = A.drop s.clock ∧ ∀ k n, s.map k = some n → ∃ r, (.insert k n, .ok r) ∈ A

/-- Both do the same, if the process does not come to its next call. -/
def Sim (A : List (Answered Bytes32 Node E)) (x : TreeM (Tape Bytes32 Node E) E α) (y : Sum.TreeM E α) : Prop :=
  (∀ t, t.storage.waiting ≠ none → (x t).2.storage.waiting ≠ none) ∧
  ∀ t t', Fares A t.storage t'.storage → t'.head = t.head → (x t).2.storage.waiting = none →
    (y t').1 = (x t).1 ∧ Fares A (x t).2.storage (y t').2.storage ∧ (y t').2.head = (x t).2.head

theorem Sim.pure (a : α) : Sim A (Pure.pure a) (Pure.pure a) := ⟨fun _ h => h, fun _ _ h1 h2 _ => ⟨rfl, h1, h2⟩⟩

theorem Sim.throw (e : Fail E) : Sim A (Exec.throw e : TreeM _ E α) (Exec.throw e) := ⟨fun _ h => h, fun _ _ h1 h2 _ => ⟨rfl, h1, h2⟩⟩

theorem Sim.lift (r : Res α) : Sim A (Exec.liftRes r) (Exec.liftRes r) := by
  cases r with
  | ok a => exact Sim.pure a
  | error e => exact Sim.throw (.panic e)

theorem Sim.bind {x : TreeM (Tape Bytes32 Node E) E α} {y : Sum.TreeM E α} {f : α → TreeM (Tape Bytes32 Node E) E β} {g : α → Sum.TreeM E β}
    (h : Sim A x y) (h' : ∀ a, Sim A (f a) (g a)) : Sim A (x >>= f) (y >>= g) := by
  refine ⟨fun t ht => ?_, fun t t' h1 h2 hw => ?_⟩
  · have := h.1 t ht
    rcases hx : x t with ⟨e | a, t1⟩
    · rw [Exec.bind_error hx]; rwa [hx] at this
    · rw [Exec.bind_ok hx]; rw [hx] at this; exact (h' a).1 t1 this
  · have hs := h.2 t t' h1 h2
    rcases hx : x t with ⟨e | a, t1⟩
    · rw [Exec.bind_error hx] at hw ⊢
      rw [hx] at hs
      obtain ⟨e1, e2, e3⟩ := hs hw
      rcases hy : y t' with ⟨r, t1'⟩
      rw [hy] at e1 e2 e3
      simp only at e1
      subst e1
      rw [Exec.bind_error hy]
      exact ⟨rfl, e2, e3⟩
    · rw [Exec.bind_ok hx] at hw ⊢
      rw [hx] at hs
      have hw1 : t1.storage.waiting = none := by
        rcases hq : t1.storage.waiting with _ | c
        · rfl
        · exact absurd hw ((h' a).1 t1 (by rw [hq]; simp))
      obtain ⟨e1, e2, e3⟩ := hs hw1
      rcases hy : y t' with ⟨r, t1'⟩
      rw [hy] at e1 e2 e3
      simp only at e1
      subst e1
      rw [Exec.bind_ok hy]
      exact (h' a).2 t1 t1' e2 e3 hw

theorem Sim.modify (u : List Node → List Node) {f : Unit → TreeM (Tape Bytes32 Node E) E β} {g : Unit → Sum.TreeM E β} (h : Sim A (f ()) (g ())) :
    Sim A (Exec.modify (fun t => { t with head := u t.head }) >>= f) (Exec.modify (fun t => { t with head := u t.head }) >>= g) :=
  Sim.bind ⟨fun _ h => h, fun t t' h1 h2 _ => ⟨rfl, h1, congrArg u h2⟩⟩ fun _ => h

theorem Sim.get {f : List Node → TreeM (Tape Bytes32 Node E) E β} {g : List Node → Sum.TreeM E β} (h : ∀ l, Sim A (f l) (g l)) :
    Sim A (Exec.get >>= fun t => f t.head) (Exec.get >>= fun t => g t.head) := by
  refine ⟨fun t ht => ?_, fun t t' h1 h2 hw => ?_⟩
  · rw [Exec.get_bind]; exact (h _).1 t ht
  · rw [Exec.get_bind] at hw ⊢
    rw [Exec.get_bind, h2]
    exact (h _).2 t t' h1 h2 hw

theorem sim_insert (cut : E) (k : Bytes32) (v : Node) {f : TreeM (Tape Bytes32 Node E) E β} {g : Sum.TreeM E β} (h : Sim A f g) :
    Sim A (onStorage ((tape cut).insert k v) >>= fun _ => f) (Sum.onStorage (Store.insert k v) >>= fun _ => g) := by
  rw [bind_discarded, bind_discarded (Sum.onStorage _)]
  refine Sim.bind ?_ fun _ => h
  rw [discarded_onStorage, discarded_onStorage']
  have hi : ∀ t : Tape Bytes32 Node E, (tape cut).insert k v t = t.ask cut (.insert k v) := fun _ => rfl
  refine ⟨fun t ht => ?_, fun t t' h1 h2 hw => ?_⟩
  · have e : (tape cut).insert k v t.storage = (.error cut, t.storage) := by
      rcases Tape.ask_cases cut (.insert k v) t.storage with ⟨_, e⟩ | ⟨hn, _⟩ | ⟨hn, _⟩
      · exact (hi _).trans e
      · exact absurd hn ht
      · exact absurd hn ht
    unfold onStorage discarded
    rw [show (_ >>= _ : Exec _ E Unit) t.storage = _ from Exec.bind_error e]
    exact ht
  · rcases Tape.ask_cases cut (.insert k v) t.storage with ⟨hw', e⟩ | ⟨hn, a, rest, ha, e⟩ | ⟨hn, e⟩
    · exfalso
      unfold onStorage discarded at hw
      rw [show (_ >>= _ : Exec _ E Unit) t.storage = _ from Exec.bind_error ((hi _).trans e)] at hw
      exact hw' hw
    · obtain ⟨s1, s2, s3⟩ := h1
      rw [ha] at s2
      have hA : A[t'.storage.clock]? = some (.insert k v, a) := by
        have := congrArg (fun l => l[0]?) s2
        simpa using this.symm
      have hrest : rest = A.drop (t'.storage.clock + 1) := by
        have := congrArg List.tail s2
        simpa using this
      cases a with
      | error f =>
        have h0 : t'.storage.sched t'.storage.clock = some ⟨f, false⟩ := by rw [s1]; simp only [fate, hA]
        have h3 : Store.insert k v t'.storage = (.error f, { t'.storage with clock := t'.storage.clock + 1 }) := by simp only [Store.insert, h0]; rfl
        unfold onStorage discarded Sum.onStorage
        rw [show (_ >>= _ : Exec _ E Unit) t.storage = _ from Exec.bind_error ((hi _).trans e),
          show (_ >>= _ : Exec _ E Unit) t'.storage = _ from Exec.bind_error h3]
        exact ⟨rfl, ⟨s1, hrest, s3⟩, h2⟩
      | ok r =>
        have h0 : t'.storage.sched t'.storage.clock = none := by rw [s1]; simp only [fate, hA]
        unfold onStorage discarded Sum.onStorage
        rw [show (_ >>= _ : Exec _ E Unit) t.storage = _ from Exec.bind_ok ((hi _).trans e),
          show (_ >>= _ : Exec _ E Unit) t'.storage = _ from Exec.bind_ok (Store.insert_none k v h0)]
        refine ⟨rfl, ⟨s1, hrest, fun k' n' hk => ?_⟩, h2⟩
        simp only [Exec.pure_apply, Store.upd] at hk
        split at hk
        · rename_i hk'
          cases hk
          exact ⟨r, by rw [hk']; exact List.mem_of_getElem? hA⟩
        · exact s3 k' n' hk
    · exfalso
      unfold onStorage discarded at hw
      rw [show (_ >>= _ : Exec _ E Unit) t.storage = _ from Exec.bind_error ((hi _).trans e)] at hw
      simp at hw

variable (cut : E) (p : Profile) (H : HashFn)

theorem sim_join (a b : Node) : Sim A (joinSubtrees (tape cut) p H a b) (Sum.joinSubtrees p H a b) :=
  Sim.bind (.lift _) fun _ => Sim.bind (.lift _) fun j => sim_insert cut _ _ (.pure j)

theorem sim_rootLoop : ∀ (l : List Node) (c : Node), Sim A (rootLoop (tape cut) p H c l) (Sum.rootLoop p H c l)
  | [], _ => .pure _
  | _ :: l, _ => Sim.bind (sim_join cut p H _ _) fun j => sim_rootLoop l j

theorem sim_root : Sim A (root (tape cut) p H) (Sum.root p H) := by
  refine Sim.bind ?_ fun a => ?_
  · refine Sim.get (f := fun l => match l with | [] => Pure.pure none | h :: rest => do let n ← rootLoop (tape cut) p H h rest; return some n)
      (g := fun l => match l with | [] => Pure.pure none | h :: rest => do let n ← Sum.rootLoop p H h rest; return some n) fun l => ?_
    cases l with
    | nil => exact .pure _
    | cons c l => exact Sim.bind (sim_rootLoop cut p H l c) fun _ => .pure _
  · cases a <;> exact .pure _

theorem sim_joinAllLoop : ∀ (l : List Node) (c : Node), Sim A (joinAllLoop (tape cut) p H c l) (Sum.joinAllLoop p H c l)
  | [], _ => .pure _
  | n :: l, c => by
    unfold joinAllLoop Sum.joinAllLoop
    split
    · refine Sim.modify (fun _ => []) (Sim.bind (sim_join cut p H _ _) fun j => Sim.modify (fun _ => j :: l) (sim_joinAllLoop l j))
    · exact .pure _

theorem sim_push (fee : Nat) (d : Bytes) : Sim A (push (tape cut) p H fee d) (Sum.push p H fee d) := by
  refine sim_insert cut _ _ (Sim.modify (fun l => Node.createLeaf H fee d :: l) ?_)
  refine Sim.get (f := fun l => match l with | [] => Exec.throw (.panic .unwrapNone) | c :: rest => joinAllLoop (tape cut) p H c rest)
    (g := fun l => match l with | [] => Exec.throw (.panic .unwrapNone) | c :: rest => Sum.joinAllLoop p H c rest) fun l => ?_
  cases l with
  | nil => exact .throw _
  | cons c l => exact sim_joinAllLoop cut p H l c

/-- One call. -/
theorem sim_step (x : Nat × Op) (c : Desk (Tape Bytes32 Node E)) :
    (c.storage.waiting ≠ none → (c.step (tape cut) p H x).2.storage.waiting ≠ none) ∧
    ∀ c' : Sum.Desk E, Fares A c.storage c'.storage → c'.head = c.head → (c.step (tape cut) p H x).2.storage.waiting = none →
      (c'.step p H x).1 = (c.step (tape cut) p H x).1 ∧ Fares A (c.step (tape cut) p H x).2.storage (c'.step p H x).2.storage ∧
        (c'.step p H x).2.head = (c.step (tape cut) p H x).2.head := by
  obtain ⟨i, op⟩ := x
  have key : ∀ (c' : Sum.Desk E), c'.head = c.head → (Sum.step p H op ⟨c'.storage, c'.head i⟩).2.head = (step (tape cut) p H op ⟨c.storage, c.head i⟩).2.head →
      (c'.step p H (i, op)).2.head = (c.step (tape cut) p H (i, op)).2.head := by
    intro c' h1 h2
    funext j
    show (if j = i then _ else c'.head j) = if j = i then _ else c.head j
    split
    · exact h2
    · rw [h1]
  cases op with
  | push fee d =>
    obtain ⟨h1, h2⟩ := sim_push (A := A) cut p H fee d
    refine ⟨fun hw => h1 ⟨c.storage, c.head i⟩ hw, fun c' hq hh hw => ?_⟩
    obtain ⟨g1, g2, g3⟩ := h2 ⟨c.storage, c.head i⟩ ⟨c'.storage, c'.head i⟩ hq (congrFun hh i) hw
    exact ⟨congrArg Out.push g1, g2, key c' hh g3⟩
  | root =>
    obtain ⟨h1, h2⟩ := sim_root (A := A) cut p H
    refine ⟨fun hw => h1 ⟨c.storage, c.head i⟩ hw, fun c' hq hh hw => ?_⟩
    obtain ⟨g1, g2, g3⟩ := h2 ⟨c.storage, c.head i⟩ ⟨c'.storage, c'.head i⟩ hq (congrFun hh i) hw
    exact ⟨congrArg Out.root g1, g2, key c' hh g3⟩

/-- What the process is told is what it is told on its own map. -/
theorem told_own : ∀ (xs : List (Nat × Op)) (c : Desk (Tape Bytes32 Node E)) (c' : Sum.Desk E), Fares A c.storage c'.storage → c'.head = c.head →
    c.told cut p H xs = ((Sum.Desk.run p H xs c').1).take (c.told cut p H xs).length
  | [], _, _, _, _ => rfl
  | x :: xs, c, c', h1, h2 => by
    unfold Desk.told
    split
    · rename_i hw
      obtain ⟨g1, g2, g3⟩ := (sim_step (A := A) cut p H x c).2 c' h1 h2 hw
      have ih := told_own xs _ _ g2 g3
      show _ = List.take _ ((c'.step p H x).1 :: (Sum.Desk.run p H xs (c'.step p H x).2).1)
      rw [List.length_cons, List.take_succ_cons, ← ih, g1]
    · rfl

/-- When a call has returned, the process stands where its own map stands. -/
theorem told_stand : ∀ (xs : List (Nat × Op)) (n : Nat) (c : Desk (Tape Bytes32 Node E)) (c' : Sum.Desk E), Fares A c.storage c'.storage → c'.head = c.head →
    n < (c.told cut p H xs).length → ∀ k v, (Sum.Desk.run p H (xs.take (n + 1)) c').2.storage.map k = some v → ∃ r, (.insert k v, .ok r) ∈ A
  | [], n, _, _, _, _, hn => by simp [Desk.told] at hn
  | x :: xs, n, c, c', h1, h2, hn => by
    unfold Desk.told at hn
    split at hn
    · rename_i hw
      obtain ⟨g1, g2, g3⟩ := (sim_step (A := A) cut p H x c).2 c' h1 h2 hw
      cases n with
      | zero =>
        intro k v hk
        exact g2.2.2 k v hk
      | succ n =>
        intro k v hk
        exact told_stand xs n _ _ g2 g3 (by simpa using hn) k v hk
    · simp at hn

theorem fares_start : Fares A (⟨A, none⟩ : Tape Bytes32 Node E) (fate A) := ⟨rfl, rfl, fun k n h => by cases h⟩
end

/-! ### The calls of a process that works alone -/

section
variable (B : Backend S Bytes32 Node E) (cut : E)

/-- A tree is a storage and a list of subtrees. -/
def split (S : Type) : Split (Tree S) S (List Node) where
  join s m := ⟨s, m⟩
  mem t := t.head
  sto t := t.storage
  eta _ := rfl
  mem_join _ _ := rfl
  sto_join _ _ := rfl

/-- The computation on the storage is the one on the tape. -/
abbrev Rep {α : Type} (x : TreeM S E α) (y : TreeM (Tape Bytes32 Node E) E α) : Prop := RunReplays B (split S) (split (Tape Bytes32 Node E)) x y

theorem rep_insert (k : Bytes32) (v : Node) : Rep B (onStorage (B.insert k v)) (onStorage ((tape cut).insert k v)) := by
  refine RunReplays.storage cut (.insert k v) (fun e => .err e) _ _ (fun s m => ?_) (fun t m => ?_)
  · simp only [onStorage, split, Backend.perform]
    rcases B.insert k v s with ⟨e | v, s'⟩ <;> rfl
  · simp only [onStorage, split, tape]
    rcases t.ask cut (.insert k v) with ⟨e | v, s'⟩ <;> rfl

variable (p : Profile) (H : HashFn)

theorem rep_join (a b : Node) : Rep B (joinSubtrees B p H a b) (joinSubtrees (tape cut) p H a b) :=
  RunReplays.bind (RunReplays.lift _) fun _ => RunReplays.bind (RunReplays.lift _) fun _ => RunReplays.bind (rep_insert B cut _ _) fun _ => RunReplays.pure _

theorem rep_rootLoop : ∀ (l : List Node) (c : Node), Rep B (rootLoop B p H c l) (rootLoop (tape cut) p H c l)
  | [], _ => RunReplays.pure _
  | _ :: l, _ => RunReplays.bind (rep_join B cut p H _ _) fun j => rep_rootLoop l j

/-- `root_node` after the memory was read. -/
def rootAt {T : Type} (C : Backend T Bytes32 Node E) : List Node → TreeM T E (Option Node)
  | [] => return none
  | h :: rest => do
    let n ← rootLoop C p H h rest
    return some n

theorem rep_root : Rep B (root B p H) (root (tape cut) p H) := by
  refine RunReplays.bind ?_ fun a => ?_
  · refine RunReplays.get (a := split S) (b := split (Tape Bytes32 Node E)) (rootAt p H B) (rootAt p H (tape cut)) fun l => ?_
    cases l with
    | nil => exact RunReplays.pure _
    | cons c l => exact RunReplays.bind (rep_rootLoop B cut p H l c) fun _ => RunReplays.pure _
  · cases a <;> exact RunReplays.pure _

theorem rep_joinAllLoop : ∀ (l : List Node) (c : Node), Rep B (joinAllLoop B p H c l) (joinAllLoop (tape cut) p H c l)
  | [], _ => RunReplays.pure _
  | n :: l, c => by
    unfold joinAllLoop
    split
    · refine RunReplays.bind (RunReplays.modify _ _ (fun _ => []) (fun _ _ => rfl) (fun _ _ => rfl)) fun _ => ?_
      refine RunReplays.bind (rep_join B cut p H _ _) fun j => ?_
      refine RunReplays.bind (RunReplays.modify _ _ (fun _ => j :: l) (fun _ _ => rfl) (fun _ _ => rfl)) fun _ => rep_joinAllLoop l j
    · exact RunReplays.pure _

/-- `join_all_subtrees` after the memory was read. -/
def joinAt {T : Type} (C : Backend T Bytes32 Node E) : List Node → TreeM T E Unit
  | [] => Exec.throw (.panic .unwrapNone)
  | c :: rest => joinAllLoop C p H c rest

theorem rep_push (fee : Nat) (d : Bytes) : Rep B (push B p H fee d) (push (tape cut) p H fee d) := by
  refine RunReplays.bind (rep_insert B cut _ _) fun _ => ?_
  refine RunReplays.bind (RunReplays.modify _ _ (fun l => Node.createLeaf H fee d :: l) (fun _ _ => rfl) (fun _ _ => rfl)) fun _ => ?_
  refine RunReplays.get (a := split S) (b := split (Tape Bytes32 Node E)) (joinAt p H B) (joinAt p H (tape cut)) fun l => ?_
  cases l with
  | nil => exact RunReplays.throw _
  | cons c l => exact rep_joinAllLoop B cut p H l c

/-- A call as a function of the storage. -/
def callRun {T : Type} (C : Backend T Bytes32 Node E) (x : Nat × Op) (m : Nat → List Node) (s : T) : (Out E × (Nat → List Node)) × T :=
  let y := (⟨s, m⟩ : Desk T).step C p H x
  ((y.1, y.2.head), y.2.storage)

theorem rep_step (x : Nat × Op) (m : Nat → List Node) : Replays B (callRun p H B x m) (callRun p H (tape cut) x m) := by
  obtain ⟨i, op⟩ := x
  cases op with
  | push fee d =>
    exact ((rep_push B cut p H fee d (m i)).map (fun r => (Out.push r.1, fun j => if j = i then r.2 else m j))).of_eq (fun _ => rfl) (fun _ => rfl)
  | root =>
    exact ((rep_root B cut p H (m i)).map (fun r => (Out.root r.1, fun j => if j = i then r.2 else m j))).of_eq (fun _ => rfl) (fun _ => rfl)

/-- Calls as a function of the storage. -/
def callsRun {T : Type} (C : Backend T Bytes32 Node E) (xs : List (Nat × Op)) (m : Nat → List Node) (s : T) : (List (Out E) × (Nat → List Node)) × T :=
  let y := Desk.run C p H xs ⟨s, m⟩
  ((y.1, y.2.head), y.2.storage)

/-- What comes after a call. -/
def callAfter {T : Type} (C : Backend T Bytes32 Node E) (xs : List (Nat × Op)) (r : Out E × (Nat → List Node)) (s : T) :
    (List (Out E) × (Nat → List Node)) × T :=
  let q := callsRun p H C xs r.2 s
  ((r.1 :: q.1.1, q.1.2), q.2)

theorem rep_calls : ∀ (xs : List (Nat × Op)) (m : Nat → List Node), Replays B (callsRun p H B xs m) (callsRun p H (tape cut) xs m)
  | [], m => (Replays.pure (R := List (Out E) × (Nat → List Node)) ([], m)).of_eq (fun _ => rfl) (fun _ => rfl)
  | x :: xs, m => by
    refine (Replays.bind (F' := callAfter p H B xs) (G' := callAfter p H (tape cut) xs) (rep_step B cut p H x m) fun r => ?_).of_eq (fun _ => rfl) (fun _ => rfl)
    exact (rep_calls xs r.2).map (fun q => (r.1 :: q.1, q.2))

/-- A process that has come to its end was told everything. -/
theorem told_all {A : List (Answered Bytes32 Node E)} : ∀ (xs : List (Nat × Op)) (c : Desk (Tape Bytes32 Node E)),
    (Desk.run (tape cut) p H xs c).2.storage.waiting = none → c.told cut p H xs = (Desk.run (tape cut) p H xs c).1
  | [], _, _ => rfl
  | x :: xs, c, h => by
    have hw : ∀ (xs : List (Nat × Op)) (c : Desk (Tape Bytes32 Node E)), c.storage.waiting ≠ none → (Desk.run (tape cut) p H xs c).2.storage.waiting ≠ none := by
      intro xs
      induction xs with
      | nil => intro c h; exact h
      | cons x xs ih => intro c h; exact ih _ ((sim_step (A := A) cut p H x c).1 h)
    have h : (Desk.run (tape cut) p H xs (c.step (tape cut) p H x).2).2.storage.waiting = none := h
    have e : (Desk.run (tape cut) p H (x :: xs) c).1 = (c.step (tape cut) p H x).1 :: (Desk.run (tape cut) p H xs (c.step (tape cut) p H x).2).1 := rfl
    rw [e]
    unfold Desk.told
    generalize c.step (tape cut) p H x = y at h ⊢
    have h1 : y.2.storage.waiting = none := by
      rcases hq : y.2.storage.waiting with _ | z
      · rfl
      · exact absurd h (hw xs _ (by rw [hq]; simp))
    rw [if_pos h1, told_all (A := A) xs _ h]
end

end FuelMerkle.Sum.Any
