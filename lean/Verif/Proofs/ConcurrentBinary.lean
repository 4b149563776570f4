import Verif.Spec.ConcurrentBinary
import Verif.Proofs.AnyStorageWild
import Verif.Proofs.TapeLive
import Verif.Proofs.ReplayBinary
import Verif.Proofs.BinaryRun
import Verif.Proofs.BinaryDesk

/-
Processes with binary trees over any lists that share a storage.
-/
namespace FuelMerkle.Binary.Any
open Spec
variable {S E : Type} {α β : Type}

/-! ### A process goes through its answers in order and does not remove -/

/-- The computation takes its answers in order; a waiting process goes on waiting, and it does not wait for a removal. -/
def Onward (x : TreeM (Tape Nat Prim E) E α) : Prop :=
  ∀ t, (∃ more, t.storage.answered = more ++ (x t).2.storage.answered) ∧
    (t.storage.waiting ≠ none → (x t).2.storage.waiting = t.storage.waiting) ∧
    (t.storage.waiting = none → ∀ k, (x t).2.storage.waiting ≠ some (.remove k))

theorem Onward.still {x : TreeM (Tape Nat Prim E) E α} (h : ∀ t, (x t).2.storage = t.storage) : Onward x := by
  intro t
  rw [h t]
  exact ⟨⟨[], rfl⟩, fun _ => rfl, fun hw k => by rw [hw]; simp⟩

theorem Onward.pure (a : α) : Onward (Pure.pure a : TreeM (Tape Nat Prim E) E α) := .still fun _ => rfl

theorem Onward.throw (e : Fail (Error E)) : Onward (Exec.throw e : TreeM (Tape Nat Prim E) E α) := .still fun _ => rfl

theorem Onward.lift (r : Res α) : Onward (Exec.liftRes r : TreeM (Tape Nat Prim E) E α) := .still fun _ => by cases r <;> rfl

theorem Onward.bind {x : TreeM (Tape Nat Prim E) E α} {f : α → TreeM (Tape Nat Prim E) E β} (hx : Onward x) (hf : ∀ a, Onward (f a)) :
    Onward (x >>= f) := by
  intro t
  obtain ⟨⟨m, h1⟩, h2, h3⟩ := hx t
  rcases hx' : x t with ⟨e | a, t1⟩
  · rw [Exec.bind_error hx']
    rw [hx'] at h1 h2 h3
    exact ⟨⟨m, h1⟩, h2, h3⟩
  · rw [Exec.bind_ok hx']
    rw [hx'] at h1 h2 h3
    simp only at h1 h2 h3
    obtain ⟨⟨m', g1⟩, g2, g3⟩ := hf a t1
    refine ⟨⟨m ++ m', by rw [h1, g1, List.append_assoc]⟩, fun hw => ?_, fun hw k => ?_⟩
    · rw [g2 (by rw [h2 hw]; exact hw), h2 hw]
    · rcases hq : t1.storage.waiting with _ | c
      · exact g3 hq k
      · rw [g2 (by rw [hq]; simp)]
        exact h3 hw k

theorem Onward.get {f : Tree (Tape Nat Prim E) → TreeM (Tape Nat Prim E) E β} (hf : ∀ t, Onward (f t)) : Onward (Exec.get >>= f) := by
  intro t
  rw [Exec.get_bind]
  exact hf t t

theorem Onward.modify {f : Tree (Tape Nat Prim E) → Tree (Tape Nat Prim E)} (h : ∀ t, (f t).storage = t.storage) :
    Onward (Exec.modify f : TreeM (Tape Nat Prim E) E Unit) := .still fun t => h t

theorem onward_ask (cut : E) (c : MethodCall Nat Prim) (hc : ∀ k, c ≠ .remove k) : Onward (onStorage (Tape.ask cut c) : TreeM (Tape Nat Prim E) E _) := by
  intro t
  unfold onStorage
  rcases Tape.ask_cases cut c t.storage with ⟨hw, e⟩ | ⟨hn, a, rest, ha, e⟩ | ⟨hn, e⟩
  · rw [e]
    exact ⟨⟨[], rfl⟩, fun _ => rfl, fun h => absurd h hw⟩
  · rw [e]
    refine ⟨⟨[(c, a)], ?_⟩, fun h => absurd hn h, fun _ k => ?_⟩
    · rw [ha]; cases a <;> rfl
    · cases a <;> simp [hn]
  · rw [e]
    exact ⟨⟨[], rfl⟩, fun h => absurd hn h, fun _ k => by simpa using hc k⟩

theorem onward_get (cut : E) (k : Nat) : Onward (onStorage ((tape cut).get k) : TreeM (Tape Nat Prim E) E _) := onward_ask cut (.get k) (by simp)
theorem onward_insert (cut : E) (k : Nat) (v : Prim) : Onward (onStorage ((tape cut).insert k v) : TreeM (Tape Nat Prim E) E _) :=
  onward_ask cut (.insert k v) (by simp)

variable (cut : E) (p : Profile) (H : HashFn)

theorem onward_proveSides (scratch : Scratch) : ∀ ps : List Position, Onward (proveSides (tape cut) scratch ps)
  | [] => .pure _
  | q :: ps => by
    refine .bind (onward_get cut _) fun a => ?_
    cases (scratch q.inOrderIndex).or a with
    | none => exact .throw _
    | some x => exact .bind (onward_proveSides scratch ps) fun _ => .pure _

theorem onward_prove (i : Nat) : Onward (prove (tape cut) p H i) := by
  refine .get fun t => .bind (.lift _) fun n => ?_
  split
  · exact .throw _
  · refine .bind (.lift _) fun rp => .bind (.lift _) fun lp => .bind (onward_get cut _) fun a => ?_
    cases a with
    | none => exact .throw _
    | some a =>
      exact .bind (.lift _) fun items => .bind (.lift _) fun rn => .bind (.lift _) fun r => .bind (onward_proveSides cut _ _) fun _ => .pure _

theorem onward_joinAllLoop : ∀ (rest : List Node) (c : Node), Onward (joinAllLoop (tape cut) p H c rest)
  | [], _ => .pure _
  | n :: rest, c => by
    unfold joinAllLoop
    split
    · exact .bind (.modify fun _ => rfl) fun _ => .bind (.lift _) fun j => .bind (onward_insert cut _ _) fun _ =>
        .bind (.modify fun _ => rfl) fun _ => onward_joinAllLoop rest j
    · exact .pure _

theorem onward_push (d : Bytes) : Onward (push (tape cut) p H d) := by
  refine .get fun t => .bind (.lift _) fun n => .bind (onward_insert cut _ _) fun _ => .bind (.modify fun _ => rfl) fun _ => .bind ?_ fun _ =>
    .get fun t => .bind (.lift _) fun n => .modify fun _ => rfl
  refine .get fun t => ?_
  cases t.head with
  | nil => exact .throw _
  | cons c l => exact onward_joinAllLoop cut p H l c

/-- `Onward` for a call on one of the trees. -/
theorem onward_call (x : Nat × Op) (c : Bench (Tape Nat Prim E)) :
    (∃ more, c.storage.answered = more ++ (c.call (tape cut) p H x).2.storage.answered) ∧
    (c.storage.waiting ≠ none → (c.call (tape cut) p H x).2.storage.waiting = c.storage.waiting) ∧
    (c.storage.waiting = none → ∀ k, (c.call (tape cut) p H x).2.storage.waiting ≠ some (.remove k)) := by
  obtain ⟨i, op⟩ := x
  cases op with
  | push d => exact onward_push cut p H d ⟨c.storage, c.head i, c.count i⟩
  | root => exact Onward.still (x := (Pure.pure () : TreeM (Tape Nat Prim E) E Unit)) (fun _ => rfl) ⟨c.storage, c.head i, c.count i⟩
  | prove k => exact onward_prove cut p H k ⟨c.storage, c.head i, c.count i⟩

theorem onward_calls : ∀ (xs : List (Nat × Op)) (c : Bench (Tape Nat Prim E)),
    (c.storage.waiting ≠ none → (c.calls (tape cut) p H xs).2.storage.waiting = c.storage.waiting) ∧
    (c.storage.waiting = none → ∀ k, (c.calls (tape cut) p H xs).2.storage.waiting ≠ some (.remove k))
  | [], c => ⟨fun _ => rfl, fun h k => by rw [show ((c.calls (tape cut) p H []).2.storage) = c.storage from rfl, h]; simp⟩
  | x :: xs, c => by
    obtain ⟨_, h2, h3⟩ := onward_call cut p H x c
    obtain ⟨g2, g3⟩ := onward_calls xs (c.call (tape cut) p H x).2
    show (_ → (Bench.calls (tape cut) p H xs (c.call (tape cut) p H x).2).2.storage.waiting = _) ∧
      (_ → ∀ k, (Bench.calls (tape cut) p H xs (c.call (tape cut) p H x).2).2.storage.waiting ≠ _)
    refine ⟨fun hw => ?_, fun hw k => ?_⟩
    · rw [g2 (by rw [h2 hw]; exact hw), h2 hw]
    · rcases hq : (c.call (tape cut) p H x).2.storage.waiting with _ | a
      · exact g3 hq k
      · rw [g2 (by rw [hq]; simp)]
        exact h3 hw k

/-! ### A tree in memory -/

section
variable {A : List (Answered Nat Prim E)}

/-- What is in memory belongs to these leaves, and the records of the tree were all written by this process before. -/
def Sturdy (A : List (Answered Nat Prim E)) (H : HashFn) (ds : List Bytes) (t : Tree (Tape Nat Prim E)) : Prop :=
  ∃ (m : Nat → Option Prim) (used : List (Answered Nat Prim E)), A = used ++ t.storage.answered ∧
    (∀ k, m k ≠ none → ∃ v r, (.insert k v, .ok r) ∈ used) ∧
    Inv H ds (⟨⟨m, fun _ => none, 0⟩, t.head, t.leavesCount⟩ : Binary.Tree E)

variable {H}

theorem Sturdy.onward {ds : List Bytes} {t t' : Tree (Tape Nat Prim E)} (h : Sturdy A H ds t) (h1 : t'.head = t.head) (h2 : t'.leavesCount = t.leavesCount)
    (h3 : ∃ more, t.storage.answered = more ++ t'.storage.answered) : Sturdy A H ds t' := by
  obtain ⟨m, used, g1, g2, g3⟩ := h
  obtain ⟨more, e⟩ := h3
  refine ⟨m, used ++ more, by rw [g1, e, List.append_assoc], fun k hk => ?_, by rw [h1, h2]; exact g3⟩
  obtain ⟨v, r, hm⟩ := g2 k hk
  exact ⟨v, r, by simp [hm]⟩

/-- While the process does not wait: the map has nothing that the process has not written, and its failures are those of
the process. -/
def Blamed (A : List (Answered Nat Prim E)) (t : Tape Nat Prim E) (s : BStore E) : Prop :=
  t.waiting ≠ none ∨ ∃ used, A = used ++ t.answered ∧ (∀ k, s.map k ≠ none → ∃ v r, (.insert k v, .ok r) ∈ used) ∧
    ∀ n < s.clock, ∀ f, s.sched n = some f → ∃ k v, (.insert k v, .error f.err) ∈ used

theorem inserts_blamed (cut : E) : Inserts (tape cut) (Blamed A) False := by
  intro k v t
  unfold discarded
  have hi : (tape cut).insert k v t = t.ask cut (.insert k v) := rfl
  rcases Tape.ask_cases cut (.insert k v) t with ⟨hw, e⟩ | ⟨hn, a, rest, ha, e⟩ | ⟨hn, e⟩
  · refine ⟨[some ⟨cut, false⟩], by simp, fun s' hq hf => ?_⟩
    have h0 : s'.sched s'.clock = some ⟨cut, false⟩ := hf 0 _ rfl
    have h1 : Store.insert k v s' = (.error cut, { s' with clock := s'.clock + 1 }) := by simp only [Store.insert, h0]; rfl
    rw [Exec.bind_error (hi.trans e), Exec.bind_error h1]
    exact ⟨rfl, .inl hw, rfl, rfl⟩
  · cases a with
    | error f =>
      refine ⟨[some ⟨f, false⟩], by simp, fun s' hq hf => ?_⟩
      have h0 : s'.sched s'.clock = some ⟨f, false⟩ := hf 0 _ rfl
      have h1 : Store.insert k v s' = (.error f, { s' with clock := s'.clock + 1 }) := by simp only [Store.insert, h0]; rfl
      rw [Exec.bind_error (hi.trans e), Exec.bind_error h1]
      refine ⟨rfl, ?_, rfl, rfl⟩
      rcases hq with hq | ⟨used, hu, hm, hs⟩
      · exact absurd hn hq
      refine .inr ⟨used ++ [(.insert k v, .error f)], by rw [hu, ha]; simp, fun x hx => ?_, fun n hlt g hg => ?_⟩
      · obtain ⟨v', r', h⟩ := hm x hx
        exact ⟨v', r', List.mem_append_left _ h⟩
      · simp only at hlt hg
        rcases Nat.lt_succ_iff_lt_or_eq.1 hlt with h | h
        · obtain ⟨k', v', h'⟩ := hs n h g hg
          exact ⟨k', v', List.mem_append_left _ h'⟩
        · rw [h] at hg
          have e := Option.some.inj (hg.symm.trans h0)
          subst e
          exact ⟨k, v, by simp⟩
    | ok r =>
      refine ⟨[none], by simp, fun s' hq hf => ?_⟩
      have h0 : s'.sched s'.clock = none := hf 0 none rfl
      rw [Exec.bind_ok (hi.trans e), Exec.bind_ok (Store.insert_none k v h0)]
      refine ⟨rfl, ?_, rfl, rfl⟩
      rcases hq with hq | ⟨used, hu, hm, hs⟩
      · exact absurd hn hq
      refine .inr ⟨used ++ [(.insert k v, .ok r)], by rw [hu, ha]; simp, fun x hx => ?_, fun n hlt g hg => ?_⟩
      · by_cases hk : x = k
        · exact ⟨v, r, by rw [hk]; simp⟩
        · simp only [Exec.pure_apply, Store.upd, if_neg hk] at hx
          obtain ⟨v', r', h⟩ := hm x hx
          exact ⟨v', r', List.mem_append_left _ h⟩
      · simp only [Exec.pure_apply] at hlt hg
        rcases Nat.lt_succ_iff_lt_or_eq.1 hlt with h | h
        · obtain ⟨k', v', h'⟩ := hs n h g hg
          exact ⟨k', v', List.mem_append_left _ h'⟩
        · rw [h, h0] at hg
          cases hg
  · refine ⟨[some ⟨cut, false⟩], by simp, fun s' hq hf => ?_⟩
    have h0 : s'.sched s'.clock = some ⟨cut, false⟩ := hf 0 _ rfl
    have h1 : Store.insert k v s' = (.error cut, { s' with clock := s'.clock + 1 }) := by simp only [Store.insert, h0]; rfl
    rw [Exec.bind_error (hi.trans e), Exec.bind_error h1]
    exact ⟨rfl, .inl (by simp), rfl, rfl⟩

theorem Sturdy.push {ds : List Bytes} {t : Tree (Tape Nat Prim E)} (hg : Sturdy A H ds t) (d : Bytes) (hn : ds.length < 2 ^ 63)
    (hw : (push (tape cut) p H d t).2.storage.waiting = none) :
    ((push (tape cut) p H d t).1 = .ok () ∧ Sturdy A H (ds ++ [d]) (push (tape cut) p H d t).2) ∨
    ∃ k v e, (push (tape cut) p H d t).1 = .error (.err (.storageError e)) ∧ (.insert k v, .error e) ∈ A := by
  obtain ⟨m, used, g1, g2, g3⟩ := hg
  obtain ⟨sched, _, h⟩ := (covers_push (inserts_blamed (A := A) cut) p H d t).elimExec
  obtain ⟨h1, h2⟩ := h ⟨⟨m, sched, 0⟩, t.head, t.leavesCount⟩
    ⟨.inr ⟨used, g1, g2, fun n hn => by cases hn⟩, rfl, rfl⟩ rfl rfl
  obtain ⟨hb, hh, hc⟩ := h2
  rcases hb with hb | ⟨used', u1, u2, u3⟩
  · exact absurd hw hb
  have hinv : Inv H ds (⟨⟨m, sched, 0⟩, t.head, t.leavesCount⟩ : Binary.Tree E) := ⟨g3.count, g3.peaks, g3.agree⟩
  rcases push_spec p H ds d ⟨⟨m, sched, 0⟩, t.head, t.leavesCount⟩ hn g3.count g3.peaks with
    ⟨t2, c, k, q1, q2, q3, q4, q5, q6, q7, q8⟩ | ⟨t2, c, k, f, q1, q2, q3, q4, q5, q6, q7, q8⟩
  · left
    rw [q1] at h1 hh hc u2 u3
    refine ⟨h1.symm, t2.storage.map, used', u1, u2, ?_⟩
    obtain ⟨i1, _⟩ := push_ok_inv p H hinv hn q1
    simp only at hh hc
    rw [← hh, ← hc]
    exact ⟨i1.count, i1.peaks, i1.agree⟩
  · right
    rw [q1] at h1 u3
    simp only at h1 u3 q3 q5 q6
    obtain ⟨k', v', hm⟩ := u3 (t2.storage.clock - 1) (by omega) f (by rw [q3]; exact q6)
    exact ⟨k', v', f.err, h1.symm, by rw [u1]; exact List.mem_append_left _ hm⟩

/-! ### Proofs -/

/-- All records on the map were written by the process. -/
def Knows (A : List (Answered Nat Prim E)) (t : Tape Nat Prim E) (m : Nat → Option Prim) : Prop :=
  ∃ used, A = used ++ t.answered ∧ ∀ k, m k ≠ none → ∃ v r, (.insert k v, .ok r) ∈ used

/-- An error for which a read of the process is to blame. -/
def Blame (A : List (Answered Nat Prim E)) (e : Fail (Error E)) : Prop :=
  (∃ k f, e = .err (.storageError f) ∧ (.get k, .error f) ∈ A) ∨ ∃ n k, e = .err (.loadError n) ∧ Lost A k

/-- If the one on the map succeeds, the one on the tape does, with a related result, or a read is to blame, or it waits. -/
def Mild (A : List (Answered Nat Prim E)) (R : α → β → Prop) (x : TreeM (Tape Nat Prim E) E α) (y : Binary.TreeM E β) : Prop :=
  ∀ t t' b t1', Knows A t.storage t'.storage.map → y t' = (.ok b, t1') → (x t).2.storage.waiting = none →
    (∃ a, (x t).1 = .ok a ∧ R a b ∧ t1'.storage.map = t'.storage.map) ∨ ∃ e, (x t).1 = .error e ∧ Blame A e

theorem Knows.onward {t t' : Tape Nat Prim E} {m : Nat → Option Prim} (h : Knows A t m) (h3 : ∃ more, t.answered = more ++ t'.answered) : Knows A t' m := by
  obtain ⟨used, g1, g2⟩ := h
  obtain ⟨more, e⟩ := h3
  refine ⟨used ++ more, by rw [g1, e, List.append_assoc], fun k hk => ?_⟩
  obtain ⟨v, r, hm⟩ := g2 k hk
  exact ⟨v, r, by simp [hm]⟩

theorem Mild.bind {γ δ : Type} {R : α → β → Prop} {R' : γ → δ → Prop} {x : TreeM (Tape Nat Prim E) E α} {y : Binary.TreeM E β}
    {f : α → TreeM (Tape Nat Prim E) E γ} {g : β → Binary.TreeM E δ} (h : Mild A R x y) (hx : Onward x) (hf : ∀ a, Onward (f a))
    (k : ∀ a b, R a b → Mild A R' (f a) (g b)) : Mild A R' (x >>= f) (y >>= g) := by
  intro t t' b t1' hk hy hw
  rcases hy' : y t' with ⟨e | b0, t2'⟩
  · rw [Exec.bind_error hy'] at hy; cases hy
  rw [Exec.bind_ok hy'] at hy
  obtain ⟨hm, _, _⟩ := hx t
  rcases hx' : x t with ⟨e | a, t1⟩
  · rw [Exec.bind_error hx'] at hw ⊢
    have h2 := h t t' b0 t2' hk hy' (by rw [hx']; exact hw)
    rw [hx'] at h2
    rcases h2 with ⟨a, h2, _⟩ | ⟨e', h2, h3⟩
    · cases h2
    · cases h2
      exact .inr ⟨e, rfl, h3⟩
  · rw [Exec.bind_ok hx'] at hw ⊢
    have hw1 : t1.storage.waiting = none := by
      rcases hq : t1.storage.waiting with _ | c
      · rfl
      · rw [((hf a) t1).2.1 (by rw [hq]; simp), hq] at hw
        cases hw
    have h2 := h t t' b0 t2' hk hy' (by rw [hx']; exact hw1)
    rw [hx'] at h2 hm
    rcases h2 with ⟨a', h2, h3, h1⟩ | ⟨e', h2, h3⟩
    · cases h2
      rcases k a b0 h3 t1 t2' b t1' (by rw [h1]; exact hk.onward hm) hy hw with ⟨c, i1, i2, i3⟩ | i
      · exact .inl ⟨c, i1, i2, i3.trans h1⟩
      · exact .inr i
    · cases h2

theorem Mild.pure {R : α → β → Prop} {a : α} {b : β} (h : R a b) : Mild A R (Pure.pure a : TreeM (Tape Nat Prim E) E α) (Pure.pure b) := by
  intro t t' b' t1' _ hy _
  cases hy
  exact .inl ⟨a, rfl, h, rfl⟩

theorem Mild.lift (r : Res α) : Mild A Eq (Exec.liftRes r : TreeM (Tape Nat Prim E) E α) (Exec.liftRes r : Binary.TreeM E α) := by
  intro t t' b' t1' _ hy _
  cases r with
  | ok a => cases hy; exact .inl ⟨_, rfl, rfl, rfl⟩
  | error e => cases hy

theorem Mild.never {R : α → β → Prop} (x : TreeM (Tape Nat Prim E) E α) (e : Fail (Error E)) : Mild A R x (Exec.throw e : Binary.TreeM E β) :=
  fun _ _ _ _ _ hy => by cases hy

theorem Mild.lost {R : α → β → Prop} {n k : Nat} (h : Lost A k) (y : Binary.TreeM E β) :
    Mild A R (Exec.throw (.err (.loadError n)) : TreeM (Tape Nat Prim E) E α) y :=
  fun _ _ _ _ _ _ _ => .inr ⟨_, rfl, .inr ⟨n, k, rfl, h⟩⟩

theorem Mild.get (cut : E) (k : Nat) :
    Mild A (fun a b => a = none → b ≠ none → Lost A k) (onStorage ((tape cut).get k)) (Binary.onStorage (Store.get k) : Binary.TreeM E _) := by
  intro t t' b t1' hk hy hw
  have hb : b = t'.storage.map k ∧ t1'.storage.map = t'.storage.map := by
    revert hy
    unfold Binary.onStorage Store.get
    rcases t'.storage.sched t'.storage.clock with _ | f
    · intro hy; cases hy; exact ⟨rfl, rfl⟩
    · intro hy; cases hy
  have hi : (tape cut).get k t.storage = t.storage.ask cut (.get k) := rfl
  rcases Tape.ask_cases cut (.get k) t.storage with ⟨h, e⟩ | ⟨hn, a, rest, ha, e⟩ | ⟨hn, e⟩
  · exfalso
    unfold onStorage at hw
    rw [hi, e] at hw
    exact h hw
  · unfold onStorage
    rw [hi, e]
    cases a with
    | error f =>
      obtain ⟨used, hu, _⟩ := hk
      exact .inr ⟨_, rfl, .inl ⟨k, f, rfl, by rw [hu, ha]; simp⟩⟩
    | ok a =>
      refine .inl ⟨a, rfl, fun h1 h2 => ?_, hb.2⟩
      subst h1
      obtain ⟨used, hu, hm⟩ := hk
      obtain ⟨v, r, hmem⟩ := hm k (by rw [← hb.1]; exact h2)
      obtain ⟨l1, l2, rfl⟩ := List.append_of_mem hmem
      exact ⟨l1, v, r, l2, rest, by rw [hu, ha]; simp⟩
  · exfalso
    unfold onStorage at hw
    rw [hi, e] at hw
    simp at hw

theorem mild_proveSides (scratch : Scratch) : ∀ sides : List Position,
    Mild A (fun (a b : List Bytes32) => a.length = b.length) (proveSides (tape cut) scratch sides) (Binary.proveSides scratch sides) := by
  intro sides
  induction sides with
  | nil => exact .pure rfl
  | cons q sides ih =>
    refine .bind (.get cut _) (onward_get cut _) (fun a => ?_) fun a b hl => ?_
    · cases (scratch q.inOrderIndex).or a with
      | none => exact .throw _
      | some x => exact .bind (onward_proveSides cut _ _) fun _ => .pure _
    · cases h1 : (scratch q.inOrderIndex).or b with
      | none => exact .never _ _
      | some y =>
        cases h2 : (scratch q.inOrderIndex).or a with
        | none =>
          rw [Option.or_eq_none_iff] at h2
          refine .lost (hl h2.2 ?_) _
          rw [h2.1, Option.none_or] at h1
          rw [h1]; simp
        | some x => exact .bind ih (onward_proveSides cut _ _) (fun _ => .pure _) fun a b h => .pure (by simp only [List.length_cons, h])

theorem mild_prove (i n : Nat) (l : List Node) :
    Mild A (fun a b => a.1 = b.1 ∧ a.2.length = b.2.length) (proveAt (tape cut) p H i (l, n))
      (do
        let next ← Exec.liftRes (u64Add p i 1)
        if next > n then
          Exec.throw (.err (.invalidProofIndex i))
        else do
          let rootPosition ← Exec.liftRes (rootPosition p n)
          let leafPosition ← Exec.liftRes (Position.fromLeafIndex p i)
          match ← Binary.onStorage (Store.get leafPosition.inOrderIndex) with
          | none => Exec.throw (.err (.loadError i))
          | some primitive => do
            let leafNode := Node.ofPrim primitive
            let items ← Exec.liftRes (rootPosition.pathList p leafPosition n)
            let sidePositions := (items.map Prod.snd).reverse.dropLast
            let (rootNode, scratch) ← Exec.liftRes (rootNode p H l (fun _ => none))
            let rootNode ← Exec.liftRes (runwrap rootNode)
            let sides ← Binary.proveSides scratch sidePositions
            return (rootNode.hash, leafNode.hash :: sides) : Binary.TreeM E (Bytes32 × List Bytes32)) := by
  have o4 : ∀ (a : Prim) (sc : Scratch) (r : Node) (ps : List Position),
      Onward (do let sides ← proveSides (tape cut) sc ps; return (r.hash, (Node.ofPrim a).hash :: sides) : TreeM (Tape Nat Prim E) E (Bytes32 × List Bytes32)) :=
    fun _ _ _ _ => .bind (onward_proveSides cut _ _) fun _ => .pure _
  have o1 : ∀ (lp rp : Position) (a : Option Prim), Onward (match a with
          | none => Exec.throw (.err (.loadError i))
          | some primitive => do
            let leafNode := Node.ofPrim primitive
            let items ← Exec.liftRes (rp.pathList p lp n)
            let sidePositions := (items.map Prod.snd).reverse.dropLast
            let (rootNode, scratch) ← Exec.liftRes (rootNode p H l (fun _ => none))
            let rootNode ← Exec.liftRes (runwrap rootNode)
            let sides ← proveSides (tape cut) scratch sidePositions
            return (rootNode.hash, leafNode.hash :: sides) : TreeM (Tape Nat Prim E) E (Bytes32 × List Bytes32)) := by
    intro lp rp a
    cases a with
    | none => exact .throw _
    | some a => exact .bind (.lift _) fun items => .bind (.lift _) fun rn => .bind (.lift _) fun r => o4 _ _ _ _
  refine .bind (.lift _) (.lift _) (fun m => ?_) fun m _ e => ?_
  · split
    · exact .throw _
    · exact .bind (.lift _) fun rp => .bind (.lift _) fun lp => .bind (onward_get cut _) fun a => o1 lp rp a
  subst e
  split
  · exact .never _ _
  · refine .bind (.lift _) (.lift _) (fun rp => .bind (.lift _) fun lp => .bind (onward_get cut _) fun a => o1 lp rp a) fun rp _ e => ?_
    subst e
    refine .bind (.lift _) (.lift _) (fun lp => .bind (onward_get cut _) fun a => o1 lp rp a) fun lp _ e => ?_
    subst e
    refine .bind (.get cut _) (onward_get cut _) (fun a => o1 lp rp a) fun a b hl => ?_
    cases b with
    | none => exact .never _ _
    | some b =>
      cases a with
      | none => exact .lost (hl rfl (by simp)) _
      | some a =>
        refine .bind (.lift _) (.lift _) (fun items => .bind (.lift _) fun rn => .bind (.lift _) fun r => o4 _ _ _ _) fun items _ e => ?_
        subst e
        refine .bind (.lift _) (.lift _) (fun rn => .bind (.lift _) fun r => o4 _ _ _ _) fun rn _ e => ?_
        subst e
        refine .bind (.lift _) (.lift _) (fun r => o4 _ _ _ _) fun r _ e => ?_
        subst e
        exact .bind (mild_proveSides cut _ _) (onward_proveSides cut _ _) (fun _ => .pure _) fun a b h => .pure ⟨rfl, by simp only [List.length_cons, h]⟩

theorem reads_prove {B : Backend S Nat Prim E} (i : Nat) : Reads (prove B p H i) := by
  intro t
  have h : Reads (proveAt B p H i (t.head, t.leavesCount)) := by
    refine .bind (.lift _) fun n => ?_
    split
    · exact .throw _
    · refine .bind (.lift _) fun rp => .bind (.lift _) fun lp => .bind (.storage _) fun a => ?_
      cases a with
      | none => exact .throw _
      | some a =>
        exact .bind (.lift _) fun items => .bind (.lift _) fun rn => .bind (.lift _) fun r => .bind (reads_proveSides _ _) fun _ => .pure _
  exact h t

theorem Sturdy.prove {ds : List Bytes} {t : Tree (Tape Nat Prim E)} (hg : Sturdy A H ds t) (i : Nat) (hn : ds.length < p.leafLimit) (hi : i + 1 < 2 ^ 64)
    (hw : (prove (tape cut) p H i t).2.storage.waiting = none) :
    Fair H A ds (.prove i) (.prove (prove (tape cut) p H i t).1) := by
  obtain ⟨m, used, g1, g2, g3⟩ := hg
  have hlim := p.leafLimit_le
  show if i < ds.length then _ else _
  split
  · rename_i hlt
    obtain ⟨t2, hs, hp | ⟨e, ⟨x, f, _, he, _⟩, _⟩⟩ := Binary.prove_spec p H ds _ g3 hn hlt
    · rcases mild_prove cut p i t.leavesCount t.head t ⟨⟨m, fun _ => none, 0⟩, t.head, t.leavesCount⟩ _ _ ⟨used, g1, g2⟩ hp hw with
        ⟨⟨r, set⟩, h1, ⟨h2, h3⟩, _⟩ | ⟨e, h1, ⟨k, f, h2, h3⟩ | ⟨n, k, h2, h3⟩⟩
      · refine .inl ⟨set, ?_, ?_⟩
        · rw [show Any.prove (tape cut) p H i t = proveAt (tape cut) p H i (t.head, t.leavesCount) t from rfl, h1, show r = mth H ds from h2]
        · rw [h3, List.length_cons]
      · exact .inr (.inl ⟨k, f, h1.trans (congrArg _ h2), h3⟩)
      · exact .inr (.inr ⟨n, k, h1.trans (congrArg _ h2), h3⟩)
    · cases he
  · rename_i hge
    have hc : t.leavesCount = ds.length := g3.count
    unfold Any.prove
    rw [Exec.get_bind, u64Add, if_pos hi, Exec.liftRes_ok_bind, if_pos (by omega)]
    rfl

theorem Sturdy.root {ds : List Bytes} {t : Tree (Tape Nat Prim E)} (hg : Sturdy A H ds t) (hn : ds.length ≤ 2 ^ 63) :
    t.root p H = .ok (if ds = [] then emptySum else mth H ds) := by
  obtain ⟨m, used, g1, g2, g3⟩ := hg
  exact Binary.root_spec p H ds hn (⟨⟨m, fun _ => none, 0⟩, t.head, t.leavesCount⟩ : Binary.Tree E) g3.peaks

/-- A new tree. -/
theorem sturdy_new (A : List (Answered Nat Prim E)) : Sturdy A H [] ⟨⟨A, none⟩, [], 0⟩ :=
  ⟨fun _ => none, [], rfl, fun _ hk => absurd rfl hk, Binary.Inv.new H _⟩

/-- The replies of a process. -/
theorem told_fair (xs : List (Nat × Op)) : ∀ (c : Bench (Tape Nat Prim E)) (ds : Nat → List Bytes) (sound : Nat → Prop),
    (∀ j, sound j → Sturdy A H (ds j) ⟨c.storage, c.head j, c.count j⟩) → (∀ j, (ds j ++ leavesTo j xs).length < p.leafLimit) →
    (∀ x ∈ xs, indicesOk [x.2]) → ∀ n j op o, xs[n]? = some (j, op) → (c.told cut p H xs)[n]? = some o → sound j →
    (∀ m < n, ∀ d, xs[m]? = some (j, .push d) → (c.told cut p H xs)[m]? = some (.push (.ok ()))) →
    Fair H A (ds j ++ leavesTo j (xs.take n)) op o := by
  have hlim := p.leafLimit_le
  induction xs with
  | nil => intro c ds sound _ _ _ n j op o h; simp at h
  | cons x xs ih =>
    intro c ds sound hs hl hi n j op o hx ho hj hb
    obtain ⟨j0, op0⟩ := x
    unfold Bench.told at ho hb
    have hcall := (onward_call cut p H (j0, op0) c).1
    split at ho
    · rename_i hw
      simp only [if_pos hw] at hb
      have hlen : ∀ j, (ds j).length < p.leafLimit := fun j => by
        have := hl j
        rw [List.length_append] at this
        omega
      -- the reply to the first call
      have hfirst : sound j0 → Fair H A (ds j0) op0 (c.call (tape cut) p H (j0, op0)).1 ∧
          ((∀ d, op0 = .push d → (c.call (tape cut) p H (j0, op0)).1 = .push (.ok ())) →
            Sturdy A H (ds j0 ++ pushes [op0]) ⟨(c.call (tape cut) p H (j0, op0)).2.storage, (c.call (tape cut) p H (j0, op0)).2.head j0,
              (c.call (tape cut) p H (j0, op0)).2.count j0⟩) := by
        intro h0
        have hg := hs j0 h0
        cases op0 with
        | push d =>
          have hp := hg.push cut p d (by have := hlen j0; omega) hw
          rcases hp with ⟨h1, h2⟩ | ⟨k, v, e, h1, h2⟩
          · refine ⟨.inl h1, fun _ => ?_⟩
            simp only [Bench.call, if_true]
            exact h2
          · refine ⟨.inr ⟨k, v, e, h1, h2⟩, fun h => ?_⟩
            have := h d rfl
            have h3 : (Any.push (tape cut) p H d ⟨c.storage, c.head j0, c.count j0⟩).1 = .ok () := Out.push.inj this
            rw [h1] at h3
            cases h3
        | root =>
          refine ⟨hg.root p (by have := hlen j0; omega), fun _ => ?_⟩
          simp only [pushes, List.append_nil, Bench.call, if_true]
          exact hg
        | prove i =>
          have hiok : i + 1 < 2 ^ 64 := (hi _ (List.mem_cons_self)).1
          refine ⟨hg.prove cut p i (hlen j0) hiok hw, fun _ => ?_⟩
          simp only [pushes, List.append_nil]
          refine hg.onward ?_ ?_ hcall
          · simp only [Bench.call, if_true]
            exact (reads_prove p i ⟨c.storage, c.head j0, c.count j0⟩).1
          · simp only [Bench.call, if_true]
            exact (reads_prove p i ⟨c.storage, c.head j0, c.count j0⟩).2
      cases n with
      | zero =>
        simp only [List.getElem?_cons_zero, Option.some.injEq] at hx ho
        cases hx
        subst ho
        simpa [leavesTo, callsTo, pushes] using (hfirst hj).1
      | succ n =>
        simp only [List.getElem?_cons_succ] at hx ho
        have := ih (c.call (tape cut) p H (j0, op0)).2 (fun j => if j = j0 then ds j0 ++ pushes [op0] else ds j)
          (fun j => sound j ∧ (j = j0 → ∀ d, op0 = .push d → (c.call (tape cut) p H (j0, op0)).1 = .push (.ok ())))
          (fun j ⟨h1, h2⟩ => ?_) (fun j => ?_) (fun x hx => hi x (List.mem_cons_of_mem _ hx)) n j op o hx ho ⟨hj, ?_⟩ ?_
        · rw [List.take_succ_cons, leavesTo_cons]
          split at this
          · rename_i e
            subst e
            simpa [List.append_assoc] using this
          · rename_i e
            simpa [e] using this
        · show Sturdy A H (if j = j0 then _ else _) _
          split
          · rename_i e
            subst e
            exact (hfirst h1).2 (h2 rfl)
          · rename_i e
            refine (hs j h1).onward ?_ ?_ hcall
            · simp only [Bench.call, if_neg e]
            · simp only [Bench.call, if_neg e]
        · have := hl j
          rw [leavesTo_cons] at this
          show ((if j = j0 then ds j0 ++ pushes [op0] else ds j) ++ leavesTo j xs).length < _
          split
          · rename_i e
            subst e
            simpa [List.append_assoc] using this
          · rename_i e
            simpa [e] using this
        · rintro rfl d rfl
          have := hb 0 (by omega) d rfl
          simpa using this
        · intro m hm d hd
          have := hb (m + 1) (by omega) d (by simpa using hd)
          simpa using this
    · simp at ho

end

/-! ### Nothing is lost -/

section
variable {B : Backend S Nat Prim E} {ok : S → Prop} {view : S → Nat → Option Prim}

/-- What is true of the processes at every moment. -/
structure Kept (ok : S → Prop) (view : S → Nat → Option Prim) (o : Office S Nat Prim E) : Prop where
  ok : ok o.storage
  written : ∀ i k v r, (.insert k v, .ok r) ∈ o.answered i → view o.storage k ≠ none
  found : ∀ i k, ¬ Lost (o.answered i) k

theorem lost_snoc {l : List (Answered Nat Prim E)} {x : Answered Nat Prim E} {k : Nat} (h : Lost (l ++ [x]) k) :
    Lost l k ∨ (x = (.get k, .ok none) ∧ ∃ v r, (.insert k v, .ok r) ∈ l) := by
  obtain ⟨before, v, r, between, after, e⟩ := h
  rcases List.eq_nil_or_concat after with rfl | ⟨after', y, rfl⟩
  · right
    have e' : l ++ [x] = (before ++ (.insert k v, .ok r) :: between) ++ [(.get k, .ok none)] := by rw [e]; simp
    obtain ⟨e1, e2⟩ := List.append_inj' e' rfl
    exact ⟨List.head_eq_of_cons_eq e2, v, r, by rw [e1]; simp⟩
  · left
    have e' : l ++ [x] = (before ++ (.insert k v, .ok r) :: (between ++ (.get k, .ok none) :: after')) ++ [y] := by rw [e]; simp
    obtain ⟨e1, _⟩ := List.append_inj' e' rfl
    exact ⟨before, v, r, between, after', e1⟩

theorem Kept.turn (hB : MapLike B ok view) {xs : Nat → List (Nat × Op)} {o : Office S Nat Prim E}
    (h : Kept ok view o) (i : Nat) : Kept ok view (o.turn B (fun i => caller cut p H (xs i)) i) := by
  unfold Office.turn
  cases hc : nextCall (caller cut p H (xs i)) (o.answered i) with
  | none => exact h
  | some c =>
    have hr : ∀ k, c ≠ .remove k := by
      intro k e
      subst e
      exact (onward_calls cut p H (xs i) (.start ⟨o.answered i, none⟩)).2 rfl k hc
    rcases hx : B.perform c o.storage with ⟨a, s'⟩
    have key : ok s' ∧ (∀ y, view o.storage y ≠ none → view s' y ≠ none) ∧ (∀ k v r, (c, a) = (.insert k v, .ok r) → view s' k ≠ none) ∧
        ∀ k, (c, a) = (.get k, .ok none) → view o.storage k = none := by
      cases c with
      | remove k => exact absurd rfl (hr k)
      | get k =>
        simp only [Backend.perform] at hx
        cases a with
        | ok r =>
          obtain ⟨g1, g2, g3⟩ := hB.get_ok h.ok hx
          refine ⟨g1, fun y hy => by rw [g3]; exact hy, fun k v r e => (by cases e), fun k' e => ?_⟩
          cases e
          exact g2.symm
        | error e =>
          obtain ⟨g1, g2⟩ := hB.get_error h.ok hx
          exact ⟨g1, fun y hy => by rw [g2]; exact hy, fun k v r e => (by cases e), fun k' e => by cases e⟩
      | insert k v =>
        simp only [Backend.perform] at hx
        have hs : ok s' ∧ ((∃ e, a = .error e ∧ view s' = view o.storage) ∨ view s' = Store.upd (view o.storage) k (some v)) := by
          cases a with
          | ok r =>
            obtain ⟨g1, g2⟩ := hB.insert_ok h.ok hx
            exact ⟨g1, .inr (funext fun y => g2 y)⟩
          | error e =>
            obtain ⟨g1, g2 | g2⟩ := hB.insert_error h.ok hx
            · exact ⟨g1, .inl ⟨e, rfl, g2⟩⟩
            · exact ⟨g1, .inr (funext fun y => g2 y)⟩
        refine ⟨hs.1, fun y hy => ?_, fun k' v' r e => ?_, fun k' e => by cases e⟩
        · rcases hs.2 with ⟨e, _, e2⟩ | e2
          · rwa [e2]
          · rw [e2, Store.upd]
            split
            · simp
            · exact hy
        · cases e
          rcases hs.2 with ⟨e, e1, _⟩ | e2
          · cases e1
          · rw [e2]; simp [Store.upd]
    obtain ⟨k1, k2, k3, k4⟩ := key
    simp only [hx]
    refine ⟨k1, fun j k v r hm => ?_, fun j k hl => ?_⟩
    · simp only at hm
      split at hm
      · rcases List.mem_append.1 hm with hm | hm
        · exact k2 k (h.written _ k v r hm)
        · exact k3 k v r (List.mem_singleton.1 hm).symm
      · exact k2 k (h.written _ k v r hm)
    · simp only at hl
      split at hl
      · rcases lost_snoc hl with hl | ⟨e, v, r, hm⟩
        · exact h.found _ k hl
        · exact h.written i k v r hm (k4 k e)
      · exact h.found _ k hl

theorem Kept.turns (hB : MapLike B ok view) {xs : Nat → List (Nat × Op)} :
    ∀ (schedule : List Nat) {o : Office S Nat Prim E}, Kept ok view o → Kept ok view (o.turns B (fun i => caller cut p H (xs i)) schedule)
  | [], _, h => h
  | i :: is, _, h => Kept.turns hB is (h.turn cut p H hB i)

theorem kept_crowd (hB : MapLike B ok view) (xs : Nat → List (Nat × Op)) (s : S) (hs : ok s) (schedule : List Nat) :
    Kept ok view (crowd B cut p H s xs schedule) :=
  Kept.turns cut p H hB schedule ⟨hs, fun _ _ _ _ hm => (by cases hm), fun _ _ ⟨b, _, _, _, _, e⟩ => by cases b <;> cases e⟩
end

/-! ### The calls of a process that works alone -/

section
variable (B : Backend S Nat Prim E)

/-- A call as a function of the storage. -/
def callRun {T : Type} (C : Backend T Nat Prim E) (x : Nat × Op) (m : (Nat → List Node) × (Nat → Nat)) (s : T) :
    (Out E × (Nat → List Node) × (Nat → Nat)) × T :=
  let y := (⟨s, m.1, m.2⟩ : Bench T).call C p H x
  ((y.1, y.2.head, y.2.count), y.2.storage)

/-- A call and the memory after it. -/
def callMade {α : Type} (out : Except (Fail (Error E)) α → Out E) (i : Nat) (m : (Nat → List Node) × (Nat → Nat)) (r : Except (Fail (Error E)) α × List Node × Nat) :
    Out E × (Nat → List Node) × (Nat → Nat) :=
  (out r.1, (fun j => if j = i then r.2.1 else m.1 j), fun j => if j = i then r.2.2 else m.2 j)

theorem rep_call (x : Nat × Op) (m : (Nat → List Node) × (Nat → Nat)) : Replays B (callRun p H B x m) (callRun p H (tape cut) x m) := by
  obtain ⟨i, op⟩ := x
  cases op with
  | push d => exact ((rep_push B cut p H d (m.1 i, m.2 i)).map (callMade .push i m)).of_eq (fun _ => rfl) (fun _ => rfl)
  | prove k => exact ((rep_prove B cut p H k (m.1 i, m.2 i)).map (callMade .prove i m)).of_eq (fun _ => rfl) (fun _ => rfl)
  | root =>
    exact (Replays.pure (callRun p H (tape cut) (i, .root) m ⟨[], none⟩).1).of_eq (fun _ => rfl) (fun _ => rfl)

/-- Calls as a function of the storage. -/
def callsRun {T : Type} (C : Backend T Nat Prim E) (xs : List (Nat × Op)) (m : (Nat → List Node) × (Nat → Nat)) (s : T) :
    (List (Out E) × (Nat → List Node) × (Nat → Nat)) × T :=
  let y := Bench.calls C p H xs ⟨s, m.1, m.2⟩
  ((y.1, y.2.head, y.2.count), y.2.storage)

/-- What comes after a call. -/
def callAfter {T : Type} (C : Backend T Nat Prim E) (xs : List (Nat × Op)) (r : Out E × (Nat → List Node) × (Nat → Nat)) (s : T) :
    (List (Out E) × (Nat → List Node) × (Nat → Nat)) × T :=
  let q := callsRun p H C xs r.2 s
  ((r.1 :: q.1.1, q.1.2), q.2)

theorem rep_calls : ∀ (xs : List (Nat × Op)) (m : (Nat → List Node) × (Nat → Nat)), Replays B (callsRun p H B xs m) (callsRun p H (tape cut) xs m)
  | [], m => (Replays.pure (R := List (Out E) × (Nat → List Node) × (Nat → Nat)) ([], m)).of_eq (fun _ => rfl) (fun _ => rfl)
  | x :: xs, m => by
    refine (Replays.bind (F' := callAfter p H B xs) (G' := callAfter p H (tape cut) xs) (rep_call cut p H B x m) fun r => ?_).of_eq (fun _ => rfl) (fun _ => rfl)
    exact (rep_calls xs r.2).map (fun q => (r.1 :: q.1, q.2))

/-- A process that has come to its end was told everything. -/
theorem told_all : ∀ (xs : List (Nat × Op)) (c : Bench (Tape Nat Prim E)),
    (Bench.calls (tape cut) p H xs c).2.storage.waiting = none → c.told cut p H xs = (Bench.calls (tape cut) p H xs c).1
  | [], _, _ => rfl
  | x :: xs, c, h => by
    have h : (Bench.calls (tape cut) p H xs (c.call (tape cut) p H x).2).2.storage.waiting = none := h
    have e : (Bench.calls (tape cut) p H (x :: xs) c).1 = (c.call (tape cut) p H x).1 :: (Bench.calls (tape cut) p H xs (c.call (tape cut) p H x).2).1 := rfl
    rw [e]
    unfold Bench.told
    generalize c.call (tape cut) p H x = y at h ⊢
    have h1 : y.2.storage.waiting = none := by
      rcases hq : y.2.storage.waiting with _ | z
      · rfl
      · rw [(onward_calls cut p H xs y.2).1 (by rw [hq]; simp), hq] at h
        cases h
    rw [if_pos h1, told_all xs _ h]
end

end FuelMerkle.Binary.Any
