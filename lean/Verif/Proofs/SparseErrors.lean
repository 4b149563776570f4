import Verif.Proofs.SparseAny
import Verif.Spec.SparseErrors

/-
A call on failing storage either reports a failure of the storage, or acts as on storage that
does not fail.
-/
namespace FuelMerkle
namespace Sparse
open Spec T
variable {E : Type} {α β : Type} {H : HashFn} {M : Bytes → Prop} {U : Bytes32 → Prop}

/-- Same tree and records; the second storage does not fail. -/
structure Twin (t t0 : Tree E) : Prop where
  root : t0.rootNode = t.rootNode
  map : t0.storage.map = t.storage.map
  reliable : t0.storage.Reliable

/-- The result is a panic or reports a failure of the storage. -/
def Bad (t : Tree E) (r : Except (Fail (Error E)) α × Tree E) : Prop :=
  (∃ q, r.1 = .error (.panic q)) ∨ ∃ e, r.1 = .error (.err e) ∧ Reported t.storage.sched t.storage.clock r.2.storage.clock e

/-- On failing storage the computation reports a failure or acts as on storage that does not
fail. -/
structure Follows (m : TreeM E α) : Prop where
  sched : ∀ t, (m t).2.storage.sched = t.storage.sched
  clock : ∀ t, t.storage.clock ≤ (m t).2.storage.clock
  out : ∀ t t0, Twin t t0 → Bad t (m t) ∨ ((m t).1 = (m t0).1 ∧ Twin (m t).2 (m t0).2)

theorem Follows.pure (a : α) : Follows (pure a : TreeM E α) := ⟨fun _ => rfl, fun _ => Nat.le_refl _, fun _ _ h => .inr ⟨rfl, h⟩⟩
theorem Follows.throw (e : Fail (Error E)) : Follows (Exec.throw e : TreeM E α) :=
  ⟨fun _ => rfl, fun _ => Nat.le_refl _, fun _ _ h => .inr ⟨rfl, h⟩⟩
theorem Follows.lift (r : Res α) : Follows (Exec.liftRes r : TreeM E α) := by
  cases r with
  | ok a => exact .pure a
  | error q => exact .throw _

theorem Reported.mono {sched : Nat → Option (Fault E)} {a b a' b' : Nat} {e : Error E} (h : Reported sched a b e) (ha : a' ≤ a) (hb : b ≤ b') :
    Reported sched a' b' e := by
  obtain ⟨n, f, h1, h2, h3⟩ := h
  exact ⟨n, f, by omega, by omega, h3⟩

theorem Follows.bind {m : TreeM E α} {f : α → TreeM E β} (h : Follows m) (hf : ∀ a, Follows (f a)) : Follows (m >>= f) := by
  refine ⟨fun t => ?_, fun t => ?_, fun t t0 ht => ?_⟩
  · have := h.sched t
    rw [Exec.bind_apply]
    rcases hm : m t with ⟨r, s⟩
    rw [hm] at this
    cases r with
    | ok a => exact ((hf a).sched s).trans this
    | error e => exact this
  · have := h.clock t
    rw [Exec.bind_apply]
    rcases hm : m t with ⟨r, s⟩
    rw [hm] at this
    cases r with
    | ok a => exact Nat.le_trans this ((hf a).clock s)
    | error e => exact this
  · have h1 := h.out t t0 ht
    have h2 := h.sched t
    have h3 := h.clock t
    rw [Exec.bind_apply, Exec.bind_apply]
    rcases hm : m t with ⟨r, s⟩
    rcases hm0 : m t0 with ⟨r0, s0⟩
    rw [hm] at h1 h2 h3
    rw [hm0] at h1
    simp only at h1 h2 h3
    rcases h1 with hb | ⟨rfl, hs⟩
    · rcases hb with ⟨q, hq⟩ | ⟨e, he, hr⟩
      · simp only at hq; subst hq; exact .inl (.inl ⟨q, rfl⟩)
      · simp only at he; subst he; exact .inl (.inr ⟨e, rfl, hr⟩)
    · cases r with
      | error e => exact .inr ⟨rfl, hs⟩
      | ok a =>
        rcases (hf a).out s s0 hs with hb | hb
        · rcases hb with hq | ⟨e, he, hr⟩
          · exact .inl (.inl hq)
          · refine .inl (.inr ⟨e, he, ?_⟩)
            rw [h2] at hr
            exact hr.mono h3 (Nat.le_refl _)
        · exact .inr hb

theorem Follows.get {f : Tree E → TreeM E α} (h1 : ∀ t t0, Twin t t0 → f t0 = f t) (h2 : ∀ t, Follows (f t)) : Follows (Exec.get >>= f) := by
  refine ⟨fun t => (h2 t).sched t, fun t => (h2 t).clock t, fun t t0 ht => ?_⟩
  rw [Exec.get_bind, Exec.get_bind, h1 t t0 ht]
  exact (h2 t).out t t0 ht

theorem Follows.setRoot (n : Node) : Follows (Exec.modify fun t => { t with rootNode := n } : TreeM E Unit) :=
  ⟨fun _ => rfl, fun _ => Nat.le_refl _, fun _ _ h => .inr ⟨rfl, rfl, h.map, h.reliable⟩⟩

/-- Storage calls. -/
theorem Follows.storage {f : SpStore E → Except E α × SpStore E}
    (h1 : ∀ s, (f s).2.sched = s.sched ∧ (f s).2.clock = s.clock + 1)
    (h2 : ∀ s fl, s.sched s.clock = some fl → (f s).1 = .error fl.err)
    (h3 : ∀ s s0 : SpStore E, s0.map = s.map → s0.Reliable → s.sched s.clock = none → (f s).1 = (f s0).1 ∧ (f s0).2.map = (f s).2.map) :
    Follows (onStorage f : TreeM E α) := by
  refine ⟨fun t => ?_, fun t => ?_, fun t t0 ht => ?_⟩
  · have := (h1 t.storage).1
    unfold onStorage
    split <;> rename_i he <;> rw [he] at this <;> exact this
  · have := (h1 t.storage).2
    unfold onStorage
    split <;> rename_i he <;> rw [he] at this <;> exact Nat.le_trans (Nat.le_succ _) (Nat.le_of_eq this.symm)
  · have hc := (h1 t.storage).2
    cases hs : t.storage.sched t.storage.clock with
    | some fl =>
      have := h2 _ _ hs
      left; right
      refine ⟨.storageError fl.err, ?_, t.storage.clock, fl, Nat.le_refl _, ?_, hs, .inl rfl⟩
      · unfold onStorage; split <;> rename_i he <;> rw [he] at this <;> cases this; rfl
      · unfold onStorage; split <;> rename_i he <;> rw [he] at hc <;> simp only at hc ⊢ <;> omega
    | none =>
      obtain ⟨a, b⟩ := h3 t.storage t0.storage ht.map ht.reliable hs
      have hr := (h1 t0.storage).1
      right
      unfold onStorage
      rcases hf : f t.storage with ⟨r, s⟩
      rcases hf0 : f t0.storage with ⟨r0, s0⟩
      rw [hf, hf0] at a b
      rw [hf0] at hr
      simp only at a b hr
      subst a
      have hrel : s0.Reliable := fun n => by rw [hr]; exact ht.reliable n
      cases r with
      | ok x => exact ⟨rfl, ht.root, b, hrel⟩
      | error x => exact ⟨rfl, ht.root, b, hrel⟩

theorem get_shape (k : Bytes32) (s : SpStore E) : (Store.get k s).2.sched = s.sched ∧ (Store.get k s).2.clock = s.clock + 1 := by
  cases hs : s.sched s.clock with
  | none => rw [Store.get_none _ hs]; exact ⟨rfl, rfl⟩
  | some f => rw [Store.get_fault _ hs]; exact ⟨rfl, rfl⟩

theorem Follows.storeGet (k : Bytes32) : Follows (onStorage (Store.get k) : TreeM E _) :=
  .storage (get_shape k) (fun s f hs => by rw [Store.get_fault _ hs])
    (fun s s0 hm hr hs => by rw [Store.get_none _ hs, Store.get_none _ (hr _), hm]; exact ⟨rfl, rfl⟩)

theorem Follows.storeInsert (k : Bytes32) (q : Prim) : Follows (onStorage (Store.insert k q) : TreeM E _) :=
  .storage (fun s => by
      cases hs : s.sched s.clock with
      | none => rw [Store.insert_none _ _ hs]; exact ⟨rfl, rfl⟩
      | some f => rw [Store.insert_fault _ _ hs]; exact ⟨rfl, rfl⟩)
    (fun s f hs => by rw [Store.insert_fault _ _ hs])
    (fun s s0 hm hr hs => by rw [Store.insert_none _ _ hs, Store.insert_none _ _ (hr _), hm]; exact ⟨rfl, rfl⟩)

theorem Follows.storeRemove (k : Bytes32) : Follows (onStorage (Store.remove k) : TreeM E _) :=
  .storage (fun s => by
      cases hs : s.sched s.clock with
      | none => rw [Store.remove_none _ hs]; exact ⟨rfl, rfl⟩
      | some f => rw [Store.remove_fault _ hs]; exact ⟨rfl, rfl⟩)
    (fun s f hs => by rw [Store.remove_fault _ hs])
    (fun s s0 hm hr hs => by rw [Store.remove_none _ hs, Store.remove_none _ (hr _), hm]; exact ⟨rfl, rfl⟩)

/-! ### Reading the path -/

/-- A child that was not read because the storage failed. -/
def Lost (sched : Nat → Option (Fault E)) (a b : Nat) (r : Except (CErr E) Node) : Prop :=
  ∃ n f, a ≤ n ∧ n < b ∧ sched n = some f ∧ r = .error (.error (.storageError f.err))

/-- Like `Follows`, but a failure of the storage is in the value. -/
structure Reads (m : TreeM E (Except (CErr E) Node)) : Prop where
  sched : ∀ t, (m t).2.storage.sched = t.storage.sched
  clock : ∀ t, t.storage.clock ≤ (m t).2.storage.clock
  out : ∀ t t0, Twin t t0 → Bad t (m t) ∨
    ((∃ r r0, (m t).1 = .ok r ∧ (m t0).1 = .ok r0 ∧ Lost t.storage.sched t.storage.clock (m t).2.storage.clock r) ∨
      (m t).1 = (m t0).1) ∧ Twin (m t).2 (m t0).2

theorem Follows.reads {m : TreeM E (Except (CErr E) Node)} (h : Follows m) : Reads m :=
  ⟨h.sched, h.clock, fun t t0 ht => (h.out t t0 ht).imp id fun h => ⟨.inr h.1, h.2⟩⟩

/-- What becomes of a read record. -/
def childVal (k : Bytes32) : Except E (Option Prim) → Except (CErr E) Node
  | .error e => .error (.error (.storageError e))
  | .ok none => .error (.childNotFound k)
  | .ok (some q) => match Node.ofPrim q with
    | .ok n => .ok n
    | .error e => .error (.error (.deserializeError e))

theorem childByKey_eq {k : Bytes32} (hk : k ≠ zeroSum) (t : Tree E) :
    childByKey k t = (.ok (childVal k (Store.get k t.storage).1), { t with storage := (Store.get k t.storage).2 }) := by
  unfold childByKey
  rw [if_neg hk]
  have hb : (tryStorage (Store.get k) : TreeM E _) t = (.ok (Store.get k t.storage).1, { t with storage := (Store.get k t.storage).2 }) := rfl
  rw [Exec.bind_ok hb]
  match (Store.get k t.storage).1 with
  | .error e => rfl
  | .ok none => rfl
  | .ok (some q) =>
    unfold childVal
    simp only
    cases Node.ofPrim q <;> rfl

theorem Reads.child (k : Bytes32) : Reads (childByKey k : TreeM E _) := by
  by_cases hk : k = zeroSum
  · unfold childByKey
    rw [if_pos hk]
    exact (Follows.pure _).reads
  · have hg := get_shape (E := E) k
    refine ⟨fun t => ?_, fun t => ?_, fun t t0 ht => .inr ?_⟩
    · rw [childByKey_eq hk]; exact (hg _).1
    · rw [childByKey_eq hk]; simp only [(hg _).2]; omega
    · rw [childByKey_eq hk, childByKey_eq hk]
      have hrel : (Store.get k t0.storage).2.Reliable := fun n => by rw [(hg _).1]; exact ht.reliable n
      cases hs : t.storage.sched t.storage.clock with
      | some f =>
        refine ⟨.inl ⟨_, _, rfl, rfl, t.storage.clock, f, Nat.le_refl _, ?_, hs, ?_⟩, ht.root, ?_, hrel⟩
        · simp only [(hg _).2]; omega
        · rw [Store.get_fault _ hs]; rfl
        · simp only
          rw [Store.get_fault _ hs, Store.get_none _ (ht.reliable _)]; exact ht.map
      | none =>
        refine ⟨.inr ?_, ht.root, ?_, hrel⟩
        · rw [Store.get_none _ hs, Store.get_none _ (ht.reliable _), ht.map]
        · simp only
          rw [Store.get_none _ hs, Store.get_none _ (ht.reliable _)]; exact ht.map

theorem Reads.after_lift {r : Res α} {f : α → TreeM E (Except (CErr E) Node)} (hf : ∀ a, Reads (f a)) : Reads (Exec.liftRes r >>= f) := by
  cases r with
  | ok a => exact hf a
  | error q => exact (Follows.throw _).reads

theorem Reads.left (n : Node) : Reads (leftChild n : TreeM E _) := by
  unfold leftChild
  split
  · exact (Follows.pure _).reads
  · exact .after_lift fun _ => .child _

theorem Reads.right (n : Node) : Reads (rightChild n : TreeM E _) := by
  unfold rightChild
  split
  · exact (Follows.pure _).reads
  · exact .after_lift fun _ => .child _

/-- The iterator is about to report a failure of the storage. -/
def Doomed (sched : Nat → Option (Fault E)) (a b : Nat) (it : PathIter Node (CErr E)) : Prop :=
  ∃ x y, it.current = some (x, y) ∧ (Lost sched a b x ∨ (∃ n, x = .ok n) ∧ Lost sched a b y)

/-- Iterators that go on alike: they are the same, or both are about to report the same error. -/
def ItEq (it it0 : PathIter Node (CErr E)) : Prop :=
  it = it0 ∨ ∃ e y y0, it.current = some (.error e, y) ∧ it0.current = some (.error e, y0)

/-- The results of a step of the iterator, on failing and on working storage. -/
def StepRel (sched : Nat → Option (Fault E)) (a b : Nat)
    (r r0 : Except (Fail (Error E)) (Option (Except (CErr E) Node × Except (CErr E) Node) × PathIter Node (CErr E))) : Prop :=
  (∃ e, r = .error e ∧ r0 = .error e) ∨
    ∃ v it it0, r = .ok (v, it) ∧ r0 = .ok (v, it0) ∧ (Doomed sched a b it ∨ ItEq it it0)

theorem StepRel.refl (sched : Nat → Option (Fault E)) (a b : Nat)
    (r : Except (Fail (Error E)) (Option (Except (CErr E) Node × Except (CErr E) Node) × PathIter Node (CErr E))) : StepRel sched a b r r := by
  cases r with
  | error e => exact .inl ⟨e, rfl, rfl⟩
  | ok x => exact .inr ⟨x.1, x.2, x.2, rfl, rfl, .inr (.inl rfl)⟩

/-- A step of the iterator. -/
structure Steps (m : TreeM E (Option (Except (CErr E) Node × Except (CErr E) Node) × PathIter Node (CErr E))) : Prop where
  sched : ∀ t, (m t).2.storage.sched = t.storage.sched
  clock : ∀ t, t.storage.clock ≤ (m t).2.storage.clock
  out : ∀ t t0, Twin t t0 → Bad t (m t) ∨
    (StepRel t.storage.sched t.storage.clock (m t).2.storage.clock (m t).1 (m t0).1 ∧ Twin (m t).2 (m t0).2)

theorem Follows.steps {m : TreeM E (Option (Except (CErr E) Node × Except (CErr E) Node) × PathIter Node (CErr E))} (h : Follows m) : Steps m :=
  ⟨h.sched, h.clock, fun t t0 ht => by
    rcases h.out t t0 ht with h | ⟨h, hs⟩
    · exact .inl h
    · rw [← h]; exact .inr ⟨StepRel.refl _ _ _ _, hs⟩⟩

theorem Lost.mono {sched : Nat → Option (Fault E)} {a b a' b' : Nat} {e : Except (CErr E) Node} (h : Lost sched a b e) (ha : a' ≤ a) (hb : b ≤ b') :
    Lost sched a' b' e := by
  obtain ⟨n, f, h1, h2, h3⟩ := h
  exact ⟨n, f, by omega, by omega, h3⟩

theorem bad_bind {t : Tree E} {m : TreeM E α} {f : α → TreeM E β} (h : Bad t (m t)) : Bad t ((m >>= f) t) := by
  rcases h with ⟨q, hq⟩ | ⟨e, he, hr⟩
  · left
    refine ⟨q, ?_⟩
    rw [Exec.bind_error (e := .panic q) (s' := (m t).2) (by rw [← hq])]
  · right
    refine ⟨e, ?_⟩
    rw [Exec.bind_error (e := .err e) (s' := (m t).2) (by rw [← he])]
    exact ⟨rfl, hr⟩

theorem Bad.later {t s : Tree E} {r : Except (Fail (Error E)) α × Tree E} (h : Bad s r) (h1 : s.storage.sched = t.storage.sched)
    (h2 : t.storage.clock ≤ s.storage.clock) : Bad t r := by
  rcases h with h | ⟨e, he, hr⟩
  · exact .inl h
  · rw [h1] at hr
    exact .inr ⟨e, he, hr.mono h2 (Nat.le_refl _)⟩

/-- The two children of a node, the one on the path first. -/
theorem Steps.children {a b : TreeM E (Except (CErr E) Node)} (ha : Reads a) (hb : Reads b)
    (v : Option (Except (CErr E) Node × Except (CErr E) Node)) (leaf : Node) (off : Nat) :
    Steps (do let x ← a; let y ← b; Pure.pure (v, (⟨leaf, some (x, y), off⟩ : PathIter Node (CErr E)))) := by
  have hab : ∀ t : Tree E, (do let x ← a; let y ← b; Pure.pure (v, (⟨leaf, some (x, y), off⟩ : PathIter Node (CErr E))) : TreeM E _) t =
      match a t with
      | (.ok x, s) => match b s with
        | (.ok y, s') => (.ok (v, ⟨leaf, some (x, y), off⟩), s')
        | (.error e, s') => (.error e, s')
      | (.error e, s) => (.error e, s) := by
    intro t
    rw [Exec.bind_apply]
    rcases a t with ⟨_ | x, s⟩
    · rfl
    · simp only
      rw [Exec.bind_apply]
      rcases b s with ⟨_ | y, s'⟩ <;> rfl
  refine ⟨fun t => ?_, fun t => ?_, fun t t0 ht => ?_⟩
  · have h1 := ha.sched t
    rw [hab]
    rcases e1 : a t with ⟨_ | x, s⟩ <;> rw [e1] at h1
    · exact h1
    · have h2 := hb.sched s
      simp only at h1 ⊢
      rcases e2 : b s with ⟨_ | y, s'⟩ <;> rw [e2] at h2 <;> exact h2.trans h1
  · have h1 := ha.clock t
    rw [hab]
    rcases e1 : a t with ⟨_ | x, s⟩ <;> rw [e1] at h1
    · exact h1
    · have h2 := hb.clock s
      simp only at h1 ⊢
      rcases e2 : b s with ⟨_ | y, s'⟩ <;> rw [e2] at h2 <;> exact Nat.le_trans h1 h2
  · rcases ha.out t t0 ht with h | ⟨h, hs⟩
    · exact .inl (bad_bind h)
    · have h1 := ha.sched t
      have h2 := ha.clock t
      have hbo := hb.out (a t).2 (a t0).2 hs
      have h4 := hb.clock (a t).2
      have hE := hab t
      have hE0 := hab t0
      rcases e1 : a t with ⟨x, s⟩
      rcases e2 : a t0 with ⟨x0, s0⟩
      rw [e1] at h h1 h2 h4 hbo hs hE
      rw [e2] at h hbo hs hE0
      simp only at h h1 h2 h4 hbo hs
      cases x with
      | error e =>
        rcases h with ⟨r, _, hr, _⟩ | h
        · cases hr
        · subst h
          simp only at hE hE0
          rw [hE, hE0]
          exact .inr ⟨StepRel.refl _ _ _ _, hs⟩
      | ok x =>
        simp only at hE
        have hx0 : ∃ x', x0 = .ok x' ∧ (Lost t.storage.sched t.storage.clock s.storage.clock x ∨ x' = x) := by
          rcases h with ⟨r, r0, hr, hr0, hl⟩ | h
          · cases hr; exact ⟨r0, hr0, .inl hl⟩
          · exact ⟨x, h.symm, .inr rfl⟩
        obtain ⟨x0, rfl, hx⟩ := hx0
        simp only at hE0
        rw [hE, hE0]
        rcases e3 : b s with ⟨y, s'⟩
        rcases e4 : b s0 with ⟨y0, s0'⟩
        rw [e3] at hbo h4
        rw [e4] at hbo
        simp only at hbo h4
        rcases hbo with hbad | ⟨hy, hs'⟩
        · left
          rcases hbad with ⟨q, hq⟩ | ⟨e, he, hr⟩
          · simp only at hq; subst hq; exact .inl ⟨q, rfl⟩
          · simp only at he; subst he
            refine .inr ⟨e, rfl, ?_⟩
            rw [h1] at hr
            exact hr.mono h2 (Nat.le_refl _)
        · rw [h1] at hy
          cases y with
          | error e =>
            rcases hy with ⟨r, _, hr, _⟩ | hy
            · cases hr
            · subst hy
              exact .inr ⟨StepRel.refl _ _ _ _, hs'⟩
          | ok y =>
            have hy0 : ∃ y', y0 = .ok y' ∧ (Lost t.storage.sched s.storage.clock s'.storage.clock y ∨ y' = y) := by
              rcases hy with ⟨r, r0, hr, hr0, hl⟩ | hy
              · cases hr; exact ⟨r0, hr0, .inl hl⟩
              · exact ⟨y, hy.symm, .inr rfl⟩
            obtain ⟨y0, rfl, hyl⟩ := hy0
            refine .inr ⟨.inr ⟨v, _, _, rfl, rfl, ?_⟩, hs'⟩
            rcases hx with hx | rfl
            · exact .inl ⟨x, y, rfl, .inl (hx.mono (Nat.le_refl _) h4)⟩
            · rcases hyl with hy | hy
              · cases x0 with
                | ok n => exact .inl ⟨.ok n, y, rfl, .inr ⟨⟨n, rfl⟩, hy.mono h2 (Nat.le_refl _)⟩⟩
                | error e => exact .inr (.inr ⟨e, y, y0, rfl, rfl⟩)
              · exact .inr (.inl (by rw [hy]))

theorem Steps.after_lift {r : Res α}
    {f : α → TreeM E (Option (Except (CErr E) Node × Except (CErr E) Node) × PathIter Node (CErr E))} (hf : ∀ a, Steps (f a)) :
    Steps (Exec.liftRes r >>= f) := by
  cases r with
  | ok a => exact hf a
  | error q => exact (Follows.throw _).steps

theorem Steps.next (it : PathIter Node (CErr E)) : Steps (it.next storageNode : TreeM E _) := by
  unfold PathIter.next
  split
  · split
    · show Steps ((Exec.liftRes it.leaf.leafKey >>= fun k => Pure.pure k.val) >>= _)
      rw [Exec.bind_assoc]
      refine .after_lift fun k => ?_
      rw [Exec.pure_bind]
      split
      · exact .children (.left _) (.right _) _ _ _
      · exact .children (.right _) (.left _) _ _ _
      · exact (Follows.pure _).steps
    · exact (Follows.pure _).steps
  · exact (Follows.pure _).steps
  · exact (Follows.pure _).steps

/-- The computation fails only by panics. -/
def NoErr (m : TreeM E α) : Prop := ∀ t e, (m t).1 ≠ .error (.err e)

theorem NoErr.pure (a : α) : NoErr (pure a : TreeM E α) := fun _ _ h => by cases h
theorem NoErr.bind {m : TreeM E α} {f : α → TreeM E β} (h : NoErr m) (hf : ∀ a, NoErr (f a)) : NoErr (m >>= f) := by
  intro t e
  have := h t
  rw [Exec.bind_apply]
  rcases hm : m t with ⟨r, s⟩
  rw [hm] at this
  cases r with
  | ok a => exact hf a s e
  | error e' => intro h; simp only at h; cases h; exact this e rfl
theorem NoErr.lift (r : Res α) : NoErr (Exec.liftRes r : TreeM E α) := by
  cases r <;> intro t e h <;> cases h

theorem NoErr.child (k : Bytes32) : NoErr (childByKey k : TreeM E _) := by
  by_cases hk : k = zeroSum
  · unfold childByKey
    rw [if_pos hk]
    exact .pure _
  · intro t e
    rw [childByKey_eq hk]
    simp

theorem NoErr.left (n : Node) : NoErr (leftChild n : TreeM E _) := by
  unfold leftChild
  split
  · exact .pure _
  · exact .bind (.lift _) fun _ => .child _

theorem NoErr.right (n : Node) : NoErr (rightChild n : TreeM E _) := by
  unfold rightChild
  split
  · exact .pure _
  · exact .bind (.lift _) fun _ => .child _

theorem NoErr.next (it : PathIter Node (CErr E)) : NoErr (it.next storageNode : TreeM E _) := by
  unfold PathIter.next
  split
  · split
    · refine .bind (.bind (.lift _) fun _ => .pure _) fun k => ?_
      split
      · exact .bind (.left _) fun _ => .bind (.right _) fun _ => .pure _
      · exact .bind (.right _) fun _ => .bind (.left _) fun _ => .pure _
      · exact .pure _
    · exact .pure _
  · exact .pure _
  · exact .pure _

/-- A doomed iterator reports a failure of the storage. -/
theorem Doomed.collect {sched : Nat → Option (Fault E)} {a b : Nat} {it : PathIter Node (CErr E)} (h : Doomed sched a b it) (fuel : Nat)
    (t : Tree E) (ht : b ≤ t.storage.clock) : (∃ q, (collectPath fuel it t).1 = .error (.panic q)) ∨
      ∃ e, (collectPath fuel it t).1 = .error (.err e) ∧ Reported sched a (collectPath fuel it t).2.storage.clock e := by
  cases fuel with
  | zero => exact .inl ⟨.diverges, rfl⟩
  | succ n =>
    have h1 := NoErr.next it t
    have h2 := (Bounded.next it (n := 2) (by omega)).post t
    have h3 := (Steps.next it).clock t
    rw [collectPath, Exec.bind_apply]
    rcases hn : it.next storageNode t with ⟨r, s⟩
    rw [hn] at h1 h2 h3
    cases r with
    | error e =>
      cases e with
      | err e => exact absurd rfl (h1 e)
      | panic q => exact .inl ⟨q, rfl⟩
    | ok x =>
      obtain ⟨v, it'⟩ := x
      have hv := (h2 _ rfl).1
      simp only at hv h3
      obtain ⟨x, y, hc, hl⟩ := h
      rw [hc] at hv
      subst hv
      right
      rcases hl with ⟨n, f, a1, a2, a3, rfl⟩ | ⟨⟨m, rfl⟩, n, f, a1, a2, a3, rfl⟩
      · exact ⟨_, rfl, n, f, a1, Nat.lt_of_lt_of_le a2 (Nat.le_trans ht h3), a3, .inr rfl⟩
      · exact ⟨_, rfl, n, f, a1, Nat.lt_of_lt_of_le a2 (Nat.le_trans ht h3), a3, .inr rfl⟩

/-- An iterator about to report an error. -/
theorem collect_error {it : PathIter Node (CErr E)} {e : CErr E} {y : Except (CErr E) Node} (h : it.current = some (.error e, y)) (n : Nat)
    (t : Tree E) : collectPath (n + 1) it t = (.error (.err (.childError e)), t) := by
  have : it.next storageNode t = (.ok (some (.error e, y), { it with current := none }), t) := by
    unfold PathIter.next
    rw [h]
    rfl
  rw [collectPath, Exec.bind_apply, this]
  rfl

theorem collect_sched (fuel : Nat) : ∀ (it : PathIter Node (CErr E)) (t : Tree E),
    (collectPath fuel it t).2.storage.sched = t.storage.sched ∧ t.storage.clock ≤ (collectPath fuel it t).2.storage.clock := by
  induction fuel with
  | zero => intro it t; exact ⟨rfl, Nat.le_refl _⟩
  | succ n ih =>
    intro it t
    have h1 := (Steps.next it).sched t
    have h2 := (Steps.next it).clock t
    rw [collectPath, Exec.bind_apply]
    rcases hn : it.next storageNode t with ⟨r, s⟩
    rw [hn] at h1 h2
    cases r with
    | error e => exact ⟨h1, h2⟩
    | ok x =>
      obtain ⟨v, it'⟩ := x
      simp only at h1 h2 ⊢
      have h3 := ih it' s
      split
      · exact ⟨h1, h2⟩
      · exact ⟨h1, h2⟩
      · exact ⟨h1, h2⟩
      · rw [Exec.bind_apply]
        rcases hc : collectPath n it' s with ⟨r, s'⟩
        rw [hc] at h3
        cases r with
        | error e => exact ⟨h3.1.trans h1, Nat.le_trans h2 h3.2⟩
        | ok x => exact ⟨h3.1.trans h1, Nat.le_trans h2 h3.2⟩

theorem collect_out (fuel : Nat) : ∀ (it it0 : PathIter Node (CErr E)), ItEq it it0 → ∀ t t0 : Tree E, Twin t t0 →
    Bad t (collectPath fuel it t) ∨
      ((collectPath fuel it t).1 = (collectPath fuel it0 t0).1 ∧ Twin (collectPath fuel it t).2 (collectPath fuel it0 t0).2) := by
  induction fuel with
  | zero => intro it it0 _ t t0 ht; exact .inr ⟨rfl, ht⟩
  | succ n ih =>
    intro it it0 hit t t0 ht
    rcases hit with rfl | ⟨e, y, y0, h, h0⟩
    · have h1 := (Steps.next it).out t t0 ht
      have h2 := (Steps.next it).sched t
      have h3 := (Steps.next it).clock t
      rw [collectPath, Exec.bind_apply, Exec.bind_apply]
      rcases hn : it.next storageNode t with ⟨r, s⟩
      rcases hn0 : it.next storageNode t0 with ⟨r0, s0⟩
      rw [hn] at h1 h2 h3
      rw [hn0] at h1
      simp only at h1 h2 h3
      rcases h1 with hb | ⟨hr, hs⟩
      · left
        rcases hb with ⟨q, hq⟩ | ⟨e, he, hr⟩
        · simp only at hq; subst hq; exact .inl ⟨q, rfl⟩
        · simp only at he; subst he; exact .inr ⟨e, rfl, hr⟩
      · rcases hr with ⟨e, rfl, rfl⟩ | ⟨v, it', it0', rfl, rfl, hd⟩
        · exact .inr ⟨rfl, hs⟩
        · simp only
          split
          · exact .inr ⟨rfl, hs⟩
          · exact .inr ⟨rfl, hs⟩
          · exact .inr ⟨rfl, hs⟩
          · rcases hd with hd | hd
            · left
              rw [Exec.bind_apply]
              have := hd.collect n s (Nat.le_refl _)
              rcases hc : collectPath n it' s with ⟨r, s'⟩
              rw [hc] at this
              rcases this with ⟨q, hq⟩ | ⟨e, he, hr⟩
              · simp only at hq; subst hq; exact .inl ⟨q, rfl⟩
              · simp only at he; subst he; exact .inr ⟨e, rfl, hr⟩
            · have := ih it' it0' hd s s0 hs
              rw [Exec.bind_apply, Exec.bind_apply]
              rcases hc : collectPath n it' s with ⟨r, s'⟩
              rcases hc0 : collectPath n it0' s0 with ⟨r0, s0'⟩
              rw [hc, hc0] at this
              rcases this with hb | ⟨hr, hs'⟩
              · left
                rcases hb with ⟨q, hq⟩ | ⟨e, he, hr⟩
                · simp only at hq; subst hq; exact .inl ⟨q, rfl⟩
                · simp only at he; subst he
                  refine .inr ⟨e, rfl, ?_⟩
                  rw [h2] at hr
                  exact hr.mono h3 (Nat.le_refl _)
              · simp only at hr; subst hr
                cases r with
                | error e => exact .inr ⟨rfl, hs'⟩
                | ok x => exact .inr ⟨rfl, hs'⟩
    · rw [collect_error h, collect_error h0]
      exact .inr ⟨rfl, ht⟩

theorem Follows.collect (fuel : Nat) (it : PathIter Node (CErr E)) : Follows (collectPath fuel it : TreeM E _) :=
  ⟨fun t => (collect_sched fuel it t).1, fun t => (collect_sched fuel it t).2, collect_out fuel it it (.inl rfl)⟩

theorem Follows.path (p : Profile) (leaf : Node) : Follows (pathSet p leaf : TreeM E _) := by
  unfold pathSet
  refine .get (fun t t' h => by rw [h.root]) fun t => ?_
  refine .bind ?_ fun it => .bind (.collect _ it) fun _ => .pure _
  unfold PathIter.new
  exact .bind (.lift _) fun _ => .pure _

theorem Follows.merge (p : Profile) (path : Bytes) (a b : Node) : Follows (mergeNode p H path a b : TreeM E _) :=
  .bind (.lift _) fun _ => .bind (.storeInsert _ _) fun _ => .pure _

theorem Follows.merges (p : Profile) (path : Bytes) : ∀ (xs : List Node) (a : Node), Follows (mergeNodes p H path a xs : TreeM E _) := by
  intro xs
  induction xs with
  | nil => intro a; exact .pure _
  | cons x xs ih => intro a; exact .bind (.merge p path a x) fun _ => ih _

theorem Follows.setRootNode (p : Profile) (n : Node) : Follows (setRootNode p n : TreeM E _) := .bind (.lift _) fun _ => .setRoot n

theorem Follows.updatePath (p : Profile) (r : Node) (ps ss : List Node) : Follows (updateWithPathSet p H r ps ss : TreeM E _) := by
  unfold updateWithPathSet
  refine .bind (.lift _) fun path => ?_
  split
  · exact .throw _
  · refine .bind (.lift _) fun rk => .bind (.lift _) fun ak => .bind ?_ fun c => .bind (.merges p _ _ _) fun c => .setRootNode p c
    split
    · refine .bind ?_ fun c => .bind (.lift _) fun d => .merges p _ _ _
      split
      · exact .pure _
      · exact .merge p _ _ _
    · exact .pure _

theorem Follows.removes : ∀ (xs : List Node), Follows (removeAll H xs : TreeM E _) := by
  intro xs
  induction xs with
  | nil => exact .pure _
  | cons x xs ih => exact .bind (.storeRemove _) fun _ => ih

theorem Follows.deletePath (p : Profile) (r : Node) (ps ss : List Node) : Follows (deleteWithPathSet p H r ps ss : TreeM E _) := by
  unfold deleteWithPathSet
  refine .bind (.removes ps) fun _ => .bind (.lift _) fun path => .bind ?_ fun x => ?_
  · split
    · exact .pure _
    · split
      · split
        · exact .bind (.merge p _ _ _) fun _ => .pure _
        · exact .pure _
      · exact .pure _
  · split
    exact .bind (.merges p _ _ _) fun c => .setRootNode p c

theorem Follows.delete (p : Profile) (k : Bytes32) : Follows (delete p H k : TreeM E _) := by
  unfold Sparse.delete
  refine .get (fun t t' h => by unfold Tree.root; rw [h.root]) fun t => ?_
  split
  · exact .pure _
  · refine .bind (.storeGet k) fun r => ?_
    split
    · exact .pure _
    · split
      · exact .throw _
      · exact .bind (.path p _) fun x => .deletePath p _ _ _

theorem Follows.update (p : Profile) (k : Bytes32) (d : Bytes) : Follows (update p H k d : TreeM E _) := by
  unfold Sparse.update
  split
  · exact .delete p k
  · refine .bind (.storeInsert _ _) fun _ => .bind (.lift _) fun _ => .bind (.storeInsert _ _) fun _ => ?_
    refine .get (fun t t' h => by rw [h.root]) fun t => ?_
    split
    · exact .setRootNode p _
    · exact .bind (.path p _) fun x => .updatePath p _ _ _

theorem Follows.op (p : Profile) (op : Op) : Follows (op.run p H : TreeM E _) := by
  cases op with
  | update k d => exact .update p k d
  | delete k => exact .delete p k

end Sparse
end FuelMerkle
