import Verif.Proofs.SparseRecover
import Verif.Spec.SparseStorage

/-
What the calls of the sparse tree do on any storage whatsoever: for any hash function, any
records, and any failures.
-/
namespace FuelMerkle
namespace Sparse
open Spec
variable {E : Type} {α β : Type} {H : HashFn}

/-! ### Properties of the storage kept by all calls -/

/-- The record is a node filed under its hash or a leaf filed under its key. -/
def OkRec (H : HashFn) (x : Bytes32) (q : Prim) : Prop :=
  ∃ n : Node, q = n.toPrim ∧ (x = n.hash H ∨ (n.pfx = .leaf ∧ x = n.bytesLo))

/-- The property of storages survives reads and the writes the tree makes. -/
structure Kept (H : HashFn) (I : SpStore E → Prop) : Prop where
  get : ∀ s k, I s → I (Store.get k s).2
  insert : ∀ s k q, OkRec H k q → I s → I (Store.insert k q s).2

/-- It also survives removals. -/
structure KeptAll (H : HashFn) (I : SpStore E → Prop) : Prop extends Kept H I where
  remove : ∀ s k, I s → I (Store.remove k s).2

/-- The computation keeps the property. -/
def Pres (I : SpStore E → Prop) (m : TreeM E α) : Prop := ∀ t, I t.storage → I (m t).2.storage

variable {I : SpStore E → Prop}

theorem Pres.pure (a : α) : Pres I (pure a : TreeM E α) := fun _ h => h
theorem Pres.throw (e : Fail (Error E)) : Pres I (Exec.throw e : TreeM E α) := fun _ h => h
theorem Pres.lift (r : Res α) : Pres I (Exec.liftRes r : TreeM E α) := by
  cases r <;> exact fun _ h => h

theorem Pres.bind {m : TreeM E α} {f : α → TreeM E β} (h : Pres I m) (hf : ∀ a, Pres I (f a)) : Pres I (m >>= f) := by
  intro t ht
  have h1 := h t ht
  rw [Exec.bind_apply]
  rcases hm : m t with ⟨r, s⟩
  rw [hm] at h1
  cases r with
  | ok a => exact hf a s h1
  | error e => exact h1

theorem Pres.get {f : Tree E → TreeM E α} (h : ∀ t, Pres I (f t)) : Pres I (Exec.get >>= f) := by
  intro t ht
  rw [Exec.get_bind]
  exact h t t ht

theorem Pres.storage {f : SpStore E → Except E α × SpStore E} (h : ∀ s, I s → I (f s).2) : Pres I (onStorage f : TreeM E α) := by
  intro t ht
  have := h _ ht
  unfold onStorage
  split <;> rename_i he <;> rw [he] at this <;> exact this

theorem Pres.try {f : SpStore E → Except E α × SpStore E} (h : ∀ s, I s → I (f s).2) : Pres I (tryStorage f : TreeM E _) :=
  fun _ ht => h _ ht

section
variable (K : Kept H I)
include K

theorem Pres.child (k : Bytes32) : Pres I (childByKey k : TreeM E _) := by
  unfold childByKey
  split
  · exact .pure _
  · refine .bind (.try fun s => K.get s k) fun r => ?_
    split
    · exact .pure _
    · exact .pure _
    · split <;> exact .pure _

theorem Pres.left (n : Node) : Pres I (leftChild n : TreeM E _) := by
  unfold leftChild
  split
  · exact .pure _
  · exact .bind (.lift _) fun _ => .child K _

theorem Pres.right (n : Node) : Pres I (rightChild n : TreeM E _) := by
  unfold rightChild
  split
  · exact .pure _
  · exact .bind (.lift _) fun _ => .child K _

theorem Pres.next (it : PathIter Node (CErr E)) : Pres I (it.next storageNode : TreeM E _) := by
  unfold PathIter.next
  split
  · split
    · refine .bind (.bind (.lift _) fun _ => .pure _) fun k => ?_
      split
      · exact .bind (.left K _) fun _ => .bind (.right K _) fun _ => .pure _
      · exact .bind (.right K _) fun _ => .bind (.left K _) fun _ => .pure _
      · exact .pure _
    · exact .pure _
  · exact .pure _
  · exact .pure _

theorem Pres.collect (fuel : Nat) : ∀ (it : PathIter Node (CErr E)), Pres I (collectPath fuel it : TreeM E _) := by
  induction fuel with
  | zero => intro it; exact .throw _
  | succ n ih =>
    intro it
    rw [collectPath]
    refine .bind (.next K it) fun x => ?_
    split
    split
    · exact .pure _
    · exact .throw _
    · exact .throw _
    · exact .bind (ih _) fun _ => .pure _

theorem Pres.path (p : Profile) (leaf : Node) : Pres I (pathSet p leaf : TreeM E _) := by
  unfold pathSet
  refine .get fun t => .bind ?_ fun it => .bind (.collect K _ it) fun _ => .pure _
  unfold PathIter.new
  exact .bind (.lift _) fun _ => .pure _

theorem Pres.merge (p : Profile) (path : Bytes) (a b : Node) : Pres I (mergeNode p H path a b : TreeM E _) :=
  .bind (.lift _) fun n => .bind (.storage fun s => K.insert s _ _ ⟨n, rfl, .inl rfl⟩) fun _ => .pure _

theorem Pres.merges (p : Profile) (path : Bytes) : ∀ (xs : List Node) (a : Node), Pres I (mergeNodes p H path a xs : TreeM E _) := by
  intro xs
  induction xs with
  | nil => intro a; exact .pure _
  | cons x xs ih => intro a; exact .bind (.merge K p path a x) fun _ => ih _

theorem Pres.setRootNode (p : Profile) (n : Node) : Pres I (setRootNode p n : TreeM E _) := .bind (.lift _) fun _ => fun _ h => h

theorem Pres.updatePath (p : Profile) (r : Node) (ps ss : List Node) : Pres I (updateWithPathSet p H r ps ss : TreeM E _) := by
  unfold updateWithPathSet
  refine .bind (.lift _) fun path => ?_
  split
  · exact .throw _
  · refine .bind (.lift _) fun rk => .bind (.lift _) fun ak => .bind ?_ fun c => .bind (.merges K p _ _ _) fun c => .setRootNode K p c
    split
    · refine .bind ?_ fun c => .bind (.lift _) fun d => .merges K p _ _ _
      split
      · exact .pure _
      · exact .merge K p _ _ _
    · exact .pure _

theorem Pres.lift_ok {a : α} {f : α → TreeM E β} (h : Pres I (f a)) : Pres I (Exec.liftRes (.ok a) >>= f) := h

/-- An update with data keeps every property that survives reads and writes. -/
theorem Pres.update (p : Profile) (k : Bytes32) {d : Bytes} (hd : d ≠ []) : Pres I (update p H k d : TreeM E _) := by
  unfold Sparse.update
  split
  · rename_i h; cases d <;> simp_all
  · refine .bind (.storage fun s => K.insert s _ _ ⟨_, rfl, .inl rfl⟩) fun _ => ?_
    rw [show (Node.createLeaf H k d).leafKey = .ok k from rfl]
    refine .lift_ok K (.bind (.storage fun s => K.insert s _ _ ⟨Node.createLeaf H k d, rfl, .inr ⟨rfl, rfl⟩⟩) fun _ => .get fun t => ?_)
    split
    · exact .setRootNode K p _
    · exact .bind (.path K p _) fun x => .updatePath K p _ _ _
end

section
variable (K : KeptAll H I)
include K

theorem Pres.removes : ∀ (xs : List Node), Pres I (removeAll H xs : TreeM E _) := by
  intro xs
  induction xs with
  | nil => exact .pure _
  | cons x xs ih => exact .bind (.storage fun s => K.remove s _) fun _ => ih

theorem Pres.deletePath (p : Profile) (r : Node) (ps ss : List Node) : Pres I (deleteWithPathSet p H r ps ss : TreeM E _) := by
  unfold deleteWithPathSet
  refine .bind (.removes K ps) fun _ => .bind (.lift _) fun path => .bind ?_ fun x => ?_
  · split
    · exact .pure _
    · split
      · split
        · exact .bind (.merge K.toKept p _ _ _) fun _ => .pure _
        · exact .pure _
      · exact .pure _
  · split
    exact .bind (.merges K.toKept p _ _ _) fun c => .setRootNode K.toKept p c

theorem Pres.delete (p : Profile) (k : Bytes32) : Pres I (delete p H k : TreeM E _) := by
  unfold Sparse.delete
  refine .get fun t => ?_
  split
  · exact .pure _
  · refine .bind (.storage fun s => K.get s k) fun r => ?_
    split
    · exact .pure _
    · split
      · exact .throw _
      · exact .bind (.path K.toKept p _) fun x => .deletePath K p _ _ _

theorem Pres.op (p : Profile) (op : Op) : Pres I (op.run p H : TreeM E _) := by
  cases op with
  | update k d =>
    by_cases hd : d = []
    · subst hd; exact .delete K p k
    · exact .update K.toKept p k hd
  | delete k => exact .delete K p k

theorem Pres.run (p : Profile) : ∀ (ops : List Op) (t : Tree E), I t.storage → I (run p H ops t).2.storage := by
  intro ops
  induction ops with
  | nil => intro t h; exact h
  | cons op ops ih => intro t h; exact ih _ (Pres.op K p op t h)
end

/-! ### The records -/

theorem OkRec.filed {x : Bytes32} {q : Prim} (h : OkRec H x q) : FiledUnder H x q := by
  obtain ⟨n, rfl, h⟩ := h
  obtain ⟨height, pfx, lo, hi⟩ := n
  rcases h with rfl | ⟨rfl, rfl⟩
  · have hb : pfx.toU8 = 0 ∨ pfx.toU8 = 1 := by cases pfx <;> simp [Prefix.toU8]
    unfold Node.hash Node.isPlaceholder
    split
    · rename_i h
      simp only [Bool.and_eq_true, decide_eq_true_eq] at h
      exact .inr (.inr ⟨hb, h.1, h.2, rfl⟩)
    · rename_i h
      simp only [Bool.and_eq_true, decide_eq_true_eq, not_and_or] at h
      exact .inr (.inl ⟨hb, h, by cases pfx <;> simp [sumAll, Node.toPrim, Prefix.toU8, Prefix.bytes]⟩)
  · exact .inl ⟨rfl, rfl⟩

theorem filed_kept : KeptAll H (Filed H : SpStore E → Prop) where
  get s k h := by
    cases hs : s.sched s.clock with
    | none => rw [Store.get_none _ hs]; exact h
    | some f => rw [Store.get_fault _ hs]; exact h
  insert s k q hq h := by
    have hnew : Filed H ({ s with clock := s.clock + 1, map := Store.upd s.map k (some q) } : SpStore E) := by
      intro x r hx
      simp only [Store.upd_apply] at hx
      split at hx
      · rename_i e; cases hx; subst e; exact hq.filed
      · exact h x r hx
    cases hs : s.sched s.clock with
    | none => rw [Store.insert_none _ _ hs]; exact hnew
    | some f =>
      rw [Store.insert_fault _ _ hs]
      cases f.applied
      · exact h
      · exact hnew
  remove s k h := by
    have hnew : Filed H ({ s with clock := s.clock + 1, map := Store.upd s.map k none } : SpStore E) := by
      intro x r hx
      simp only [Store.upd_apply] at hx
      split at hx
      · cases hx
      · exact h x r hx
    cases hs : s.sched s.clock with
    | none => rw [Store.remove_none _ hs]; exact hnew
    | some f =>
      rw [Store.remove_fault _ hs]
      cases f.applied
      · exact h
      · exact hnew

theorem record_kept (x : Bytes32) (r : Option Prim) :
    Kept H (fun s : SpStore E => s.map x = r ∨ ∃ q, s.map x = some q ∧ FiledUnder H x q) where
  get s k h := by
    cases hs : s.sched s.clock with
    | none => rw [Store.get_none _ hs]; exact h
    | some f => rw [Store.get_fault _ hs]; exact h
  insert s k q hq h := by
    have hnew : Store.upd s.map k (some q) x = r ∨ ∃ q', Store.upd s.map k (some q) x = some q' ∧ FiledUnder H x q' := by
      rw [Store.upd_apply]; split
      · rename_i e; subst e; exact .inr ⟨q, rfl, hq.filed⟩
      · exact h
    cases hs : s.sched s.clock with
    | none => rw [Store.insert_none _ _ hs]; exact hnew
    | some f =>
      rw [Store.insert_fault _ _ hs]
      cases f.applied
      · exact h
      · exact hnew

/-! ### Number of storage calls -/

/-- The computation makes at most `n` storage calls, its results satisfy `Q`, and its loops
end. -/
structure Bounded (n : Nat) (Q : α → Prop) (m : TreeM E α) : Prop where
  clock : ∀ t, (m t).2.storage.clock ≤ t.storage.clock + n
  post : ∀ t a, (m t).1 = .ok a → Q a
  ends : ∀ t, (m t).1 ≠ .error (.panic .diverges)

theorem Bounded.pure {Q : α → Prop} {a : α} (h : Q a) : Bounded 0 Q (pure a : TreeM E α) :=
  ⟨fun _ => Nat.le_refl _, fun _ b e => by cases e; exact h, fun _ e => by cases e⟩

theorem Bounded.mono {m : TreeM E α} {n n' : Nat} {Q Q' : α → Prop} (h : Bounded n Q m) (hn : n ≤ n') (hq : ∀ a, Q a → Q' a) :
    Bounded n' Q' m :=
  ⟨fun t => Nat.le_trans (h.clock t) (by omega), fun t a e => hq a (h.post t a e), h.ends⟩

theorem Bounded.throw {Q : α → Prop} {e : Fail (Error E)} (h : e ≠ .panic .diverges) : Bounded 0 Q (Exec.throw e : TreeM E α) :=
  ⟨fun _ => Nat.le_refl _, fun _ _ e => (by cases e), fun _ e' => (by cases e'; exact h rfl)⟩

theorem Bounded.lift {Q : α → Prop} {r : Res α} (h : ∀ a, r = .ok a → Q a) (hd : r ≠ .error .diverges) :
    Bounded 0 Q (Exec.liftRes r : TreeM E α) := by
  cases r with
  | ok a => exact ⟨fun _ => Nat.le_refl _, fun _ b e => by cases e; exact h _ rfl, fun _ e => by cases e⟩
  | error q => exact ⟨fun _ => Nat.le_refl _, fun _ _ e => (by cases e), fun _ e => (by cases e; exact hd rfl)⟩

theorem Bounded.bind {m : TreeM E α} {f : α → TreeM E β} {n n' : Nat} {Q : α → Prop} {Q' : β → Prop} (h : Bounded n Q m)
    (hf : ∀ a, Q a → Bounded n' Q' (f a)) : Bounded (n + n') Q' (m >>= f) := by
  refine ⟨fun t => ?_, fun t b => ?_, fun t => ?_⟩ <;>
    (have h1 := h.clock t
     have h2 := h.post t
     have h3 := h.ends t
     rw [Exec.bind_apply]
     rcases hm : m t with ⟨r, s⟩
     rw [hm] at h1 h2 h3
     cases r)
  · simp only at h1 ⊢; omega
  · rename_i a
    have := (hf a (h2 a rfl)).clock s
    simp only at h1 ⊢; omega
  · intro e; cases e
  · rename_i a; exact (hf a (h2 a rfl)).post s b
  · intro e; cases e; exact h3 rfl
  · rename_i a; exact (hf a (h2 a rfl)).ends s

theorem Bounded.get {f : Tree E → TreeM E α} {n : Nat} {Q : α → Prop} (h : ∀ t, Bounded n Q (f t)) : Bounded n Q (Exec.get >>= f) :=
  ⟨fun t => (h t).clock t, fun t => (h t).post t, fun t => (h t).ends t⟩

theorem Bounded.storage {f : SpStore E → Except E α × SpStore E} (h : ∀ s, (f s).2.clock = s.clock + 1) :
    Bounded 1 (fun _ => True) (onStorage f : TreeM E α) := by
  refine ⟨fun t => ?_, fun _ _ _ => trivial, fun t => ?_⟩
  · have := h t.storage
    unfold onStorage
    split <;> rename_i he <;> rw [he] at this <;> simp only at this ⊢ <;> omega
  · unfold onStorage
    split <;> simp

theorem Bounded.try {f : SpStore E → Except E α × SpStore E} (h : ∀ s, (f s).2.clock = s.clock + 1) :
    Bounded 1 (fun _ => True) (tryStorage f : TreeM E _) :=
  ⟨fun t => by unfold tryStorage; have := h t.storage; simp only; omega, fun _ _ _ => trivial, fun t => by simp [tryStorage]⟩

theorem get_clock (k : Bytes32) (s : SpStore E) : (Store.get k s).2.clock = s.clock + 1 := by
  cases hs : s.sched s.clock with
  | none => rw [Store.get_none _ hs]
  | some f => rw [Store.get_fault _ hs]
theorem insert_clock (k : Bytes32) (q : Prim) (s : SpStore E) : (Store.insert k q s).2.clock = s.clock + 1 := by
  cases hs : s.sched s.clock with
  | none => rw [Store.insert_none _ _ hs]
  | some f => rw [Store.insert_fault _ _ hs]
theorem remove_clock (k : Bytes32) (s : SpStore E) : (Store.remove k s).2.clock = s.clock + 1 := by
  cases hs : s.sched s.clock with
  | none => rw [Store.remove_none _ hs]
  | some f => rw [Store.remove_fault _ hs]

theorem Bounded.child (k : Bytes32) : Bounded 1 (fun _ => True) (childByKey k : TreeM E _) := by
  unfold childByKey
  split
  · exact (Bounded.pure trivial).mono (by omega) fun _ h => h
  · refine .bind (n' := 0) (.try (get_clock k)) fun r _ => ?_
    split
    · exact .pure trivial
    · exact .pure trivial
    · split <;> exact .pure trivial

theorem rassert_ends (b : Bool) : rassert b ≠ .error .diverges := by cases b <;> simp [rassert]

theorem assert_ends {b : Bool} {a : α} : (do rassert b; return a : Res α) ≠ .error .diverges := by
  cases b <;> simp [rassert]

theorem Bounded.left (n : Node) : Bounded 1 (fun _ => True) (leftChild n : TreeM E _) := by
  unfold leftChild
  split
  · exact (Bounded.pure trivial).mono (by omega) fun _ h => h
  · exact .bind (n := 0) (.lift (fun _ _ => trivial) assert_ends) fun _ _ => .child _

theorem Bounded.right (n : Node) : Bounded 1 (fun _ => True) (rightChild n : TreeM E _) := by
  unfold rightChild
  split
  · exact (Bounded.pure trivial).mono (by omega) fun _ h => h
  · exact .bind (n := 0) (.lift (fun _ _ => trivial) assert_ends) fun _ _ => .child _

theorem getInstruction_lt {k : Bytes32} {i : Nat} {x : Instruction} (h : getInstruction k.val i = some x) : i < 256 := by
  rcases Nat.lt_or_ge i 256 with h' | h'
  · exact h'
  · exfalso
    unfold getInstruction getBitAtIndexFromMsb at h
    have : k.val[i / 8]? = none := by rw [List.getElem?_eq_none_iff, k.2]; omega
    simp [this] at h

theorem Bounded.next (it : PathIter Node (CErr E)) {n : Nat} (hn : it.currentOffset < 256 → 2 ≤ n) :
    Bounded n
      (fun x => x.1 = it.current ∧ (x.2.current ≠ none → it.current = none ∨
        (it.currentOffset < 256 ∧ x.2.currentOffset = it.currentOffset + 1)))
      (it.next storageNode : TreeM E _) := by
  unfold PathIter.next
  split
  · rename_i hc
    split
    · have hk : Bounded 0 (fun k => ∃ b : Bytes32, k = b.val) (storageNode.leafKey it.leaf : TreeM E _) :=
        .bind (n := 0) (n' := 0) (.lift (Q := fun _ => True) (fun _ _ => trivial) assert_ends) fun k _ => .pure ⟨k, rfl⟩
      refine Bounded.mono (n := 0 + n) (.bind hk ?_) (by omega) fun _ h => h
      rintro _ ⟨k, rfl⟩
      split
      · rename_i hi
        have hlt := getInstruction_lt hi
        refine Bounded.mono (n := 2) ?_ (hn hlt) fun _ h => h
        exact .bind (n := 1) (n' := 1) (.left _) fun _ _ => .bind (n := 1) (n' := 0) (.right _) fun _ _ =>
          .pure ⟨rfl, fun _ => .inr ⟨hlt, rfl⟩⟩
      · rename_i hi
        have hlt := getInstruction_lt hi
        refine Bounded.mono (n := 2) ?_ (hn hlt) fun _ h => h
        exact .bind (n := 1) (n' := 1) (.right _) fun _ _ => .bind (n := 1) (n' := 0) (.left _) fun _ _ =>
          .pure ⟨rfl, fun _ => .inr ⟨hlt, rfl⟩⟩
      · refine Bounded.mono (n := 0) (.pure ⟨rfl, fun h => absurd rfl h⟩) (by omega) fun _ h => h
    · refine Bounded.mono (n := 0) (.pure ⟨rfl, fun h => absurd rfl h⟩) (by omega) fun _ h => h
  · rename_i hc
    refine Bounded.mono (n := 0) (.pure ⟨rfl, fun h => absurd rfl h⟩) (by omega) fun _ h => h
  · rename_i hc
    refine Bounded.mono (n := 0) (.pure ⟨rfl, fun _ => .inl hc⟩) (by omega) fun _ h => h

theorem iter_next_none {it : PathIter Node (CErr E)} (h : it.current = none) :
    (it.next storageNode : TreeM E _) = pure (none, it) := by
  unfold PathIter.next
  rw [h]

theorem Bounded.collect (fuel : Nat) : ∀ (it : PathIter Node (CErr E)),
    (it.current = none → 1 ≤ fuel → Bounded 0 (fun l => l.length = 0) (collectPath fuel it : TreeM E _)) ∧
    (256 - it.currentOffset + 2 ≤ fuel →
      Bounded (2 * (256 - it.currentOffset)) (fun l => l.length ≤ 256 - it.currentOffset + 1) (collectPath fuel it : TreeM E _)) := by
  induction fuel with
  | zero => intro it; exact ⟨fun _ h => absurd h (by omega), fun h => absurd h (by omega)⟩
  | succ n ih =>
    intro it
    have h1 : it.current = none → Bounded 0 (fun l => l.length = 0) (collectPath (n + 1) it : TreeM E _) := by
      intro hc
      rw [collectPath, iter_next_none hc]
      exact .bind (n := 0) (n' := 0) (.pure (Q := fun x => x.1 = none) rfl) fun x hx => by
        obtain ⟨v, it'⟩ := x
        simp only at hx
        subst hx
        exact .pure rfl
    refine ⟨fun hc _ => h1 hc, fun hf => ?_⟩
    by_cases hc : it.current = none
    · exact (h1 hc).mono (by omega) fun l hl => by omega
    · rw [collectPath]
      have hb := Bounded.next it (n := 2 * (256 - it.currentOffset) - 2 * (256 - (it.currentOffset + 1))) (by omega)
      refine Bounded.mono (.bind (n' := 2 * (256 - (it.currentOffset + 1))) hb fun x hx => ?_) (by omega) fun _ h => h
      obtain ⟨v, it'⟩ := x
      obtain ⟨hv, hx⟩ := hx
      simp only at hv hx
      have hrest : Bounded (2 * (256 - (it.currentOffset + 1))) (fun l => l.length ≤ 256 - it.currentOffset) (collectPath n it' : TreeM E _) := by
        by_cases hn : it'.current = none
        · exact ((ih it').1 hn (by omega)).mono (by omega) fun l hl => by omega
        · rcases hx hn with h | ⟨hlt, ho⟩
          · exact absurd h hc
          · have := (ih it').2 (by omega)
            rw [ho] at this
            exact this.mono (by omega) fun l hl => by omega
      have ht : ∀ e : Fail (Error E), e ≠ .panic .diverges → Bounded (2 * (256 - (it.currentOffset + 1)))
          (fun l => l.length ≤ 256 - it.currentOffset + 1) (Exec.throw e : TreeM E (List (Node × Node))) := fun e h =>
        Bounded.mono (n := 0) (Q := fun l => l.length ≤ 256 - it.currentOffset + 1) (.throw h) (by omega) fun _ h => h
      rcases v with _ | ⟨a, b⟩
      · exact Bounded.mono (n := 0) (Q := fun l => l.length ≤ 256 - it.currentOffset + 1) (.pure (Nat.zero_le _)) (by omega) fun _ h => h
      · rcases a with e | a
        · exact ht _ (by simp)
        · rcases b with e | b
          · exact ht _ (by simp)
          · exact .bind (n' := 0) hrest fun l hl => .pure (by simp only [List.length_cons]; omega)

theorem usizeSub_ends (p : Profile) (a b : Nat) : usizeSub p a b ≠ .error .diverges := by
  unfold usizeSub; split
  · simp
  · split <;> simp
theorem u32Add_ends (p : Profile) (a b : Nat) : u32Add p a b ≠ .error .diverges := by
  unfold u32Add; split
  · simp
  · split <;> simp

/-- A path has at most 257 nodes and 256 side nodes, and reading it takes at most 512 reads. -/
theorem Bounded.path (p : Profile) (leaf : Node) :
    Bounded 512 (fun x => x.1.length ≤ 257 ∧ x.2.length ≤ 256) (pathSet p leaf : TreeM E _) := by
  unfold pathSet
  refine .get fun t => ?_
  refine Bounded.mono (.bind (n := 0) (n' := 512) (Q := fun _ => True) ?_ fun it _ => ?_) (by omega) fun _ h => h
  · unfold PathIter.new
    exact .bind (n := 0) (n' := 0) (.lift (Q := fun _ => True) (fun _ _ => trivial) (usizeSub_ends _ _ _)) fun _ _ => .pure trivial
  · refine Bounded.mono (.bind (n' := 0) ((Bounded.collect _ it).2 ?_) fun l hl => .pure ?_) (by omega) fun _ h => h
    · show _ ≤ 32 * 8 + 2
      omega
    · simp only [List.length_reverse, List.length_map, List.length_dropLast]
      omega

theorem rdebugAssert_ends (p : Profile) (b : Bool) : rdebugAssert p b ≠ .error .diverges := by
  unfold rdebugAssert
  split
  · split <;> simp
  · simp

theorem bind_ends {r : Res α} {f : α → Res β} (h : r ≠ .error .diverges) (hf : ∀ a, f a ≠ .error .diverges) :
    (r >>= f) ≠ .error .diverges := by
  cases r with
  | ok a => exact hf a
  | error q => intro e; cases e; exact h rfl

theorem commonPath_ends (p : Profile) (a b : Node) : a.commonPathLength p b ≠ .error .diverges := by
  unfold Node.commonPathLength
  refine bind_ends (rdebugAssert_ends _ _) fun _ => bind_ends (rdebugAssert_ends _ _) fun _ => ?_
  split
  · simp
  · refine bind_ends assert_ends fun x => bind_ends assert_ends fun y => ?_
    unfold FuelMerkle.commonPathLength
    rw [commonPrefixCount_eq _ _ (by rw [x.2, y.2])]
    simp

theorem res_bind_ok {r : Res α} {f : α → Res β} {b : β} (h : (r >>= f) = .ok b) : ∃ a, r = .ok a ∧ f a = .ok b := by
  cases r with
  | ok a => exact ⟨a, rfl, h⟩
  | error q => cases h

theorem commonPath_le (p : Profile) (a b : Node) (n : Nat) (h : a.commonPathLength p b = .ok n) : n ≤ 256 := by
  unfold Node.commonPathLength at h
  obtain ⟨_, _, h⟩ := res_bind_ok h
  obtain ⟨_, _, h⟩ := res_bind_ok h
  split at h
  · cases h; omega
  · obtain ⟨x, _, h⟩ := res_bind_ok h
    obtain ⟨y, _, h⟩ := res_bind_ok h
    unfold FuelMerkle.commonPathLength at h
    rw [commonPrefixCount_eq _ _ (by rw [x.2, y.2])] at h
    cases h
    have := lcp_le_left (bitsOf x.val) (bitsOf y.val)
    rw [bitsOf_length, x.2] at this
    omega

theorem runwrap_ends (o : Option α) : runwrap o ≠ .error .diverges := by cases o <;> simp [runwrap]

theorem onPath_ends (p : Profile) (path : Bytes) (a b : Node) : Node.createNodeOnPath p H path a b ≠ .error .diverges := by
  unfold Node.createNodeOnPath
  split
  · refine bind_ends (commonPath_ends _ _ _) fun _ => bind_ends (usizeSub_ends _ _ _) fun _ => bind_ends (runwrap_ends _) fun x => ?_
    cases x <;> simp
  · refine bind_ends (u32Add_ends _ _ _) fun _ => bind_ends (usizeSub_ends _ _ _) fun _ => bind_ends (runwrap_ends _) fun x => ?_
    cases x <;> simp

theorem Bounded.merge (p : Profile) (path : Bytes) (a b : Node) : Bounded 1 (fun _ => True) (mergeNode p H path a b : TreeM E _) :=
  .bind (n := 0) (n' := 1) (.lift (Q := fun _ => True) (fun _ _ => trivial) (onPath_ends p path a b)) fun _ _ =>
    .bind (n := 1) (n' := 0) (.storage (insert_clock _ _)) fun _ _ => .pure trivial

theorem Bounded.merges (p : Profile) (path : Bytes) : ∀ (xs : List Node) (a : Node),
    Bounded xs.length (fun _ => True) (mergeNodes p H path a xs : TreeM E _) := by
  intro xs
  induction xs with
  | nil => intro a; exact .pure trivial
  | cons x xs ih =>
    intro a
    exact Bounded.mono (.bind (.merge p path a x) fun _ _ => ih _) (by simp only [List.length_cons]; omega) fun _ h => h

theorem Bounded.setRootNode (p : Profile) (n : Node) : Bounded 0 (fun _ => True) (setRootNode p n : TreeM E _) :=
  .bind (n := 0) (n' := 0) (.lift (Q := fun _ => True) (fun _ _ => trivial) (rdebugAssert_ends _ _)) fun _ _ =>
    ⟨fun _ => Nat.le_refl _, fun _ _ _ => trivial, fun _ h => by cases h⟩

theorem Bounded.updatePath (p : Profile) (r : Node) (ps ss : List Node) (hs : ss.length ≤ 256) :
    Bounded 257 (fun _ => True) (updateWithPathSet p H r ps ss : TreeM E _) := by
  unfold updateWithPathSet
  refine Bounded.mono (n := 0 + 257) (.bind (.lift (Q := fun _ => True) (fun _ _ => trivial) assert_ends) fun path _ => ?_) (by omega) fun _ h => h
  split
  · exact Bounded.mono (n := 0) (Q := fun _ => True) (.throw (by simp)) (by omega) fun _ h => h
  · refine Bounded.mono (n := 0 + (0 + ((257 - ss.length) + ss.length))) (.bind (.lift (Q := fun _ => True) (fun _ _ => trivial) assert_ends) fun rk _ =>
      .bind (.lift (Q := fun _ => True) (fun _ _ => trivial) assert_ends) fun ak _ =>
      .bind (Q := fun _ => True) ?_ fun c _ => ?_) (by omega) fun _ h => h
    · split
      · refine Bounded.mono (n := 1 + (0 + (256 - ss.length))) (.bind (Q := fun _ => True) ?_ fun c _ =>
          .bind (.lift (Q := fun d => d ≤ 256) (fun d hd => commonPath_le _ _ _ _ hd) (commonPath_ends _ _ _)) fun d hd => ?_) (by omega) fun _ h => h
        · split
          · exact Bounded.mono (n := 0) (Q := fun _ => True) (.pure trivial) (by omega) fun _ h => h
          · exact .merge p _ _ _
        · refine Bounded.mono (.merges p _ _ _) ?_ fun _ h => h
          rw [List.length_replicate]
          omega
      · exact Bounded.mono (n := 0) (Q := fun _ => True) (.pure trivial) (by omega) fun _ h => h
    · exact Bounded.mono (n := ss.length + 0) (.bind (.merges p _ _ _) fun c _ => .setRootNode p c) (by omega) fun _ h => h

theorem Bounded.removes : ∀ (xs : List Node), Bounded xs.length (fun _ => True) (removeAll H xs : TreeM E _) := by
  intro xs
  induction xs with
  | nil => exact .pure trivial
  | cons x xs ih =>
    exact Bounded.mono (.bind (.storage (remove_clock _)) fun _ _ => ih) (by simp only [List.length_cons]; omega) fun _ h => h

theorem findNonPlaceholder_length : ∀ (xs : List Node), (findNonPlaceholder xs).2.length + (if (findNonPlaceholder xs).1 = none then 0 else 1) ≤ xs.length := by
  intro xs
  induction xs with
  | nil => simp [findNonPlaceholder]
  | cons x xs ih =>
    unfold findNonPlaceholder
    split
    · simp only [List.length_cons]; omega
    · simp

theorem Bounded.deletePath (p : Profile) (r : Node) (ps ss : List Node) (hp : ps.length ≤ 257) (hs : ss.length ≤ 256) :
    Bounded 513 (fun _ => True) (deleteWithPathSet p H r ps ss : TreeM E _) := by
  unfold deleteWithPathSet
  have hl := findNonPlaceholder_length
  refine Bounded.mono (n := 257 + (0 + 256)) (.bind ((Bounded.removes ps).mono hp fun _ h => h) fun _ _ =>
    .bind (.lift (Q := fun _ => True) (fun _ _ => trivial) assert_ends) fun path _ => ?_) (by omega) fun _ h => h
  have hend : ∀ (c : Node) (rest : List Node) (n : Nat), rest.length ≤ n → Bounded n (fun _ => True)
      (do let current ← mergeNodes p H path.val c rest; Sparse.setRootNode p current : TreeM E Unit) := fun c rest n h =>
    Bounded.mono (n := rest.length + 0) (.bind (.merges p _ _ _) fun c _ => .setRootNode p c) (by omega) fun _ h => h
  split
  · exact Bounded.mono (n := 0 + 0) (.bind (.pure (Q := fun x => x.2.length = 0) rfl) fun x hx => hend _ _ _ (by omega)) (by omega) fun _ h => h
  · rename_i first others
    simp only [List.length_cons] at hs
    have := hl others
    split
    · split
      · rename_i x rest he
        rw [he] at this
        simp only [reduceCtorEq, if_false] at this
        exact Bounded.mono (n := (1 + 0) + 255) (.bind (.bind (.merge p _ _ _) fun _ _ => .pure (Q := fun x : Node × List Node => x.2.length ≤ 255) (by simp only; omega)) fun x hx =>
          hend _ _ _ hx) (by omega) fun _ h => h
      · rename_i rest he
        rw [he] at this
        simp only [if_true] at this
        exact Bounded.mono (n := 0 + 256) (.bind (.pure (Q := fun x => x.2.length ≤ 256) (by simp only; omega)) fun x hx =>
          hend _ _ _ hx) (by omega) fun _ h => h
    · exact Bounded.mono (n := 0 + 256) (.bind (.pure (Q := fun x => x.2.length ≤ 256) (by simp only [List.length_cons]; omega)) fun x hx =>
          hend _ _ _ hx) (by omega) fun _ h => h

theorem Bounded.delete (p : Profile) (k : Bytes32) : Bounded 1026 (fun _ => True) (delete p H k : TreeM E _) := by
  unfold Sparse.delete
  refine .get fun t => ?_
  split
  · exact Bounded.mono (n := 0) (Q := fun _ => True) (.pure trivial) (by omega) fun _ h => h
  · refine Bounded.mono (n := 1 + 1025) (.bind (.storage (get_clock k)) fun r _ => ?_) (by omega) fun _ h => h
    split
    · exact Bounded.mono (n := 0) (Q := fun _ => True) (.pure trivial) (by omega) fun _ h => h
    · split
      · exact Bounded.mono (n := 0) (Q := fun _ => True) (.throw (by simp)) (by omega) fun _ h => h
      · exact .bind (n := 512) (n' := 513) (.path p _) fun x hx => .deletePath p _ _ _ hx.1 hx.2

theorem Bounded.update (p : Profile) (k : Bytes32) {d : Bytes} (hd : d ≠ []) : Bounded 771 (fun _ => True) (update p H k d : TreeM E _) := by
  unfold Sparse.update
  split
  · rename_i h; cases d <;> simp_all
  · refine Bounded.mono (n := 1 + (0 + (1 + 769))) (.bind (.storage (insert_clock _ _)) fun _ _ =>
      .bind (.lift (Q := fun _ => True) (fun _ _ => trivial) assert_ends) fun _ _ =>
      .bind (.storage (insert_clock _ _)) fun _ _ => .get fun t => ?_) (by omega) fun _ h => h
    split
    · exact (Bounded.setRootNode p _).mono (by omega) fun _ h => h
    · exact .bind (n := 512) (n' := 257) (.path p _) fun x hx => .updatePath p _ _ _ hx.2

end Sparse
end FuelMerkle
