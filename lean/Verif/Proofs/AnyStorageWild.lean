import Verif.Proofs.AnyStorage
import Verif.Proofs.SparseAny

/-
Trees on storage implementations of which nothing is known.
-/
namespace FuelMerkle
variable {S K V E : Type} [DecidableEq K]

/-- No relation between the storages. -/
def Unrelated (_ : S) (_ : Store K V E) : Prop := True

theorem inserts_unrelated (B : Backend S K V E) : Inserts B Unrelated (WritesWork B) := by
  intro k v s
  rcases hx : B.insert k v s with ⟨r, s1⟩
  unfold discarded
  cases r with
  | ok r =>
    refine ⟨[none], by simp, fun s' _ hf => ?_⟩
    have h0 : s'.sched s'.clock = none := hf 0 none rfl
    rw [Exec.bind_ok hx, Exec.bind_ok (Store.insert_none k v h0)]
    exact ⟨rfl, trivial, rfl, rfl⟩
  | error e =>
    refine ⟨[some ⟨e, false⟩], fun hn => absurd hx (hn k v s e s1), fun s' hq hf => ?_⟩
    have h0 : s'.sched s'.clock = some ⟨e, false⟩ := hf 0 _ rfl
    have : Store.insert k v s' = (.error e, { s' with clock := s'.clock + 1 }) := by simp only [Store.insert, h0]; rfl
    rw [Exec.bind_error hx, Exec.bind_error this]
    exact ⟨rfl, trivial, rfl, rfl⟩

omit [DecidableEq K] in
theorem counted_counts (B : Backend S K V E) : CountsCalls B.counted Prod.snd := ⟨fun _ _ => rfl, fun _ _ _ => rfl, fun _ _ => rfl⟩

namespace Binary.Any
variable {S E : Type} {B : Backend S Nat Prim E} {α β : Type}

theorem act_noReads (B : Backend S Nat Prim E) (p : Profile) (H : HashFn) (a : Action) (ha : NoReads a) (c : Bench S) :
    CoversAt (fun (c : Bench S) (c' : Binary.Bench E) => c'.head = c.head ∧ c'.count = c.count) Binary.Bench.storage (WritesWork B) c
      (answering (Bench.act B p H a)) (answering (Binary.Bench.act p H a)) := by
  apply CoversAt.answers
  cases a with
  | new i =>
    refine ⟨[], by simp, fun c' hq _ => ⟨rfl, ⟨?_, ?_⟩, rfl, rfl⟩⟩
    · simp only [Bench.act, Binary.Bench.act, hq.1]; rfl
    · simp only [Bench.act, Binary.Bench.act, hq.2]; rfl
  | load i n => exact ha.elim
  | call i op =>
    have key : ∃ log : List (Option (Fault E)), (WritesWork B → ∀ f ∈ log, f = none) ∧
        ∀ c' : Binary.Bench E, c'.head = c.head ∧ c'.count = c.count → Follows log c'.storage →
        let x := step B p H op ⟨c.storage, c.head i, c.count i⟩
        let y := Binary.step p H op ⟨c'.storage, c'.head i, c'.count i⟩
        y.1 = x.1 ∧ Like Unrelated x.2 y.2 ∧ After log c'.storage y.2.storage := by
      cases op with
      | push d =>
        obtain ⟨l, nf, h⟩ := covers_push (inserts_unrelated B) p H d ⟨c.storage, c.head i, c.count i⟩
        refine ⟨l, nf, fun c' hq hf => ?_⟩
        obtain ⟨h1, h2, h3⟩ := h ⟨c'.storage, c'.head i, c'.count i⟩ ⟨trivial, by rw [hq.1], by rw [hq.2]⟩ hf
        exact ⟨congrArg Out.push h1, h2, h3⟩
      | prove k => exact ha.elim
      | root =>
        refine ⟨[], by simp, fun c' hq _ => ⟨?_, ⟨trivial, by simp only [step, Binary.step, hq.1], by simp only [step, Binary.step, hq.2]⟩, rfl, rfl⟩⟩
        simp only [step, Binary.step, Tree.root, Binary.Tree.root, hq.1]
        rfl
    obtain ⟨l, nf, h⟩ := key
    refine ⟨l, nf, fun c' hq hf => ?_⟩
    obtain ⟨h1, h2, h3⟩ := h c' hq hf
    refine ⟨congrArg Reply.call h1, ⟨?_, ?_⟩, h3⟩
    · funext j
      show (if j = i then _ else c'.head j) = if j = i then _ else c.head j
      split
      · exact h2.2.1
      · rw [hq.1]
    · funext j
      show (if j = i then _ else c'.count j) = if j = i then _ else c.count j
      split
      · exact h2.2.2
      · rw [hq.2]

theorem acts_noReads (B : Backend S Nat Prim E) (p : Profile) (H : HashFn) : ∀ (as : List Action), (∀ a ∈ as, NoReads a) → ∀ c : Bench S,
    CoversAt (fun (c : Bench S) (c' : Binary.Bench E) => c'.head = c.head ∧ c'.count = c.count) Binary.Bench.storage (WritesWork B) c
      (answering (Bench.acts B p H as)) (answering (Binary.Bench.acts p H as)) := by
  intro as
  induction as with
  | nil => intro _ c; exact .still fun _ hq => ⟨rfl, hq, rfl⟩
  | cons a as ih =>
    intro ha c
    exact CoversAt.bind (act_noReads B p H a (ha a (by simp)) c) fun o c1 _ =>
      CoversAt.bind (ih (fun a h => ha a (by simp [h])) c1) fun os c2 _ => .pure (o :: os)

/-- The trees are the same but for the storage. -/
def Same (t : Tree S) (t' : Binary.Tree E) : Prop := t'.head = t.head ∧ t'.leavesCount = t.leavesCount

/-- If `y` succeeds then `x`, from the same tree on another storage, succeeds with a related result, or reports an
error of the storage or a missing record. -/
def Tame (R : α → β → Prop) (x : TreeM S E α) (y : Binary.TreeM E β) : Prop :=
  ∀ t t' b t1', Same t t' → y t' = (.ok b, t1') →
    (∃ a t1, x t = (.ok a, t1) ∧ R a b ∧ Same t1 t1') ∨
    ∃ e t1, x t = (.error (.err e), t1) ∧ t1.head = t.head ∧ t1.leavesCount = t.leavesCount ∧ ((∃ f, e = .storageError f) ∨ ∃ k, e = .loadError k)

/-- The computation leaves the tree alone, but for the storage. -/
def Reads (x : TreeM S E α) : Prop := ∀ t, (x t).2.head = t.head ∧ (x t).2.leavesCount = t.leavesCount

theorem Tame.bind {γ δ : Type} {R : α → β → Prop} {R' : γ → δ → Prop} {x : TreeM S E α} {y : Binary.TreeM E β} {f : α → TreeM S E γ}
    {g : β → Binary.TreeM E δ} (h : Tame R x y) (hx : Reads x) (k : ∀ a b, R a b → Tame R' (f a) (g b)) : Tame R' (x >>= f) (y >>= g) := by
  intro t t' d t1' hs hy
  rcases hy' : y t' with ⟨e | b, t2'⟩
  · rw [Exec.bind_error hy'] at hy; cases hy
  · rw [Exec.bind_ok hy'] at hy
    rcases h t t' b t2' hs hy' with ⟨a, t2, h1, h2, h3⟩ | ⟨e, t2, h1, h2, h3, h4⟩
    · rw [Exec.bind_ok h1]
      have hr := hx t
      rw [h1] at hr
      rcases k a b h2 t2 t2' d t1' h3 hy with h | ⟨e, t3, g1, g2, g3, g4⟩
      · exact .inl h
      · exact .inr ⟨e, t3, g1, g2.trans hr.1, g3.trans hr.2, g4⟩
    · rw [Exec.bind_error h1]
      exact .inr ⟨e, t2, rfl, h2, h3, h4⟩

theorem Tame.pure {R : α → β → Prop} {a : α} {b : β} (h : R a b) : Tame R (pure a : TreeM S E α) (pure b) := by
  intro t t' b' t1' hs hy
  cases hy
  exact .inl ⟨a, t, rfl, h, hs⟩

theorem Tame.lift (r : Res α) : Tame Eq (Exec.liftRes r : TreeM S E α) (Exec.liftRes r : Binary.TreeM E α) := by
  intro t t' b' t1' hs hy
  cases r with
  | ok a => cases hy; exact .inl ⟨_, t, rfl, rfl, hs⟩
  | error e => cases hy

theorem Reads.lift (r : Res α) : Reads (Exec.liftRes r : TreeM S E α) := by intro t; cases r <;> exact ⟨rfl, rfl⟩

theorem Reads.storage (f : S → Except E α × S) : Reads (onStorage f : TreeM S E α) := by
  intro t
  unfold onStorage
  rcases f t.storage with ⟨_ | _, _⟩ <;> exact ⟨rfl, rfl⟩

theorem Tame.get (k : Nat) : Tame (fun _ _ => True) (onStorage (B.get k)) (Binary.onStorage (Store.get k) : Binary.TreeM E _) := by
  intro t t' b' t1' hs hy
  have hs1 : Same t t1' := by
    revert hy
    unfold Binary.onStorage
    rcases Store.get k t'.storage with ⟨_ | _, _⟩ <;> intro hy <;> cases hy
    exact hs
  unfold onStorage
  rcases B.get k t.storage with ⟨e | a, s⟩
  · exact .inr ⟨_, _, rfl, rfl, rfl, .inl ⟨e, rfl⟩⟩
  · exact .inl ⟨a, _, rfl, trivial, hs1⟩

theorem Tame.missing {R : α → β → Prop} (k : Nat) (y : Binary.TreeM E β) : Tame R (Exec.throw (.err (.loadError k)) : TreeM S E α) y :=
  fun t _ _ _ _ _ => .inr ⟨_, t, rfl, rfl, rfl, .inr ⟨k, rfl⟩⟩

theorem Tame.never {R : α → β → Prop} (x : TreeM S E α) (e : Fail (Error E)) : Tame R x (Exec.throw e : Binary.TreeM E β) :=
  fun _ _ _ _ _ hy => by cases hy

theorem Reads.pure (a : α) : Reads (pure a : TreeM S E α) := fun _ => ⟨rfl, rfl⟩

theorem Reads.throw (e : Fail (Error E)) : Reads (Exec.throw e : TreeM S E α) := fun _ => ⟨rfl, rfl⟩

theorem Reads.bind {x : TreeM S E α} {f : α → TreeM S E β} (hx : Reads x) (hf : ∀ a, Reads (f a)) : Reads (x >>= f) := by
  intro t
  have h := hx t
  rcases hx' : x t with ⟨e | a, t1⟩
  · rw [Exec.bind_error hx']; rw [hx'] at h; exact h
  · rw [Exec.bind_ok hx']
    rw [hx'] at h
    exact ⟨(hf a t1).1.trans h.1, (hf a t1).2.trans h.2⟩

theorem reads_proveSides (scratch : Scratch) : ∀ sides : List Position, Reads (proveSides B scratch sides) := by
  intro sides
  induction sides with
  | nil => exact .pure _
  | cons q sides ih =>
    refine .bind (.storage _) fun a => ?_
    cases (scratch q.inOrderIndex).or a with
    | none => exact .throw _
    | some x => exact .bind ih fun _ => .pure _

theorem tame_proveSides (scratch : Scratch) : ∀ sides : List Position,
    Tame (fun (a b : List Bytes32) => a.length = b.length) (proveSides B scratch sides) (Binary.proveSides scratch sides) := by
  intro sides
  induction sides with
  | nil => exact .pure rfl
  | cons q sides ih =>
    refine .bind (.get _) (.storage _) fun a b _ => ?_
    cases (scratch q.inOrderIndex).or a with
    | none => exact .missing _ _
    | some x =>
      cases (scratch q.inOrderIndex).or b with
      | none => exact .never _ _
      | some y => exact .bind ih (reads_proveSides _ _) fun a b h => .pure (by simp only [List.length_cons, h])

theorem tame_prove (p : Profile) (H : HashFn) (i : Nat) :
    Tame (fun a b => a.1 = b.1 ∧ a.2.length = b.2.length) (prove B p H i) (Binary.prove p H i : Binary.TreeM E _) := by
  intro t t' b t1' hs hy
  suffices h : Tame (fun (a b : Bytes32 × List Bytes32) => a.1 = b.1 ∧ a.2.length = b.2.length)
      (do
        let next ← Exec.liftRes (u64Add p i 1)
        if next > t.leavesCount then
          Exec.throw (.err (.invalidProofIndex i))
        else do
          let rootPosition ← Exec.liftRes (rootPosition p t.leavesCount)
          let leafPosition ← Exec.liftRes (Position.fromLeafIndex p i)
          match ← onStorage (B.get leafPosition.inOrderIndex) with
          | none => Exec.throw (.err (.loadError i))
          | some primitive => do
            let leafNode := Node.ofPrim primitive
            let items ← Exec.liftRes (rootPosition.pathList p leafPosition t.leavesCount)
            let sidePositions := (items.map Prod.snd).reverse.dropLast
            let (rootNode, scratch) ← Exec.liftRes (rootNode p H t.head (fun _ => none))
            let rootNode ← Exec.liftRes (runwrap rootNode)
            let sides ← proveSides B scratch sidePositions
            return (rootNode.hash, leafNode.hash :: sides))
      (do
        let next ← Exec.liftRes (u64Add p i 1)
        if next > t.leavesCount then
          Exec.throw (.err (.invalidProofIndex i))
        else do
          let rootPosition ← Exec.liftRes (rootPosition p t.leavesCount)
          let leafPosition ← Exec.liftRes (Position.fromLeafIndex p i)
          match ← Binary.onStorage (Store.get leafPosition.inOrderIndex) with
          | none => Exec.throw (.err (.loadError i))
          | some primitive => do
            let leafNode := Node.ofPrim primitive
            let items ← Exec.liftRes (rootPosition.pathList p leafPosition t.leavesCount)
            let sidePositions := (items.map Prod.snd).reverse.dropLast
            let (rootNode, scratch) ← Exec.liftRes (rootNode p H t.head (fun _ => none))
            let rootNode ← Exec.liftRes (runwrap rootNode)
            let sides ← Binary.proveSides scratch sidePositions
            return (rootNode.hash, leafNode.hash :: sides)) by
    refine h t t' b t1' hs ?_
    rw [← hy]
    unfold Binary.prove
    rw [Exec.get_bind, hs.1, hs.2]
    rfl
  refine .bind (.lift _) (.lift _) fun n _ e => ?_
  subst e
  split
  · exact .never _ _
  · refine .bind (.lift _) (.lift _) fun rp _ e => ?_
    subst e
    refine .bind (.lift _) (.lift _) fun lp _ e => ?_
    subst e
    refine .bind (.get _) (.storage _) fun a b _ => ?_
    cases a with
    | none => exact .missing _ _
    | some a =>
      cases b with
      | none => exact .never _ _
      | some b =>
        refine .bind (.lift _) (.lift _) fun items _ e => ?_
        subst e
        refine .bind (.lift _) (.lift _) fun rn _ e => ?_
        subst e
        refine .bind (.lift _) (.lift _) fun r _ e => ?_
        subst e
        exact .bind (tame_proveSides _ _) (reads_proveSides _ _) fun a b h => .pure ⟨rfl, by simp only [List.length_cons, h]⟩

end Binary.Any

namespace Sum.Any
variable {S E : Type} {B : Backend S Bytes32 Node E}

theorem step_unrelated (B : Backend S Bytes32 Node E) (p : Profile) (H : HashFn) (x : Nat × Op) (c : Desk S) :
    CoversAt (fun (c : Desk S) (c' : Sum.Desk E) => c'.head = c.head) Sum.Desk.storage (WritesWork B) c (answering (Desk.step B p H x))
      (answering (Sum.Desk.step p H x)) := by
  apply CoversAt.answers
  obtain ⟨i, op⟩ := x
  have key : ∃ log : List (Option (Fault E)), (WritesWork B → ∀ f ∈ log, f = none) ∧ ∀ c' : Sum.Desk E, c'.head = c.head → Follows log c'.storage →
      let x := step B p H op ⟨c.storage, c.head i⟩
      let y := Sum.step p H op ⟨c'.storage, c'.head i⟩
      y.1 = x.1 ∧ Like Unrelated x.2 y.2 ∧ After log c'.storage y.2.storage := by
    cases op with
    | push fee d =>
      obtain ⟨l, nf, h⟩ := covers_push (inserts_unrelated B) p H fee d ⟨c.storage, c.head i⟩
      refine ⟨l, nf, fun c' hq hf => ?_⟩
      obtain ⟨h1, h2, h3⟩ := h ⟨c'.storage, c'.head i⟩ ⟨trivial, by rw [hq]⟩ hf
      exact ⟨congrArg Out.push h1, h2, h3⟩
    | root =>
      obtain ⟨l, nf, h⟩ := covers_root (inserts_unrelated B) p H ⟨c.storage, c.head i⟩
      refine ⟨l, nf, fun c' hq hf => ?_⟩
      obtain ⟨h1, h2, h3⟩ := h ⟨c'.storage, c'.head i⟩ ⟨trivial, by rw [hq]⟩ hf
      exact ⟨congrArg Out.root h1, h2, h3⟩
  obtain ⟨l, nf, h⟩ := key
  refine ⟨l, nf, fun c' hq hf => ?_⟩
  obtain ⟨h1, h2, h3⟩ := h c' hq hf
  refine ⟨h1, ?_, h3⟩
  funext j
  show (if j = i then _ else c'.head j) = if j = i then _ else c.head j
  split
  · exact h2.2
  · rw [hq]

theorem run_unrelated (B : Backend S Bytes32 Node E) (p : Profile) (H : HashFn) : ∀ (xs : List (Nat × Op)) (c : Desk S),
    CoversAt (fun (c : Desk S) (c' : Sum.Desk E) => c'.head = c.head) Sum.Desk.storage (WritesWork B) c (answering (Desk.run B p H xs))
      (answering (Sum.Desk.run p H xs)) := by
  intro xs
  induction xs with
  | nil => intro c; exact .still fun _ hq => ⟨rfl, hq, rfl⟩
  | cons x xs ih =>
    intro c
    exact CoversAt.bind (step_unrelated B p H x c) fun o c1 _ => CoversAt.bind (ih c1) fun os c2 _ => .pure (o :: os)

end Sum.Any

namespace Sparse.Any
variable {S E : Type} {B : Backend S Bytes32 Prim E} {calls : S → Nat} {H : HashFn} {α β : Type}

/-- The computation makes at most `n` storage calls, its results satisfy `Q`, and its loops
end. -/
structure Bounded (calls : S → Nat) (n : Nat) (Q : α → Prop) (m : TreeM S E α) : Prop where
  clock : ∀ t, calls (m t).2.storage ≤ calls t.storage + n
  post : ∀ t a, (m t).1 = .ok a → Q a
  ends : ∀ t, (m t).1 ≠ .error (.panic .diverges)

theorem Bounded.pure {Q : α → Prop} {a : α} (h : Q a) : Bounded calls 0 Q (pure a : TreeM S E α) :=
  ⟨fun _ => Nat.le_refl _, fun _ b e => by cases e; exact h, fun _ e => by cases e⟩

theorem Bounded.mono {m : TreeM S E α} {n n' : Nat} {Q Q' : α → Prop} (h : Bounded calls n Q m) (hn : n ≤ n') (hq : ∀ a, Q a → Q' a) :
    Bounded calls n' Q' m :=
  ⟨fun t => Nat.le_trans (h.clock t) (by omega), fun t a e => hq a (h.post t a e), h.ends⟩

theorem Bounded.throw {Q : α → Prop} {e : Fail (Error E)} (h : e ≠ .panic .diverges) : Bounded calls 0 Q (Exec.throw e : TreeM S E α) :=
  ⟨fun _ => Nat.le_refl _, fun _ _ e => (by cases e), fun _ e' => (by cases e'; exact h rfl)⟩

theorem Bounded.lift {Q : α → Prop} {r : Res α} (h : ∀ a, r = .ok a → Q a) (hd : r ≠ .error .diverges) :
    Bounded calls 0 Q (Exec.liftRes r : TreeM S E α) := by
  cases r with
  | ok a => exact ⟨fun _ => Nat.le_refl _, fun _ b e => by cases e; exact h _ rfl, fun _ e => by cases e⟩
  | error q => exact ⟨fun _ => Nat.le_refl _, fun _ _ e => (by cases e), fun _ e => (by cases e; exact hd rfl)⟩

theorem Bounded.bind {m : TreeM S E α} {f : α → TreeM S E β} {n n' : Nat} {Q : α → Prop} {Q' : β → Prop} (h : Bounded calls n Q m)
    (hf : ∀ a, Q a → Bounded calls n' Q' (f a)) : Bounded calls (n + n') Q' (m >>= f) := by
  refine ⟨fun t => ?_, fun t b => ?_, fun t => ?_⟩ <;>
    (have h1 := h.clock t
     have h2 := h.post t
     have h3 := h.ends t
     rw [Exec.bind_apply]
     rcases hm : m t with ⟨r, s⟩
     rw [hm] at h1 h2 h3
     cases r)
  · simp only at h1 ⊢; omega
  · rename_i a
    have := (hf a (h2 a rfl)).clock s
    simp only at h1 ⊢; omega
  · intro e; cases e
  · rename_i a; exact (hf a (h2 a rfl)).post s b
  · intro e; cases e; exact h3 rfl
  · rename_i a; exact (hf a (h2 a rfl)).ends s

theorem Bounded.get {f : Tree S → TreeM S E α} {n : Nat} {Q : α → Prop} (h : ∀ t, Bounded calls n Q (f t)) : Bounded calls n Q (Exec.get >>= f) :=
  ⟨fun t => (h t).clock t, fun t => (h t).post t, fun t => (h t).ends t⟩

theorem Bounded.storage {f : S → Except E α × S} (h : ∀ s, calls (f s).2 = calls s + 1) :
    Bounded calls 1 (fun _ => True) (onStorage f : TreeM S E α) := by
  refine ⟨fun t => ?_, fun _ _ _ => trivial, fun t => ?_⟩
  · have := h t.storage
    unfold onStorage
    split <;> rename_i he <;> rw [he] at this <;> simp only at this ⊢ <;> omega
  · unfold onStorage
    split <;> simp

theorem Bounded.try {f : S → Except E α × S} (h : ∀ s, calls (f s).2 = calls s + 1) :
    Bounded calls 1 (fun _ => True) (tryStorage f : TreeM S E _) :=
  ⟨fun t => by unfold tryStorage; have := h t.storage; simp only; omega, fun _ _ _ => trivial, fun t => by simp [tryStorage]⟩

theorem Bounded.child (hC : CountsCalls B calls) (k : Bytes32) : Bounded calls 1 (fun _ => True) (childByKey B k : TreeM S E _) := by
  unfold childByKey
  split
  · exact (Bounded.pure trivial).mono (by omega) fun _ h => h
  · refine .bind (n' := 0) (.try (hC.get k)) fun r _ => ?_
    split
    · exact .pure trivial
    · exact .pure trivial
    · split <;> exact .pure trivial

theorem Bounded.left (hC : CountsCalls B calls) (n : Node) : Bounded calls 1 (fun _ => True) (leftChild B n : TreeM S E _) := by
  unfold leftChild
  split
  · exact (Bounded.pure trivial).mono (by omega) fun _ h => h
  · exact .bind (n := 0) (.lift (fun _ _ => trivial) assert_ends) fun _ _ => .child hC _

theorem Bounded.right (hC : CountsCalls B calls) (n : Node) : Bounded calls 1 (fun _ => True) (rightChild B n : TreeM S E _) := by
  unfold rightChild
  split
  · exact (Bounded.pure trivial).mono (by omega) fun _ h => h
  · exact .bind (n := 0) (.lift (fun _ _ => trivial) assert_ends) fun _ _ => .child hC _

theorem Bounded.next (hC : CountsCalls B calls) (it : PathIter Node (CErr E)) {n : Nat} (hn : it.currentOffset < 256 → 2 ≤ n) :
    Bounded calls n
      (fun x => x.1 = it.current ∧ (x.2.current ≠ none → it.current = none ∨
        (it.currentOffset < 256 ∧ x.2.currentOffset = it.currentOffset + 1)))
      (it.next (storageNode B) : TreeM S E _) := by
  unfold PathIter.next
  split
  · rename_i hc
    split
    · have hk : Bounded calls 0 (fun k => ∃ b : Bytes32, k = b.val) ((storageNode B).leafKey it.leaf : TreeM S E _) :=
        .bind (n := 0) (n' := 0) (.lift (Q := fun _ => True) (fun _ _ => trivial) assert_ends) fun k _ => .pure ⟨k, rfl⟩
      refine Bounded.mono (n := 0 + n) (.bind hk ?_) (by omega) fun _ h => h
      rintro _ ⟨k, rfl⟩
      split
      · rename_i hi
        have hlt := getInstruction_lt hi
        refine Bounded.mono (n := 2) ?_ (hn hlt) fun _ h => h
        exact .bind (n := 1) (n' := 1) (.left hC _) fun _ _ => .bind (n := 1) (n' := 0) (.right hC _) fun _ _ =>
          .pure ⟨rfl, fun _ => .inr ⟨hlt, rfl⟩⟩
      · rename_i hi
        have hlt := getInstruction_lt hi
        refine Bounded.mono (n := 2) ?_ (hn hlt) fun _ h => h
        exact .bind (n := 1) (n' := 1) (.right hC _) fun _ _ => .bind (n := 1) (n' := 0) (.left hC _) fun _ _ =>
          .pure ⟨rfl, fun _ => .inr ⟨hlt, rfl⟩⟩
      · refine Bounded.mono (n := 0) (.pure ⟨rfl, fun h => absurd rfl h⟩) (by omega) fun _ h => h
    · refine Bounded.mono (n := 0) (.pure ⟨rfl, fun h => absurd rfl h⟩) (by omega) fun _ h => h
  · rename_i hc
    refine Bounded.mono (n := 0) (.pure ⟨rfl, fun h => absurd rfl h⟩) (by omega) fun _ h => h
  · rename_i hc
    refine Bounded.mono (n := 0) (.pure ⟨rfl, fun _ => .inl hc⟩) (by omega) fun _ h => h

theorem iter_next_none {it : PathIter Node (CErr E)} (h : it.current = none) :
    (it.next (storageNode B) : TreeM S E _) = pure (none, it) := by
  unfold PathIter.next
  rw [h]

theorem Bounded.collect (hC : CountsCalls B calls) (fuel : Nat) : ∀ (it : PathIter Node (CErr E)),
    (it.current = none → 1 ≤ fuel → Bounded calls 0 (fun l => l.length = 0) (collectPath B fuel it : TreeM S E _)) ∧
    (256 - it.currentOffset + 2 ≤ fuel →
      Bounded calls (2 * (256 - it.currentOffset)) (fun l => l.length ≤ 256 - it.currentOffset + 1) (collectPath B fuel it : TreeM S E _)) := by
  induction fuel with
  | zero => intro it; exact ⟨fun _ h => absurd h (by omega), fun h => absurd h (by omega)⟩
  | succ n ih =>
    intro it
    have h1 : it.current = none → Bounded calls 0 (fun l => l.length = 0) (collectPath B (n + 1) it : TreeM S E _) := by
      intro hc
      rw [collectPath, iter_next_none hc]
      exact .bind (n := 0) (n' := 0) (.pure (Q := fun x => x.1 = none) rfl) fun x hx => by
        obtain ⟨v, it'⟩ := x
        simp only at hx
        subst hx
        exact .pure rfl
    refine ⟨fun hc _ => h1 hc, fun hf => ?_⟩
    by_cases hc : it.current = none
    · exact (h1 hc).mono (by omega) fun l hl => by omega
    · rw [collectPath]
      have hb := Bounded.next hC it (n := 2 * (256 - it.currentOffset) - 2 * (256 - (it.currentOffset + 1))) (by omega)
      refine Bounded.mono (.bind (n' := 2 * (256 - (it.currentOffset + 1))) hb fun x hx => ?_) (by omega) fun _ h => h
      obtain ⟨v, it'⟩ := x
      obtain ⟨hv, hx⟩ := hx
      simp only at hv hx
      have hrest : Bounded calls (2 * (256 - (it.currentOffset + 1))) (fun l => l.length ≤ 256 - it.currentOffset) (collectPath B n it' : TreeM S E _) := by
        by_cases hn : it'.current = none
        · exact ((ih it').1 hn (by omega)).mono (by omega) fun l hl => by omega
        · rcases hx hn with h | ⟨hlt, ho⟩
          · exact absurd h hc
          · have := (ih it').2 (by omega)
            rw [ho] at this
            exact this.mono (by omega) fun l hl => by omega
      have ht : ∀ e : Fail (Error E), e ≠ .panic .diverges → Bounded calls (2 * (256 - (it.currentOffset + 1)))
          (fun l => l.length ≤ 256 - it.currentOffset + 1) (Exec.throw e : TreeM S E (List (Node × Node))) := fun e h =>
        Bounded.mono (n := 0) (Q := fun l => l.length ≤ 256 - it.currentOffset + 1) (.throw h) (by omega) fun _ h => h
      rcases v with _ | ⟨a, b⟩
      · exact Bounded.mono (n := 0) (Q := fun l => l.length ≤ 256 - it.currentOffset + 1) (.pure (Nat.zero_le _)) (by omega) fun _ h => h
      · rcases a with e | a
        · exact ht _ (by simp)
        · rcases b with e | b
          · exact ht _ (by simp)
          · exact .bind (n' := 0) hrest fun l hl => .pure (by simp only [List.length_cons]; omega)

/-- A path has at most 257 nodes and 256 side nodes, and reading it takes at most 512 reads. -/
theorem Bounded.path (hC : CountsCalls B calls) (p : Profile) (leaf : Node) :
    Bounded calls 512 (fun x => x.1.length ≤ 257 ∧ x.2.length ≤ 256) (pathSet B p leaf : TreeM S E _) := by
  unfold pathSet
  refine .get fun t => ?_
  refine Bounded.mono (.bind (n := 0) (n' := 512) (Q := fun _ => True) ?_ fun it _ => ?_) (by omega) fun _ h => h
  · unfold PathIter.new
    exact .bind (n := 0) (n' := 0) (.lift (Q := fun _ => True) (fun _ _ => trivial) (usizeSub_ends _ _ _)) fun _ _ => .pure trivial
  · refine Bounded.mono (.bind (n' := 0) ((Bounded.collect hC _ it).2 ?_) fun l hl => .pure ?_) (by omega) fun _ h => h
    · show _ ≤ 32 * 8 + 2
      omega
    · simp only [List.length_reverse, List.length_map, List.length_dropLast]
      omega

theorem Bounded.merge (hC : CountsCalls B calls) (p : Profile) (path : Bytes) (a b : Node) : Bounded calls 1 (fun _ => True) (mergeNode B p H path a b : TreeM S E _) :=
  .bind (n := 0) (n' := 1) (.lift (Q := fun _ => True) (fun _ _ => trivial) (onPath_ends p path a b)) fun _ _ =>
    .bind (n := 1) (n' := 0) (.storage (hC.insert _ _)) fun _ _ => .pure trivial

theorem Bounded.merges (hC : CountsCalls B calls) (p : Profile) (path : Bytes) : ∀ (xs : List Node) (a : Node),
    Bounded calls xs.length (fun _ => True) (mergeNodes B p H path a xs : TreeM S E _) := by
  intro xs
  induction xs with
  | nil => intro a; exact .pure trivial
  | cons x xs ih =>
    intro a
    exact Bounded.mono (.bind (.merge hC p path a x) fun _ _ => ih _) (by simp only [List.length_cons]; omega) fun _ h => h

theorem Bounded.setRootNode (p : Profile) (n : Node) : Bounded calls 0 (fun _ => True) (setRootNode p n : TreeM S E _) :=
  .bind (n := 0) (n' := 0) (.lift (Q := fun _ => True) (fun _ _ => trivial) (rdebugAssert_ends _ _)) fun _ _ =>
    ⟨fun _ => Nat.le_refl _, fun _ _ _ => trivial, fun _ h => by cases h⟩

theorem Bounded.updatePath (hC : CountsCalls B calls) (p : Profile) (r : Node) (ps ss : List Node) (hs : ss.length ≤ 256) :
    Bounded calls 257 (fun _ => True) (updateWithPathSet B p H r ps ss : TreeM S E _) := by
  unfold updateWithPathSet
  refine Bounded.mono (n := 0 + 257) (.bind (.lift (Q := fun _ => True) (fun _ _ => trivial) assert_ends) fun path _ => ?_) (by omega) fun _ h => h
  split
  · exact Bounded.mono (n := 0) (Q := fun _ => True) (.throw (by simp)) (by omega) fun _ h => h
  · refine Bounded.mono (n := 0 + (0 + ((257 - ss.length) + ss.length))) (.bind (.lift (Q := fun _ => True) (fun _ _ => trivial) assert_ends) fun rk _ =>
      .bind (.lift (Q := fun _ => True) (fun _ _ => trivial) assert_ends) fun ak _ =>
      .bind (Q := fun _ => True) ?_ fun c _ => ?_) (by omega) fun _ h => h
    · split
      · refine Bounded.mono (n := 1 + (0 + (256 - ss.length))) (.bind (Q := fun _ => True) ?_ fun c _ =>
          .bind (.lift (Q := fun d => d ≤ 256) (fun d hd => commonPath_le _ _ _ _ hd) (commonPath_ends _ _ _)) fun d hd => ?_) (by omega) fun _ h => h
        · split
          · exact Bounded.mono (n := 0) (Q := fun _ => True) (.pure trivial) (by omega) fun _ h => h
          · exact .merge hC p _ _ _
        · refine Bounded.mono (.merges hC p _ _ _) ?_ fun _ h => h
          rw [List.length_replicate]
          omega
      · exact Bounded.mono (n := 0) (Q := fun _ => True) (.pure trivial) (by omega) fun _ h => h
    · exact Bounded.mono (n := ss.length + 0) (.bind (.merges hC p _ _ _) fun c _ => .setRootNode p c) (by omega) fun _ h => h

theorem Bounded.removes (hC : CountsCalls B calls) : ∀ (xs : List Node), Bounded calls xs.length (fun _ => True) (removeAll B H xs : TreeM S E _) := by
  intro xs
  induction xs with
  | nil => exact .pure trivial
  | cons x xs ih =>
    exact Bounded.mono (.bind (.storage (hC.remove _)) fun _ _ => ih) (by simp only [List.length_cons]; omega) fun _ h => h

theorem Bounded.deletePath (hC : CountsCalls B calls) (p : Profile) (r : Node) (ps ss : List Node) (hp : ps.length ≤ 257) (hs : ss.length ≤ 256) :
    Bounded calls 513 (fun _ => True) (deleteWithPathSet B p H r ps ss : TreeM S E _) := by
  unfold deleteWithPathSet
  have hl := findNonPlaceholder_length
  refine Bounded.mono (n := 257 + (0 + 256)) (.bind ((Bounded.removes hC ps).mono hp fun _ h => h) fun _ _ =>
    .bind (.lift (Q := fun _ => True) (fun _ _ => trivial) assert_ends) fun path _ => ?_) (by omega) fun _ h => h
  have hend : ∀ (c : Node) (rest : List Node) (n : Nat), rest.length ≤ n → Bounded calls n (fun _ => True)
      (do let current ← mergeNodes B p H path.val c rest; Any.setRootNode p current : TreeM S E Unit) := fun c rest n h =>
    Bounded.mono (n := rest.length + 0) (.bind (.merges hC p _ _ _) fun c _ => .setRootNode p c) (by omega) fun _ h => h
  split
  · exact Bounded.mono (n := 0 + 0) (.bind (.pure (Q := fun x => x.2.length = 0) rfl) fun x hx => hend _ _ _ (by omega)) (by omega) fun _ h => h
  · rename_i first others
    simp only [List.length_cons] at hs
    have := hl others
    split
    · split
      · rename_i x rest he
        rw [he] at this
        simp only [reduceCtorEq, if_false] at this
        exact Bounded.mono (n := (1 + 0) + 255) (.bind (.bind (.merge hC p _ _ _) fun _ _ => .pure (Q := fun x : Node × List Node => x.2.length ≤ 255) (by simp only; omega)) fun x hx =>
          hend _ _ _ hx) (by omega) fun _ h => h
      · rename_i rest he
        rw [he] at this
        simp only [if_true] at this
        exact Bounded.mono (n := 0 + 256) (.bind (.pure (Q := fun x => x.2.length ≤ 256) (by simp only; omega)) fun x hx =>
          hend _ _ _ hx) (by omega) fun _ h => h
    · exact Bounded.mono (n := 0 + 256) (.bind (.pure (Q := fun x => x.2.length ≤ 256) (by simp only [List.length_cons]; omega)) fun x hx =>
          hend _ _ _ hx) (by omega) fun _ h => h

theorem Bounded.delete (hC : CountsCalls B calls) (p : Profile) (k : Bytes32) : Bounded calls 1026 (fun _ => True) (delete B p H k : TreeM S E _) := by
  unfold Any.delete
  refine .get fun t => ?_
  split
  · exact Bounded.mono (n := 0) (Q := fun _ => True) (.pure trivial) (by omega) fun _ h => h
  · refine Bounded.mono (n := 1 + 1025) (.bind (.storage (hC.get k)) fun r _ => ?_) (by omega) fun _ h => h
    split
    · exact Bounded.mono (n := 0) (Q := fun _ => True) (.pure trivial) (by omega) fun _ h => h
    · split
      · exact Bounded.mono (n := 0) (Q := fun _ => True) (.throw (by simp)) (by omega) fun _ h => h
      · exact .bind (n := 512) (n' := 513) (.path hC p _) fun x hx => .deletePath hC p _ _ _ hx.1 hx.2

theorem Bounded.update (hC : CountsCalls B calls) (p : Profile) (k : Bytes32) {d : Bytes} (hd : d ≠ []) : Bounded calls 771 (fun _ => True) (update B p H k d : TreeM S E _) := by
  unfold Any.update
  split
  · rename_i h; cases d <;> simp_all
  · refine Bounded.mono (n := 1 + (0 + (1 + 769))) (.bind (.storage (hC.insert _ _)) fun _ _ =>
      .bind (.lift (Q := fun _ => True) (fun _ _ => trivial) assert_ends) fun _ _ =>
      .bind (.storage (hC.insert _ _)) fun _ _ => .get fun t => ?_) (by omega) fun _ h => h
    split
    · exact (Bounded.setRootNode p _).mono (by omega) fun _ h => h
    · exact .bind (n := 512) (n' := 257) (.path hC p _) fun x hx => .updatePath hC p _ _ _ hx.2

/-- Every call of the client ends after so many storage calls. -/
theorem handle_calls (hC : CountsCalls B calls) (p : Profile) (r : Request) (c : Bench S) :
    calls (Bench.handle B p H r c).2.storage ≤ calls c.storage + 1026 ∧ (Bench.handle B p H r c).1 ≠ .done (.error (.panic .diverges)) := by
  cases r with
  | new i => exact ⟨by simp only [Bench.handle]; omega, by simp [Bench.handle]⟩
  | root i => exact ⟨by simp only [Bench.handle]; omega, by simp [Bench.handle]⟩
  | load i root =>
    have h := hC.get root c.storage
    rcases hx : B.get root c.storage with ⟨e | _ | q, s⟩ <;> rw [hx] at h <;> simp only at h
    · simp only [Bench.handle, Tree.load, hx]
      exact ⟨by omega, by simp⟩
    · simp only [Bench.handle, Tree.load, hx]
      exact ⟨by omega, by simp⟩
    · rcases hn : Node.ofPrim q with e | n <;> simp only [Bench.handle, Tree.load, hx, hn]
      · exact ⟨by omega, by simp⟩
      · exact ⟨by omega, by simp⟩
  | call i op =>
    have key : Bounded calls 1026 (fun _ => True) (run B p H op) := by
      cases op with
      | delete k => exact .delete hC p k
      | update k d =>
        cases d with
        | nil => exact .delete hC p k
        | cons x d => exact (Bounded.update hC p k (by simp)).mono (by omega) fun _ h => h
    refine ⟨key.clock ⟨c.node i, c.storage⟩, fun h => key.ends ⟨c.node i, c.storage⟩ ?_⟩
    exact Answer.done.inj h

end Sparse.Any
end FuelMerkle
