import Verif.Proofs.Exec
import Verif.Proofs.Msb
import Verif.Model.Verify
import Verif.Model.Sum
import Verif.Model.Reference
import Verif.Model.InMemory
import Verif.Spec.Profiles

/-
A build with more checks either panics or does the same as a build with fewer.
-/
namespace FuelMerkle

/-- `a` panics or is `b`. -/
def Res.Safe {α : Type} (a b : Res α) : Prop := (∃ q, a = .error q) ∨ a = b

namespace Res.Safe
variable {α β : Type}

theorem refl (a : Res α) : Res.Safe a a := .inr rfl

theorem bind {a b : Res α} {f g : α → Res β} (h : Res.Safe a b) (hf : ∀ x, Res.Safe (f x) (g x)) :
    Res.Safe (a >>= f) (b >>= g) := by
  rcases h with ⟨q, rfl⟩ | rfl
  · exact .inl ⟨q, rfl⟩
  · cases a with
    | error q => exact .inl ⟨q, rfl⟩
    | ok x => exact hf x

theorem eq_ok {a b : Res α} (h : Res.Safe a b) {x : α} (ha : a = .ok x) : b = .ok x := by
  rcases h with ⟨q, rfl⟩ | rfl
  · cases ha
  · exact ha

end Res.Safe

/-- `f` panics or does what `g` does. -/
def Exec.Safe {σ ε α : Type} (f g : Exec σ (Fail ε) α) : Prop :=
  ∀ s, (∃ q s', f s = (.error (.panic q), s')) ∨ f s = g s

namespace Exec.Safe
variable {σ ε α β : Type}

theorem refl (f : Exec σ (Fail ε) α) : Exec.Safe f f := fun _ => .inr rfl

theorem bind {a b : Exec σ (Fail ε) α} {f g : α → Exec σ (Fail ε) β} (h : Exec.Safe a b)
    (hf : ∀ x, Exec.Safe (f x) (g x)) : Exec.Safe (a >>= f) (b >>= g) := by
  intro s
  rw [Exec.bind_apply, Exec.bind_apply]
  rcases h s with ⟨q, s', e⟩ | e
  · left; exact ⟨q, s', by rw [e]⟩
  · rw [← e]
    rcases a s with ⟨r, s'⟩
    cases r with
    | error _ => exact .inr rfl
    | ok x => exact hf x s'

theorem lift {a b : Res α} (h : Res.Safe a b) : Exec.Safe (Exec.liftRes (σ := σ) (ε := ε) a) (Exec.liftRes b) := by
  intro s
  rcases h with ⟨q, rfl⟩ | rfl
  · exact .inl ⟨q, s, rfl⟩
  · exact .inr rfl

/-- A result that is not a panic is also the result with fewer checks. -/
theorem transfer {f g : Exec σ (Fail ε) α} (h : Exec.Safe f g) {s s' : σ} {r : Except (Fail ε) α} (hr : f s = (r, s'))
    (hn : ∀ q, r ≠ .error (.panic q)) : g s = (r, s') := by
  rcases h s with ⟨q, s'', e⟩ | e
  · rw [hr] at e
    exact absurd (congrArg Prod.fst e) (hn q)
  · rw [← e, hr]

end Exec.Safe

section
variable {q p : Profile} (h : Stricter q p)
include h

theorem u64Add_safe (a b : Nat) : Res.Safe (u64Add q a b) (u64Add p a b) := by
  have := h.1
  unfold u64Add Res.Safe
  split
  · exact .inr rfl
  · cases hq : q.overflowChecks <;> cases hp : p.overflowChecks <;> simp_all

theorem u64Sub_safe (a b : Nat) : Res.Safe (u64Sub q a b) (u64Sub p a b) := by
  have := h.1
  unfold u64Sub Res.Safe
  split
  · exact .inr rfl
  · cases hq : q.overflowChecks <;> cases hp : p.overflowChecks <;> simp_all

theorem u64Mul_safe (a b : Nat) : Res.Safe (u64Mul q a b) (u64Mul p a b) := by
  have := h.1
  unfold u64Mul Res.Safe
  split
  · exact .inr rfl
  · cases hq : q.overflowChecks <;> cases hp : p.overflowChecks <;> simp_all

theorem u32Add_safe (a b : Nat) : Res.Safe (u32Add q a b) (u32Add p a b) := by
  have := h.1
  unfold u32Add Res.Safe
  split
  · exact .inr rfl
  · cases hq : q.overflowChecks <;> cases hp : p.overflowChecks <;> simp_all

theorem shiftAmount_safe (a : Nat) : Res.Safe (shiftAmount q a) (shiftAmount p a) := by
  have := h.1
  unfold shiftAmount Res.Safe
  split
  · exact .inr rfl
  · cases hq : q.overflowChecks <;> cases hp : p.overflowChecks <;> simp_all

theorem i64Check_safe (a : Int) : Res.Safe (i64Check q a) (i64Check p a) := by
  have := h.1
  unfold i64Check Res.Safe
  split
  · exact .inr rfl
  · cases hq : q.overflowChecks <;> cases hp : p.overflowChecks <;> simp_all

theorem rdebugAssert_safe (b : Bool) : Res.Safe (rdebugAssert q b) (rdebugAssert p b) := by
  have := h.2
  unfold rdebugAssert Res.Safe
  cases hq : q.debugAssertions <;> cases hp : p.debugAssertions <;> cases b <;> simp_all

theorem u64Shl1_safe (a : Nat) : Res.Safe (u64Shl1 q a) (u64Shl1 p a) :=
  (shiftAmount_safe h a).bind fun _ => .refl _

theorem i64Shl1_safe (a : Nat) : Res.Safe (i64Shl1 q a) (i64Shl1 p a) :=
  (shiftAmount_safe h a).bind fun _ => .refl _

theorem u64NextPowerOfTwo_safe (a : Nat) : Res.Safe (u64NextPowerOfTwo q a) (u64NextPowerOfTwo p a) :=
  u64Add_safe h _ _

namespace Position

theorem fromLeafIndex_safe (i : Nat) : Res.Safe (fromLeafIndex q i) (fromLeafIndex p i) :=
  (u64Mul_safe h _ _).bind fun _ => .refl _

theorem direction_safe (x : Position) : Res.Safe (direction q x) (direction p x) :=
  Res.Safe.bind ((u64Shl1_safe h _).bind fun _ => .refl _) fun _ => .refl _

theorem orientation_safe (x : Position) : Res.Safe (orientation q x) (orientation p x) :=
  (u64Shl1_safe h _).bind fun _ => .refl _

theorem sibling_safe (x : Position) : Res.Safe (sibling q x) (sibling p x) :=
  (i64Shl1_safe h _).bind fun _ => (direction_safe h x).bind fun _ => (i64Check_safe h _).bind fun _ =>
    (i64Check_safe h _).bind fun _ => .refl _

theorem parent_safe (x : Position) : Res.Safe (parent q x) (parent p x) :=
  (i64Shl1_safe h _).bind fun _ => (direction_safe h x).bind fun _ => (i64Check_safe h _).bind fun _ =>
    (i64Check_safe h _).bind fun _ => .refl _

theorem uncle_safe (x : Position) : Res.Safe (uncle q x) (uncle p x) :=
  (parent_safe h x).bind fun _ => sibling_safe h _

theorem child_safe (x : Position) (d : Int) : Res.Safe (child q x d) (child p x d) :=
  (Res.Safe.refl _).bind fun _ => (i64Shl1_safe h _).bind fun _ => (i64Check_safe h _).bind fun _ =>
    (i64Check_safe h _).bind fun _ => .refl _

end Position

omit h in
theorem usizeSub_eq {a b : Nat} (hb : b ≤ a) : usizeSub q a b = usizeSub p a b := by
  unfold usizeSub; rw [if_pos hb, if_pos hb]

omit h in
/-- A wrapped subtraction from 256 is beyond the last bit of a key. -/
theorem usizeSub_wrap (r : Profile) {b : Nat} (hb : ¬ b ≤ 256) :
    (r.overflowChecks = true ∧ usizeSub r 256 b = .error .overflow) ∨
    (r.overflowChecks = false ∧ ∃ o, usizeSub r 256 b = .ok o ∧ 256 ≤ o) := by
  unfold usizeSub
  rw [if_neg hb]
  cases hc : r.overflowChecks with
  | true => exact .inl ⟨rfl, rfl⟩
  | false =>
    refine .inr ⟨rfl, _, rfl, ?_⟩
    have := Nat.mod_lt b (Nat.two_pow_pos r.pointers.bits)
    omega

omit h in
theorem height_le (a : Position) : a.height ≤ 64 := by
  have : ∀ f x, tz f x ≤ f := by
    intro f
    induction f with
    | zero => intro x; exact Nat.le_refl _
    | succ f ih =>
      intro x
      unfold tz
      split
      · omega
      · have := ih (x / 2)
        omega
  exact this _ _

omit h in
theorem pathIter_new_safe (a b : Position) :
    Res.Safe (PathIter.new (positionNode q) q a b) (PathIter.new (positionNode p) p a b) := by
  unfold PathIter.new
  have hh : a.height ≤ 64 := height_le a
  exact Res.Safe.bind (.inr (usizeSub_eq hh)) fun _ => .refl _

theorem pathIter_next_safe (it : PathIter Position Empty) :
    Res.Safe (it.next (positionNode q)) (it.next (positionNode p)) := by
  have hc : ∀ (x : Position) (d : Int),
      Res.Safe (x.child q d >>= fun c => pure (Except.ok c : Except Empty Position)) (x.child p d >>= fun c => pure (Except.ok c)) :=
    fun x d => (Position.child_safe h x d).bind fun _ => .refl _
  unfold PathIter.next
  rcases it with ⟨l, c, o⟩
  rcases c with _ | ⟨_ | x, y⟩
  · exact .refl _
  · exact .refl _
  · simp only []
    have hq : (positionNode q).isNode x = x.isNode := rfl
    have hp : (positionNode p).isNode x = x.isNode := rfl
    rw [hq, hp]
    by_cases hx : x.isNode = true
    · rw [if_pos hx, if_pos hx]
      refine (Res.Safe.refl _).bind fun path => ?_
      cases getInstruction path o with
      | none => exact .refl _
      | some d =>
        cases d with
        | left => exact (hc _ _).bind fun _ => (hc _ _).bind fun _ => .refl _
        | right => exact (hc _ _).bind fun _ => (hc _ _).bind fun _ => .refl _
    · rw [if_neg hx, if_neg hx]
      exact .refl _

theorem collectPositions_safe (n : Nat) : ∀ it : PathIter Position Empty,
    Res.Safe (it.collectPositions q n) (it.collectPositions p n) := by
  induction n with
  | zero => intro it; exact .refl _
  | succ n ih =>
    intro it
    unfold PathIter.collectPositions
    refine (pathIter_next_safe h it).bind fun x => ?_
    obtain ⟨v, it'⟩ := x
    rcases v with _ | ⟨_ | a, _ | b⟩
    · exact .refl _
    · contradiction
    · contradiction
    · contradiction
    · exact (ih it').bind fun _ => .refl _

theorem asPathIterList_safe (a b : Position) : Res.Safe (asPathIterList q a b) (asPathIterList p a b) :=
  (pathIter_new_safe a b).bind fun _ => collectPositions_safe h _ _

namespace PositionPathIter

theorem descendLeft_safe (r : Position) (n : Nat) : ∀ s, Res.Safe (descendLeft q r n s) (descendLeft p r n s) := by
  induction n with
  | zero => intro s; exact .refl _
  | succ n ih =>
    intro s
    unfold descendLeft
    split
    · exact (Position.child_safe h _ _).bind fun _ => ih _
    · exact .refl _

theorem next_safe (n : Nat) : ∀ st, Res.Safe (next q n st) (next p n st) := by
  induction n with
  | zero => intro s; exact .refl _
  | succ n ih =>
    intro st
    unfold next
    refine (pathIter_next_safe h _).bind fun x => ?_
    obtain ⟨v, it'⟩ := x
    rcases v with _ | ⟨_ | a, _ | b⟩
    · exact .refl _
    · contradiction
    · contradiction
    · contradiction
    · simp only []
      split
      · exact (descendLeft_safe h _ _ _).bind fun _ => .refl _
      · exact ih _

theorem collect_safe (n : Nat) : ∀ st, Res.Safe (collect q n st) (collect p n st) := by
  induction n with
  | zero => intro s; exact .refl _
  | succ n ih =>
    intro st
    unfold collect
    refine (next_safe h _ _).bind fun x => ?_
    obtain ⟨v, st'⟩ := x
    rcases v with _ | x
    · exact .refl _
    · exact (ih _).bind fun _ => .refl _

end PositionPathIter

theorem pathList_safe (a b : Position) (n : Nat) : Res.Safe (a.pathList q b n) (a.pathList p b n) :=
  Res.Safe.bind ((u64Sub_safe h _ _).bind fun _ => (Position.fromLeafIndex_safe h _).bind fun _ =>
      (pathIter_new_safe _ _).bind fun _ => .refl _)
    fun _ => PositionPathIter.collect_safe h _ _

namespace Binary
variable {E : Type}

theorem rootPosition_safe (n : Nat) : Res.Safe (rootPosition q n) (rootPosition p n) :=
  (u64Add_safe h _ _).bind fun _ => (u64NextPowerOfTwo_safe h _).bind fun _ => (u64Sub_safe h _ _).bind fun _ => .refl _

theorem peakPositions_safe (n : Nat) : Res.Safe (peakPositions q n) (peakPositions p n) :=
  (u64Add_safe h _ _).bind fun _ => (u64Sub_safe h _ _).bind fun _ => (Position.fromLeafIndex_safe h _).bind fun _ =>
    (rootPosition_safe h _).bind fun _ => (pathList_safe h _ _ _).bind fun _ => .refl _

theorem build_safe : Exec.Safe (build q : TreeM E Unit) (build p) :=
  (Exec.Safe.refl _).bind fun _ => (Exec.Safe.lift (peakPositions_safe h _)).bind fun _ => .refl _

theorem joinNodes_safe (H : HashFn) (a b : Node) : Res.Safe (joinNodes q H a b) (joinNodes p H a b) :=
  (Position.parent_safe h _).bind fun _ => .refl _

theorem buildRootNode_safe (H : HashFn) (l : List Node) : ∀ c S, Res.Safe (buildRootNode q H c l S) (buildRootNode p H c l S) := by
  induction l with
  | nil => intro c S; exact .refl _
  | cons x l ih =>
    intro c S
    exact (joinNodes_safe h H _ _).bind fun _ => ih _ _

theorem rootNode_safe (H : HashFn) (l : List Node) (S : Scratch) : Res.Safe (rootNode q H l S) (rootNode p H l S) := by
  cases l with
  | nil => exact .refl _
  | cons x l => exact (buildRootNode_safe h H l _ _).bind fun _ => .refl _

theorem root_safe (H : HashFn) (t : Tree E) : Res.Safe (t.root q H) (t.root p H) :=
  (rootNode_safe h H _ _).bind fun _ => .refl _

theorem prove_safe (H : HashFn) (i : Nat) : Exec.Safe (prove q H i : TreeM E _) (prove p H i) := by
  unfold prove
  refine (Exec.Safe.refl _).bind fun t => (Exec.Safe.lift (u64Add_safe h _ _)).bind fun n => ?_
  split
  · exact .refl _
  · refine (Exec.Safe.lift (rootPosition_safe h _)).bind fun r => (Exec.Safe.lift (Position.fromLeafIndex_safe h _)).bind fun l =>
      (Exec.Safe.refl _).bind fun o => ?_
    cases o with
    | none => exact .refl _
    | some x =>
      exact (Exec.Safe.lift (pathList_safe h _ _ _)).bind fun _ => (Exec.Safe.lift (rootNode_safe h H _ _)).bind fun _ => .refl _

theorem joinAllLoop_safe (H : HashFn) (l : List Node) : ∀ c, Exec.Safe (joinAllLoop q H c l : TreeM E Unit) (joinAllLoop p H c l) := by
  induction l with
  | nil => intro c; exact .refl _
  | cons x l ih =>
    intro c
    unfold joinAllLoop
    split
    · exact (Exec.Safe.refl _).bind fun _ => (Exec.Safe.lift (joinNodes_safe h H _ _)).bind fun _ => (Exec.Safe.refl _).bind fun _ =>
        (Exec.Safe.refl _).bind fun _ => ih _
    · exact .refl _

theorem push_safe (H : HashFn) (d : Bytes) : Exec.Safe (push q H d : TreeM E Unit) (push p H d) := by
  refine (Exec.Safe.refl _).bind fun t => (Exec.Safe.lift ((Position.fromLeafIndex_safe h _).bind fun _ => .refl _)).bind fun _ =>
    (Exec.Safe.refl _).bind fun _ => (Exec.Safe.refl _).bind fun _ => Exec.Safe.bind ?_ fun _ => (Exec.Safe.refl _).bind fun _ =>
    (Exec.Safe.lift (u64Add_safe h _ _)).bind fun _ => .refl _
  refine (Exec.Safe.refl _).bind fun t => ?_
  cases t.head with
  | nil => exact .refl _
  | cons x l => exact joinAllLoop_safe h H _ _

end Binary

namespace Sum
variable {E : Type}

theorem joinSubtrees_safe (H : HashFn) (a b : Node) : Exec.Safe (joinSubtrees q H a b : TreeM E Node) (joinSubtrees p H a b) :=
  (Exec.Safe.lift (u32Add_safe h _ _)).bind fun _ => (Exec.Safe.lift ((u64Add_safe h _ _).bind fun _ => .refl _)).bind fun _ => .refl _

theorem rootLoop_safe (H : HashFn) (l : List Node) : ∀ c, Exec.Safe (rootLoop q H c l : TreeM E Node) (rootLoop p H c l) := by
  induction l with
  | nil => intro c; exact .refl _
  | cons x l ih => intro c; exact (joinSubtrees_safe h H _ _).bind fun _ => ih _

theorem root_safe (H : HashFn) : Exec.Safe (root q H : TreeM E _) (root p H) := by
  refine Exec.Safe.bind ?_ fun _ => .refl _
  refine (Exec.Safe.refl _).bind fun t => ?_
  cases t.head with
  | nil => exact .refl _
  | cons x l => exact (rootLoop_safe h H _ _).bind fun _ => .refl _

theorem joinAllLoop_safe (H : HashFn) (l : List Node) : ∀ c, Exec.Safe (joinAllLoop q H c l : TreeM E Unit) (joinAllLoop p H c l) := by
  induction l with
  | nil => intro c; exact .refl _
  | cons x l ih =>
    intro c
    unfold joinAllLoop
    split
    · exact (Exec.Safe.refl _).bind fun _ => (joinSubtrees_safe h H _ _).bind fun _ => (Exec.Safe.refl _).bind fun _ => ih _
    · exact .refl _

theorem push_safe (H : HashFn) (fee : Nat) (d : Bytes) : Exec.Safe (push q H fee d : TreeM E Unit) (push p H fee d) := by
  refine (Exec.Safe.refl _).bind fun t => (Exec.Safe.refl _).bind fun _ => ?_
  refine (Exec.Safe.refl _).bind fun t => ?_
  cases t.head with
  | nil => exact .refl _
  | cons x l => exact joinAllLoop_safe h H _ _

end Sum

namespace Sparse
variable {E : Type}

theorem setRootNode_safe (n : Node) : Exec.Safe (setRootNode q n : TreeM E Unit) (setRootNode p n) :=
  (Exec.Safe.lift (rdebugAssert_safe h _)).bind fun _ => .refl _

omit h in
theorem getInstruction_none {path : Bytes32} {o : Nat} (ho : 256 ≤ o) : getInstruction path.val o = none := by
  unfold getInstruction
  rw [getBitAtIndexFromMsb_eq, List.getElem?_eq_none (by rw [bitsOf_length, path.property]; omega)]
  rfl

omit h in
/-- Beyond the last bit it does not matter where the iterator is. -/
theorem collectPath_beyond (leaf : Node) (cur : Option (Except (CErr E) Node × Except (CErr E) Node)) {o o' : Nat} (ho : 256 ≤ o) (ho' : 256 ≤ o')
    (fuel : Nat) : (collectPath fuel ⟨leaf, cur, o⟩ : TreeM E _) = collectPath fuel ⟨leaf, cur, o'⟩ := by
  have rest : ∀ (fuel o o' : Nat), (collectPath fuel ⟨leaf, none, o⟩ : TreeM E _) = collectPath fuel ⟨leaf, none, o'⟩ := by
    intro fuel o o'
    cases fuel <;> rfl
  cases fuel with
  | zero => rfl
  | succ fuel =>
    rcases cur with _ | ⟨_ | c, sd⟩
    · exact rest _ _ _
    · rfl
    · have step : ∀ o, 256 ≤ o → ∀ t, (PathIter.next storageNode ⟨leaf, some (.ok c, sd), o⟩ : TreeM E _) t =
          if c.isNode then match leaf.leafKey with
            | .error x => (.error (.panic x), t)
            | .ok _ => (.ok (some (.ok c, sd), ⟨leaf, none, o⟩), t)
          else (.ok (some (.ok c, sd), ⟨leaf, none, o⟩), t) := by
        intro o ho t
        unfold PathIter.next
        show (if c.isNode = true then _ else _ : TreeM E _) t = _
        split
        · show (storageNode.leafKey leaf >>= _ : TreeM E _) t = _
          rw [Exec.bind_apply]
          have hk : (storageNode.leafKey leaf : TreeM E Bytes) t = match leaf.leafKey with
              | .error x => (.error (.panic x), t)
              | .ok k => (.ok k.val, t) := by
            show (Exec.liftRes leaf.leafKey >>= fun k => pure k.val : TreeM E Bytes) t = _
            rw [Exec.bind_apply]
            unfold Exec.liftRes
            cases leaf.leafKey <;> rfl
          rw [hk]
          cases leaf.leafKey with
          | error _ => rfl
          | ok k =>
            show (match getInstruction k.val o with | some .left => _ | some .right => _ | none => _ : TreeM E _) t = _
            rw [getInstruction_none ho]
            rfl
        · rfl
      funext t
      unfold collectPath
      rw [Exec.bind_apply, Exec.bind_apply, step o ho, step o' ho']
      by_cases hc : c.isNode = true
      · rw [if_pos hc, if_pos hc]
        cases leaf.leafKey with
        | error _ => rfl
        | ok _ =>
          simp only []
          rw [rest fuel o o']
      · rw [if_neg hc, if_neg hc]
        simp only []
        rw [rest fuel o o']

theorem pathSet_safe (n : Node) : Exec.Safe (pathSet q n : TreeM E _) (pathSet p n) := by
  refine (Exec.Safe.refl _).bind fun t => ?_
  by_cases hh : t.rootNode.height ≤ 256
  · refine Exec.Safe.bind ?_ fun _ => .refl _
    exact Exec.Safe.bind (.lift (.inr (usizeSub_eq hh))) fun _ => .refl _
  · have hp := usizeSub_wrap p hh
    have hq := usizeSub_wrap q hh
    have new : ∀ (r : Profile), (PathIter.new storageNode r t.rootNode n : TreeM E _) =
        Exec.liftRes (usizeSub r 256 t.rootNode.height) >>= fun o => pure ⟨n, some (.ok t.rootNode, .ok t.rootNode), o⟩ := fun _ => rfl
    rw [new, new]
    rcases hq with ⟨hc, hq⟩ | ⟨hc, o, hq, ho⟩
    · intro s
      rw [hq]
      exact .inl ⟨_, _, rfl⟩
    · rcases hp with ⟨hc', hp⟩ | ⟨hc', o', hp, ho'⟩
      · exact absurd (h.1 hc') (by rw [hc]; simp)
      · rw [hp, hq]
        intro s
        right
        show (collectPath _ _ >>= _ : TreeM E _) s = (collectPath _ _ >>= _ : TreeM E _) s
        rw [collectPath_beyond n _ ho ho']

theorem commonPathLength_safe (a b : Node) : Res.Safe (a.commonPathLength q b) (a.commonPathLength p b) :=
  (rdebugAssert_safe h _).bind fun _ => (rdebugAssert_safe h _).bind fun _ => .refl _

theorem createNodeOnPath_safe (H : HashFn) (path : Bytes32) (a b : Node) :
    Res.Safe (Node.createNodeOnPath q H path.val a b) (Node.createNodeOnPath p H path.val a b) := by
  unfold Node.createNodeOnPath
  split
  · refine (commonPathLength_safe h _ _).bind fun d => ?_
    by_cases hd : d ≤ Node.maxHeight
    · exact Res.Safe.bind (.inr (usizeSub_eq hd)) fun _ => .refl _
    · left
      have hn : getInstruction path.val d = none := getInstruction_none (by unfold Node.maxHeight at hd; omega)
      unfold usizeSub
      rw [if_neg hd, hn]
      by_cases hc : q.overflowChecks = true
      · rw [if_pos hc]; exact ⟨_, rfl⟩
      · rw [if_neg hc]; exact ⟨_, rfl⟩
  · refine (u32Add_safe h _ _).bind fun d => ?_
    by_cases hd : d ≤ Node.maxHeight
    · exact Res.Safe.bind (.inr (usizeSub_eq hd)) fun _ => .refl _
    · left
      rw [show Node.maxHeight = 256 from rfl] at *
      rcases usizeSub_wrap q hd with ⟨_, hq⟩ | ⟨_, o, hq, ho⟩
      · rw [hq]; exact ⟨_, rfl⟩
      · rw [hq]
        refine ⟨.unwrapNone, ?_⟩
        show (runwrap (getInstruction path.val o) >>= _) = _
        rw [getInstruction_none ho]
        rfl

theorem mergeNode_safe (H : HashFn) (path : Bytes32) (a b : Node) :
    Exec.Safe (mergeNode q H path.val a b : TreeM E Node) (mergeNode p H path.val a b) :=
  (Exec.Safe.lift (createNodeOnPath_safe h H path a b)).bind fun _ => .refl _

theorem mergeNodes_safe (H : HashFn) (path : Bytes32) (l : List Node) : ∀ c,
    Exec.Safe (mergeNodes q H path.val c l : TreeM E Node) (mergeNodes p H path.val c l) := by
  induction l with
  | nil => intro c; exact .refl _
  | cons x l ih => intro c; exact (mergeNode_safe h H _ _ _).bind fun _ => ih _

theorem updateWithPathSet_safe (H : HashFn) (n : Node) (ps ss : List Node) :
    Exec.Safe (updateWithPathSet q H n ps ss : TreeM E Unit) (updateWithPathSet p H n ps ss) := by
  unfold updateWithPathSet
  refine (Exec.Safe.refl _).bind fun path => ?_
  cases ps with
  | nil => exact .refl _
  | cons a l =>
    refine (Exec.Safe.refl _).bind fun rk => (Exec.Safe.refl _).bind fun ak => Exec.Safe.bind ?_ fun c =>
      (mergeNodes_safe h H _ _ _).bind fun _ => setRootNode_safe h _
    split
    · refine Exec.Safe.bind ?_ fun c => (Exec.Safe.lift (commonPathLength_safe h _ _)).bind fun d => mergeNodes_safe h H _ _ _
      split
      · exact .refl _
      · exact mergeNode_safe h H _ _ _
    · exact .refl _

theorem deleteWithPathSet_safe (H : HashFn) (n : Node) (ps ss : List Node) :
    Exec.Safe (deleteWithPathSet q H n ps ss : TreeM E Unit) (deleteWithPathSet p H n ps ss) := by
  unfold deleteWithPathSet
  refine (Exec.Safe.refl _).bind fun _ => (Exec.Safe.refl _).bind fun path => Exec.Safe.bind ?_ fun c =>
    (mergeNodes_safe h H _ _ _).bind fun _ => setRootNode_safe h _
  cases ss with
  | nil => exact .refl _
  | cons a l =>
    simp only []
    split
    · rcases findNonPlaceholder l with ⟨_ | s, r⟩
      · exact .refl _
      · exact (mergeNode_safe h H _ _ _).bind fun _ => .refl _
    · exact .refl _

theorem delete_safe (H : HashFn) (k : Bytes32) : Exec.Safe (delete q H k : TreeM E Unit) (delete p H k) := by
  unfold delete
  refine (Exec.Safe.refl _).bind fun t => ?_
  split
  · exact .refl _
  · refine (Exec.Safe.refl _).bind fun o => ?_
    cases o with
    | none => exact .refl _
    | some r =>
      simp only []
      cases Node.ofPrim r with
      | error e => exact .refl _
      | ok n => exact (pathSet_safe h _).bind fun _ => deleteWithPathSet_safe h H _ _ _

theorem update_safe (H : HashFn) (k : Bytes32) (d : Bytes) : Exec.Safe (update q H k d : TreeM E Unit) (update p H k d) := by
  unfold update
  split
  · exact delete_safe h H k
  · refine (Exec.Safe.refl _).bind fun _ => (Exec.Safe.refl _).bind fun _ => (Exec.Safe.refl _).bind fun _ =>
      (Exec.Safe.refl _).bind fun t => ?_
    split
    · exact setRootNode_safe h _
    · exact (pathSet_safe h _).bind fun _ => updateWithPathSet_safe h H _ _ _

end Sparse

namespace Verify

theorem loop_safe (H : HashFn) (ps : List Bytes32) (i n : Nat) (f : Nat) : ∀ st, Res.Safe (loop q H ps i n f st) (loop p H ps i n f st) := by
  induction f with
  | zero => intro st; exact .refl _
  | succ f ih =>
    intro st
    unfold loop
    refine (u64Shl1_safe h _).bind fun w => (u64Mul_safe h _ _).bind fun _ => (u64Add_safe h _ _).bind fun _ =>
      (u64Sub_safe h _ _).bind fun _ => ?_
    split
    · exact .refl _
    · cases ps[st.height]? with
      | none => exact .refl _
      | some x => exact (u64Sub_safe h _ _).bind fun _ => (u64Shl1_safe h _).bind fun _ => ih _

theorem verify_safe (H : HashFn) (r : Bytes32) (ps : List Bytes32) (i n : Nat) :
    Res.Safe (verify q H r ps i n) (verify p H r ps i n) := by
  unfold verify
  split
  · exact .refl _
  · cases ps with
    | nil => exact .refl _
    | cons a l =>
      refine (loop_safe h H _ _ _ _ _).bind fun o => ?_
      cases o with
      | none => exact .refl _
      | some st => exact (u64Sub_safe h _ _).bind fun _ => .refl _

end Verify

namespace Reference

theorem join_safe (H : HashFn) (a b : RNode) : Res.Safe (join q H a b) (join p H a b) :=
  (u32Add_safe h _ _).bind fun _ => .refl _

theorem rootLoop_safe (H : HashFn) (l : List RNode) : ∀ c, Res.Safe (rootLoop q H c l) (rootLoop p H c l) := by
  induction l with
  | nil => intro c; exact .refl _
  | cons x l ih => intro c; exact (join_safe h H _ _).bind fun _ => ih _

theorem root_safe (H : HashFn) (t : Tree) : Res.Safe (t.root q H) (t.root p H) := by
  unfold Tree.root
  cases t.head with
  | nil => exact .refl _
  | cons x l => exact (rootLoop_safe h H _ _).bind fun _ => .refl _

theorem joinAll_safe (H : HashFn) (n i : Nat) (l : List RNode) : ∀ c ps, Res.Safe (joinAll q H n i c l ps) (joinAll p H n i c l ps) := by
  induction l with
  | nil => intro c ps; exact .refl _
  | cons x l ih =>
    intro c ps
    unfold joinAll
    split
    · refine (u32Add_safe h _ _).bind fun _ => Res.Safe.bind ?_ fun _ => (join_safe h H _ _).bind fun _ => ih _ _
      split
      · exact (u64Shl1_safe h _).bind fun _ => (u64Mul_safe h _ _).bind fun _ => .refl _
      · exact .refl _
    · exact .refl _

theorem push_safe (H : HashFn) (t : Tree) (d : Bytes) : Res.Safe (t.push q H d) (t.push p H d) :=
  (joinAll_safe h H _ _ _ _ _).bind fun _ => (u64Add_safe h _ _).bind fun _ => .refl _

theorem proveJoin_safe (H : HashFn) (m : Nat) (l : List RNode) : ∀ c, Res.Safe (proveJoin q H m c l) (proveJoin p H m c l) := by
  induction l with
  | nil => intro c; exact .refl _
  | cons x l ih =>
    intro c
    unfold proveJoin
    split
    · exact (join_safe h H _ _).bind fun _ => ih _
    · exact .refl _

theorem prove_safe (H : HashFn) (t : Tree) : Res.Safe (t.prove q H) (t.prove p H) := by
  unfold Tree.prove
  refine (root_safe h H t).bind fun r => ?_
  split
  · exact .refl _
  · exact .refl _
  · exact (proveJoin_safe h H _ _ _).bind fun _ => .refl _

end Reference
end
/-- A debug build has all the checks. -/
theorem debug_stricter (p : Profile) : Stricter ⟨true, true, .w64⟩ p := ⟨fun _ => rfl, fun _ => rfl⟩

theorem Binary.pushAll_safe {E : Type} {q p : Profile} (h : Stricter q p) (H : HashFn) (ds : List Bytes) : Exec.Safe (pushAll q H ds : TreeM E Unit) (pushAll p H ds) := by
  induction ds with
  | nil => exact .refl _
  | cons d ds ih => exact (push_safe h H d).bind fun _ => ih

theorem Sparse.Op.run_safe {E : Type} {q p : Profile} (h : Stricter q p) (H : HashFn) (op : Op) : Exec.Safe (op.run q H : TreeM E Unit) (op.run p H) := by
  cases op with
  | update k d => exact update_safe h H k d
  | delete k => exact delete_safe h H k

theorem Sparse.runAll_safe {E : Type} {q p : Profile} (h : Stricter q p) (H : HashFn) (ops : List Op) : Exec.Safe (runAll q H ops : TreeM E Unit) (runAll p H ops) := by
  induction ops with
  | nil => exact .refl _
  | cons op ops ih => exact (op.run_safe h H).bind fun _ => ih

theorem Binary.load_transfer {E : Type} {q p : Profile} (h : Stricter q p) {s s' : BStore E} {n : Nat} {t : Tree E}
    (hl : Tree.load q s n = (.ok t, s')) : Tree.load p s n = (.ok t, s') := by
  unfold Tree.load at hl ⊢
  simp only [] at hl ⊢
  rcases build_safe h (⟨s, [], n⟩ : Tree E) with ⟨x, t', e⟩ | e
  · rw [e] at hl
    cases hl
  · rw [← e, hl]

end FuelMerkle
