import Verif.Props.Position
import Verif.Proofs.Counts
import Verif.Proofs.ProofSize
import Verif.Proofs.BinaryTops
import Verif.Proofs.SumMachine

/-
How many nodes a tree keeps in memory.
-/
namespace FuelMerkle
open Spec Props

/-! ### Positions -/

theorem height_le_64 (x : Position) (hx : x.index < 2 ^ 64) : x.height ≤ 64 := by
  have h := Nat.le_of_dvd (by omega) (C18_height x hx).1
  exact (Nat.pow_le_pow_iff_right (by omega : 1 < 2)).1 (Nat.le_trans h (by omega : x.index + 1 ≤ 2 ^ 64))

/-- The parent is one higher, in every build profile, unless the height is the largest one. -/
theorem parent_higher (p : Profile) (x y : Position) (hx : x.index < 2 ^ 64) (h : x.parent p = .ok y) :
    y.index < 2 ^ 64 ∧ (y.height = x.height + 1 ∨ x.height = 64) := by
  have key : ∀ z : Position, (∀ b d w, (z.parent ⟨b, d, w⟩).toOption.all fun y => decide (y.index < 2 ^ 64 ∧ (y.height = z.height + 1 ∨ z.height = 64))) →
      z.parent p = .ok y → y.index < 2 ^ 64 ∧ (y.height = z.height + 1 ∨ z.height = 64) := by
    intro z hz h
    have := hz p.1 p.2 p.3
    rw [show (⟨p.1, p.2, p.3⟩ : Profile) = p from rfl, h] at this
    simpa [Except.toOption] using this
  rcases cases_high x hx with hh | rfl | rfl | rfl | rfl
  · obtain ⟨z, h1, h2, h3, _⟩ := C19_child_of_parent p x hx hh
    rw [h1] at h
    cases h
    exact ⟨h2, .inl h3⟩
  all_goals
    refine key _ (fun b d w => ?_) h
    cases b <;> cases d <;> cases w <;> decide +kernel

theorem leaf_height (p : Profile) (i : Nat) (x : Position) (h : Position.fromLeafIndex p i = .ok x) :
    x.index < 2 ^ 64 ∧ x.height = 0 := by
  have e : ∃ j, j < 2 ^ 63 ∧ x = ⟨2 * j⟩ := by
    unfold Position.fromLeafIndex u64Mul at h
    split at h
    · cases h; exact ⟨i, by omega, by rw [Nat.mul_comm]⟩
    · split at h
      · cases h
      · cases h; exact ⟨(i * 2) % 2 ^ 64 / 2, by omega, by congr 1; omega⟩
  obtain ⟨j, hj, rfl⟩ := e
  refine ⟨by simp only; omega, ?_⟩
  have := (C18_height ⟨2 * j⟩ (by simp only; omega)).1
  by_contra hne
  have h2 : (2 : Nat) ∣ 2 * j + 1 := Nat.dvd_trans (dvd_pow_self 2 hne) this
  omega

namespace Binary
variable {E : Type}

/-- The nodes have positions that fit, and the first of them are higher and higher; the others are the last ones of `old`. -/
def Piled (old head : List Node) : Prop :=
  ∃ new rest, head = new ++ rest ∧ rest <:+ old ∧ (new.map fun n => n.position.height).Pairwise (· < ·) ∧
    ∀ n ∈ head, n.position.index < 2 ^ 64

theorem Piled.nil (old : List Node) : Piled old [] := ⟨[], [], rfl, List.nil_suffix, List.Pairwise.nil, by simp⟩

theorem Piled.self {old : List Node} (h : ∀ n ∈ old, n.position.index < 2 ^ 64) : Piled old old :=
  ⟨[], old, rfl, List.suffix_refl _, List.Pairwise.nil, h⟩

theorem pairwise_length : ∀ (l : List Nat) (a b : Nat), l.Pairwise (· < ·) → (∀ x ∈ l, a ≤ x ∧ x < b) → l.length ≤ b - a := by
  intro l
  induction l with
  | nil => intro a b _ _; simp
  | cons x l ih =>
    intro a b h hb
    rw [List.pairwise_cons] at h
    have := ih (x + 1) b h.2 fun y hy => ⟨h.1 y hy, (hb y (by simp [hy])).2⟩
    have := hb x (by simp)
    rw [List.length_cons]
    omega

theorem Piled.length {old head : List Node} (h : Piled old head) : head.length ≤ old.length + 65 := by
  obtain ⟨new, rest, rfl, h1, h2, h3⟩ := h
  have := pairwise_length _ 0 65 h2 (by
    intro x hx
    obtain ⟨n, hn, rfl⟩ := List.mem_map.1 hx
    have := height_le_64 n.position (h3 n (by simp [hn]))
    omega)
  rw [List.length_map] at this
  have := h1.length_le
  rw [List.length_append]
  omega

theorem onStorage_head {α : Type} (f : BStore E → Except E α × BStore E) (t : Tree E) : (onStorage f t).2.head = t.head := by
  unfold onStorage
  split <;> rfl

theorem joinAllLoop_piled (p : Profile) (H : HashFn) (old : List Node) : ∀ (l new rest : List Node) (current : Node) (t : Tree E),
    l = new ++ rest → rest <:+ old → (new.map fun n => n.position.height).Pairwise (· < ·) →
    (∀ n ∈ l, n.position.index < 2 ^ 64) → current.position.index < 2 ^ 64 → (∀ n ∈ new, current.position.height ≤ n.position.height) →
    t.head = current :: l → Piled old (joinAllLoop p H current l t).2.head := by
  intro l
  induction l with
  | nil =>
    intro new rest current t hl h1 h2 h3 h4 h5 ht
    obtain ⟨rfl, rfl⟩ := List.append_eq_nil_iff.1 hl.symm
    show Piled old t.head
    rw [ht]
    exact ⟨[current], [], rfl, h1, List.pairwise_singleton _ _, by simpa using h4⟩
  | cons next tail ih =>
    intro new rest current t hl h1 h2 h3 h4 h5 ht
    unfold joinAllLoop
    by_cases he : current.position.height = next.position.height
    · rw [if_pos he, Exec.modify_bind]
      cases hj : joinNodes p H next current with
      | error q => exact .nil _
      | ok joined =>
        rw [Exec.liftRes_ok_bind, Exec.bind_apply]
        rcases hi : onStorage (Store.insert joined.key joined.toPrim) { t with head := [] } with ⟨e | u, t1⟩
        · have := onStorage_head (Store.insert joined.key joined.toPrim) { t with head := [] }
          rw [hi] at this
          simp only at this ⊢
          rw [this]
          exact .nil _
        · simp only
          rw [Exec.modify_bind]
          have hp : next.position.parent p = .ok joined.position := by
            unfold joinNodes Node.createNode at hj
            cases hq : next.position.parent p with
            | error q => rw [hq] at hj; cases hj
            | ok y => rw [hq] at hj; cases hj; rfl
          obtain ⟨g1, g2⟩ := parent_higher p _ _ (h3 next (by simp)) hp
          cases new with
          | nil =>
            rw [List.nil_append] at hl
            subst hl
            exact ih [] tail joined _ rfl ((List.suffix_cons _ _).trans h1) List.Pairwise.nil (fun n hn => h3 n (by simp [hn])) g1
              (fun _ h => by cases h) rfl
          | cons x new =>
            rw [List.cons_append, List.cons.injEq] at hl
            obtain ⟨rfl, hl⟩ := hl
            rw [List.map_cons, List.pairwise_cons] at h2
            refine ih new rest joined _ hl h1 h2.2 (fun n hn => h3 n (by simp [hn])) g1 (fun n hn => ?_) rfl
            have a := h2.1 _ (List.mem_map.2 ⟨n, hn, rfl⟩)
            have b := height_le_64 n.position (h3 n (by simp [hl, hn]))
            omega
    · rw [if_neg he]
      show Piled old t.head
      rw [ht]
      refine ⟨current :: new, rest, by rw [hl]; rfl, h1, ?_, fun n hn => ?_⟩
      · rw [List.map_cons, List.pairwise_cons]
        refine ⟨fun y hy => ?_, h2⟩
        obtain ⟨n, hn, rfl⟩ := List.mem_map.1 hy
        cases new with
        | nil => cases hn
        | cons x new =>
          rw [List.cons_append, List.cons.injEq] at hl
          obtain ⟨rfl, hl⟩ := hl
          rw [List.map_cons, List.pairwise_cons] at h2
          have a := h5 next (by simp)
          rcases List.mem_cons.1 hn with rfl | hn
          · omega
          · have := h2.1 _ (List.mem_map.2 ⟨n, hn, rfl⟩)
            omega
      · rcases List.mem_cons.1 hn with rfl | hn
        · exact h4
        · exact h3 n hn

theorem push_piled (p : Profile) (H : HashFn) (d : Bytes) (old : List Node) (t : Tree E) (h : Piled old t.head) :
    Piled old (push p H d t).2.head := by
  unfold push
  rw [Exec.get_bind]
  cases hl : Node.createLeaf p H t.leavesCount d with
  | error q => exact h
  | ok node =>
    rw [Exec.liftRes_ok_bind, Exec.bind_apply]
    have hh := onStorage_head (Store.insert node.key node.toPrim) t
    rcases hi : onStorage (Store.insert node.key node.toPrim) t with ⟨e | u, t1⟩
    · rw [hi] at hh
      simp only at hh ⊢
      rw [hh]; exact h
    · rw [hi] at hh
      simp only at hh ⊢
      rw [Exec.modify_bind, Exec.bind_apply]
      have hp : Position.fromLeafIndex p t.leavesCount = .ok node.position := by
        unfold Node.createLeaf at hl
        cases hq : Position.fromLeafIndex p t.leavesCount with
        | error q => rw [hq] at hl; cases hl
        | ok y => rw [hq] at hl; cases hl; rfl
      obtain ⟨g1, g2⟩ := leaf_height p _ _ hp
      obtain ⟨new, rest, q1, q2, q3, q4⟩ := h
      have key : Piled old (joinAllSubtrees p H { t1 with head := node :: t1.head }).2.head := by
        unfold joinAllSubtrees
        rw [Exec.get_bind]
        simp only
        rw [hh]
        exact joinAllLoop_piled p H old t.head new rest node _ q1 q2 q3 q4 g1 (fun n _ => by omega) rfl
      rcases hq : joinAllSubtrees p H { t1 with head := node :: t1.head } with ⟨e | v, t2⟩
      · rw [hq] at key; exact key
      · rw [hq] at key
        simp only at key ⊢
        rw [Exec.get_bind]
        cases u64Add p t2.leavesCount 1 with
        | error q => exact key
        | ok n => exact key

/-- The computation leaves the nodes of the tree as they are. -/
def Keeps {α : Type} (m : TreeM E α) : Prop := ∀ t, (m t).2.head = t.head

theorem Keeps.bind {α β : Type} {m : TreeM E α} {f : α → TreeM E β} (h : Keeps m) (hf : ∀ a, Keeps (f a)) : Keeps (m >>= f) := by
  intro t
  rw [Exec.bind_apply]
  have := h t
  rcases hm : m t with ⟨e | a, t1⟩
  · rw [hm] at this; exact this
  · rw [hm] at this; exact (hf a t1).trans this

theorem Keeps.lift {α : Type} (r : Res α) : Keeps (Exec.liftRes r : TreeM E α) := by
  intro t
  cases r <;> rfl

theorem proveSides_head (scratch : Scratch) : ∀ (l : List Position), Keeps (proveSides scratch l : TreeM E _) := by
  intro l
  induction l with
  | nil => intro t; rfl
  | cons x l ih =>
    unfold proveSides
    refine Keeps.bind (onStorage_head _) fun o => ?_
    split
    · intro t; rfl
    · exact ih.bind fun _ t => rfl

theorem prove_head (p : Profile) (H : HashFn) (i : Nat) : Keeps (prove p H i : TreeM E _) := by
  unfold prove
  refine Keeps.bind (fun t => rfl) fun t => (Keeps.lift _).bind fun next => ?_
  split
  · intro t; rfl
  · refine (Keeps.lift _).bind fun _ => (Keeps.lift _).bind fun _ => Keeps.bind (onStorage_head _) fun o => ?_
    cases o with
    | none => intro t; rfl
    | some q =>
      exact (Keeps.lift _).bind fun _ => (Keeps.lift _).bind fun _ => (Keeps.lift _).bind fun _ =>
        (proveSides_head _ _).bind fun _ t => rfl

theorem run_piled (p : Profile) (H : HashFn) (old : List Node) : ∀ (ops : List Op) (t : Tree E), Piled old t.head →
    Piled old (run p H ops t).2.head := by
  intro ops
  induction ops with
  | nil => intro t h; exact h
  | cons op ops ih =>
    intro t h
    refine ih (step p H op t).2 ?_
    cases op with
    | push d => exact push_piled p H d old t h
    | root => exact h
    | prove i =>
      have := prove_head p H i t
      show Piled old (prove p H i t).2.head
      rw [this]; exact h

/-! ### Loading -/

theorem buildLoop_head : ∀ (l : List Position) (t t' : Tree E) (cur l' : List Node), buildLoop l cur t = (.ok l', t') →
    l'.length = cur.length + l.length ∧ t'.storage.map = t.storage.map ∧
      ((∀ k q, t.storage.map k = some q → q.1 < 2 ^ 64) → (∀ n ∈ cur, n.position.index < 2 ^ 64) → ∀ n ∈ l', n.position.index < 2 ^ 64) := by
  intro l
  induction l with
  | nil => intro t t' cur l' h; cases h; exact ⟨rfl, rfl, fun _ h => h⟩
  | cons x l ih =>
    intro t t' cur l' h
    unfold buildLoop at h
    simp only at h
    obtain ⟨o, t1, h1, h⟩ := bind_inv h
    cases o with
    | none => cases h
    | some q =>
      simp only at h
      obtain ⟨g1, g2, g3⟩ := ih _ _ _ _ h
      have e : t.storage.map x.inOrderIndex = some q ∧ t1.storage.map = t.storage.map := by
        unfold onStorage Store.get at h1
        cases hs : t.storage.sched t.storage.clock with
        | none =>
          rw [hs, Prod.mk.injEq, Except.ok.injEq] at h1
          exact ⟨h1.1, by rw [← h1.2]⟩
        | some f => rw [hs] at h1; cases h1
      refine ⟨by rw [g1, List.length_cons, List.length_cons]; omega, by rw [g2, e.2], fun a b => ?_⟩
      refine g3 (by rw [e.2]; exact a) fun n hn => ?_
      rcases List.mem_cons.1 hn with rfl | hn
      · exact a _ _ e.1
      · exact b n hn

theorem load_head (p : Profile) (s s' : BStore E) (n : Nat) (hn : n < p.leafLimit) (t : Tree E) (h : Tree.load p s n = (.ok t, s')) :
    t.head.length = popcount n ∧ ((∀ k q, s.map k = some q → q.1 < 2 ^ 64) → ∀ x ∈ t.head, x.position.index < 2 ^ 64) := by
  have hlim := p.leafLimit_le
  unfold Tree.load at h
  simp only at h
  rcases hb : build p (⟨s, [], n⟩ : Tree E) with ⟨e | u, t1⟩
  · rw [hb] at h; cases h
  · rw [hb] at h
    cases h
    unfold build at hb
    rw [Exec.get_bind, peakPositions_spec p hn, Exec.liftRes_ok_bind] at hb
    obtain ⟨l, t2, h2, hb⟩ := bind_inv hb
    obtain ⟨g1, g2, g3⟩ := buildLoop_head _ _ _ _ _ h2
    cases hb
    refine ⟨?_, fun a => g3 a (by simp)⟩
    show l.length = _
    rw [g1, List.length_map, peakRanges_eq (by omega), peaks_length, Nat.mod_eq_of_lt (by omega), List.length_nil, Nat.zero_add]

/-! ### Scratch storage -/

theorem buildRootNode_few (p : Profile) (H : HashFn) : ∀ (l : List Node) (c : Node) (S : Scratch) (r : Node × Scratch),
    buildRootNode p H c l S = .ok r → ∃ ks : List Nat, ks.length = l.length ∧ ∀ k, k ∉ ks → r.2 k = S k := by
  intro l
  induction l with
  | nil => intro c S r h; cases h; exact ⟨[], rfl, fun _ _ => rfl⟩
  | cons x l ih =>
    intro c S r h
    unfold buildRootNode at h
    cases hj : joinNodes p H x c with
    | error q => rw [hj] at h; cases h
    | ok j =>
      rw [hj] at h
      obtain ⟨ks, h1, h2⟩ := ih _ _ _ h
      refine ⟨j.key :: ks, by rw [List.length_cons, List.length_cons, h1], fun k hk => ?_⟩
      rw [List.mem_cons, not_or] at hk
      rw [h2 k hk.2, Store.upd, if_neg hk.1]

theorem rootNode_few (p : Profile) (H : HashFn) (head : List Node) (r : Option Node × Scratch)
    (h : rootNode p H head (fun _ => none) = .ok r) : ∃ ks : List Nat, ks.length = head.length - 1 ∧ ∀ k, k ∉ ks → r.2 k = none := by
  cases head with
  | nil => cases h; exact ⟨[], rfl, fun _ _ => rfl⟩
  | cons c l =>
    unfold rootNode at h
    simp only at h
    cases hb : buildRootNode p H c l (fun _ => none) with
    | error q => rw [hb] at h; cases h
    | ok x =>
      rw [hb] at h
      cases h
      obtain ⟨ks, h1, h2⟩ := buildRootNode_few p H l c _ _ hb
      exact ⟨ks, by rw [h1, List.length_cons, Nat.add_sub_cancel], h2⟩

/-! ### Records that name their keys -/

theorem lens_length : ∀ {l : List Nat} {k : Nat}, Lens k l → 2 ^ k * 2 ^ l.length ≤ l.sum + 2 ^ k := by
  intro l
  induction l with
  | nil => intro k _; simp
  | cons a l ih =>
    rintro k ⟨g, h1, rfl, h3⟩
    have h4 := ih h3
    have h5 : 2 ^ k * 2 ^ (l.length + 1) ≤ 2 ^ g * 2 ^ (l.length + 1) := Nat.mul_le_mul_right _ (Nat.pow_le_pow_right (by omega) h1)
    have h6 : 2 ^ k ≤ 2 ^ g := Nat.pow_le_pow_right (by omega) h1
    rw [List.sum_cons, List.length_cons]
    rw [Nat.pow_succ 2 g, Nat.mul_assoc, ← Nat.pow_succ', Nat.succ_eq_add_one] at h4
    rcases Nat.eq_or_lt_of_le h1 with rfl | hlt
    · omega
    · have h7 : 2 ^ k * 2 ^ (l.length + 1) * 2 ≤ 2 ^ g * 2 ^ (l.length + 1) := by
        rw [Nat.mul_right_comm, ← Nat.pow_succ]
        exact Nat.mul_le_mul_right _ (Nat.pow_le_pow_right (by omega) hlt)
      have h8 : 2 ^ k * 2 ≤ 2 ^ k * 2 ^ (l.length + 1) := Nat.mul_le_mul_left _ (by rw [Nat.pow_succ]; have := Nat.two_pow_pos l.length; omega)
      have h9 : 2 ^ (k + 1) ≤ 2 ^ g := Nat.pow_le_pow_right (by omega) hlt
      rw [Nat.pow_succ] at h9
      omega

theorem topNodes_length (o : Nat) (l : List (Nat × Bytes32)) : (topNodes o l).length = l.length := by
  induction l with
  | nil => rfl
  | cons x l ih => rw [topNodes, List.length_cons, List.length_cons, ih]

theorem HoldsTops.length {head : List Node} {n : Nat} {l : List (Nat × Bytes32)} (h : HoldsTops head n l) : 2 ^ head.length ≤ n + 1 := by
  obtain ⟨o, rfl, rfl, h3⟩ := h
  have := lens_length h3
  rw [List.length_map] at this
  rw [topNodes_length]
  unfold total
  omega

end Binary

namespace Sum
variable {E : Type}

theorem machine_leaves_le (p : Profile) (H : HashFn) : ∀ (ops : List Op) (c : Machine E),
    (Machine.run p H ops c).2.leaves.length ≤ c.leaves.length + (pushed ops).length := by
  intro ops
  induction ops with
  | nil => intro c; simp [Machine.run, pushed]
  | cons op ops ih =>
    intro c
    have h := ih (c.step p H op).2
    have : (c.step p H op).2.leaves.length + (pushed ops).length ≤ c.leaves.length + (pushed (op :: ops)).length := by
      cases op with
      | push fee d =>
        have e : (pushed (Op.push fee d :: ops)).length = (pushed ops).length + 1 := by simp [pushed]
        rw [e]
        unfold Machine.step
        simp only
        split
        · simp only [List.length_append, List.length_singleton]; omega
        · split
          · simp only [List.length_nil]; omega
          · simp only; omega
      | root =>
        have e : pushed (Op.root :: ops) = pushed ops := by simp [pushed]
        rw [e]
        unfold Machine.step
        simp only
        split <;> simp
    exact Nat.le_trans h this

theorem inOrder_length (l : List (List Item)) : (inOrder l).length = (l.map List.length).sum := by
  induction l with
  | nil => rfl
  | cons a l ih => rw [inOrder_cons, List.length_append, ih, List.map_cons, List.sum_cons, Nat.add_comm]

theorem Holds.length {p : Profile} {H : HashFn} {head : List Node} {ds : List Item} (h : Holds p H head ds) :
    2 ^ head.length ≤ ds.length + 1 := by
  obtain ⟨l, rfl, rfl, h3⟩ := h
  have := Binary.lens_length h3.1
  rw [List.length_map] at this
  rw [List.length_map, inOrder_length]
  omega

end Sum
end FuelMerkle
