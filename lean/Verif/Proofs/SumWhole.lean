import Verif.Proofs.SumMachine
import Verif.Spec.SumWhole

/-
Children are written before parents, and what is found in storage is whole.
-/
namespace FuelMerkle
namespace Sum
open Spec
variable {E : Type}

/-- What the calls keep: no node misses a child, and no record has been removed. -/
structure Step (m m' : Bytes32 → Option Node) : Prop where
  linked : Linked m → Linked m'
  keeps : ∀ k, m k ≠ none → m' k ≠ none

theorem Step.refl (m : Bytes32 → Option Node) : Step m m := ⟨id, fun _ => id⟩

theorem Step.trans {a b c : Bytes32 → Option Node} (h : Step a b) (g : Step b c) : Step a c :=
  ⟨fun x => g.linked (h.linked x), fun k x => g.keeps k (h.keeps k x)⟩

theorem step_upd {m : Bytes32 → Option Node} {n : Node} (hl : ∀ l, n.leftChildKey = some l → m l ≠ none)
    (hr : ∀ r, n.rightChildKey = some r → m r ≠ none) : Step m (Store.upd m n.hash (some n)) := by
  have hk : ∀ k, m k ≠ none → Store.upd m n.hash (some n) k ≠ none := by
    intro k h
    unfold Store.upd
    split
    · simp
    · exact h
  refine ⟨fun h k x hx => ?_, hk⟩
  unfold Store.upd at hx
  split at hx
  · cases hx
    exact ⟨fun l e => hk l (hl l e), fun r e => hk r (hr r e)⟩
  · exact ⟨fun l e => hk l ((h k x hx).1 l e), fun r e => hk r ((h k x hx).2 r e)⟩

theorem step_wrote {s : SStore E} {n : Node} (hl : ∀ l, n.leftChildKey = some l → s.map l ≠ none)
    (hr : ∀ r, n.rightChildKey = some r → s.map r ≠ none) : Step s.map (wrote s n).map := by
  unfold wrote
  simp only
  split
  · exact step_upd hl hr
  · split
    · exact step_upd hl hr
    · exact .refl _

theorem wrote_there {s : SStore E} (n : Node) (h : s.sched s.clock = none) : (wrote s n).map n.hash ≠ none := by
  unfold wrote
  simp [h, Store.upd]

/-- A call, of which the tree it returns has all its subtrees in storage. -/
theorem join_step (p : Profile) (H : HashFn) (lhs rhs : Node) (t : Tree E) (h1 : t.storage.map lhs.hash ≠ none) (h2 : t.storage.map rhs.hash ≠ none) :
    Step t.storage.map (joinSubtrees p H lhs rhs t).2.storage.map ∧ (joinSubtrees p H lhs rhs t).2.head = t.head ∧
    ∀ n, (joinSubtrees p H lhs rhs t).1 = .ok n → (joinSubtrees p H lhs rhs t).2.storage.map n.hash ≠ none := by
  unfold joinSubtrees
  cases hu : u32Add p lhs.height 1 with
  | error e => exact ⟨.refl _, rfl, fun n h => by cases h⟩
  | ok height =>
    rw [Exec.liftRes_ok_bind]
    cases hc : Node.createNode p H height lhs.fee lhs.hash rhs.fee rhs.hash with
    | error e => exact ⟨.refl _, rfl, fun n h => by cases h⟩
    | ok j =>
      have hj : j.leftChildKey = some lhs.hash ∧ j.rightChildKey = some rhs.hash := by
        unfold Node.createNode at hc
        cases hf : u64Add p lhs.fee rhs.fee with
        | error e => rw [hf] at hc; cases hc
        | ok f => rw [hf] at hc; cases hc; exact ⟨rfl, rfl⟩
      rw [Exec.liftRes_ok_bind, Exec.bind_apply, onStorage_insert]
      have hw : Step t.storage.map (wrote t.storage j).map := step_wrote
        (fun l e => by rw [hj.1] at e; cases e; exact h1) (fun r e => by rw [hj.2] at e; cases e; exact h2)
      cases hs : t.storage.sched t.storage.clock with
      | some f => exact ⟨hw, rfl, fun n h => by cases h⟩
      | none =>
        refine ⟨hw, rfl, fun n h => ?_⟩
        cases h
        exact wrote_there j hs

theorem rootLoop_step (p : Profile) (H : HashFn) : ∀ (l : List Node) (n : Node) (t : Tree E), t.storage.map n.hash ≠ none →
    (∀ x ∈ l, t.storage.map x.hash ≠ none) →
    Step t.storage.map (rootLoop p H n l t).2.storage.map ∧ (rootLoop p H n l t).2.head = t.head ∧
    ∀ x, (rootLoop p H n l t).1 = .ok x → (rootLoop p H n l t).2.storage.map x.hash ≠ none := by
  intro l
  induction l with
  | nil => intro n t h _; exact ⟨.refl _, rfl, fun x hx => by cases hx; exact h⟩
  | cons a l ih =>
    intro n t h1 h2
    obtain ⟨g1, g2, g3⟩ := join_step p H a n t (h2 a (List.mem_cons_self ..)) h1
    rw [rootLoop, Exec.bind_apply]
    rcases hj : joinSubtrees p H a n t with ⟨_ | j, t'⟩
    · rw [hj] at g1 g2
      exact ⟨g1, g2, fun x hx => by cases hx⟩
    · rw [hj] at g1 g2 g3
      obtain ⟨i1, i2, i3⟩ := ih j t' (g3 j rfl) (fun x hx => g1.keeps _ (h2 x (List.mem_cons_of_mem _ hx)))
      exact ⟨g1.trans i1, i2.trans g2, i3⟩

/-- The records of the subtrees are in storage. -/
def HeadStored (t : Tree E) : Prop := ∀ x ∈ t.head, t.storage.map x.hash ≠ none

theorem root_step (p : Profile) (H : HashFn) (t : Tree E) (h : HeadStored t) :
    Step t.storage.map (root p H t).2.storage.map ∧ HeadStored (root p H t).2 ∧
    ∀ fee k, (root p H t).1 = .ok (fee, k) → (fee = 0 ∧ k = emptySum) ∨ (root p H t).2.storage.map k ≠ none := by
  unfold root
  rw [Exec.bind_apply]
  unfold rootNode
  rw [Exec.get_bind]
  obtain ⟨s, hd⟩ := t
  cases hd with
  | nil => exact ⟨.refl _, h, fun fee k e => by cases e; exact .inl ⟨rfl, rfl⟩⟩
  | cons n l =>
    obtain ⟨g1, g2, g3⟩ := rootLoop_step p H l n ⟨s, n :: l⟩ (h n (List.mem_cons_self ..)) (fun x hx => h x (List.mem_cons_of_mem _ hx))
    simp only
    rw [Exec.bind_apply]
    rcases hq : rootLoop p H n l ⟨s, n :: l⟩ with ⟨_ | x, t'⟩
    · rw [hq] at g1 g2
      exact ⟨g1, fun y hy => g1.keeps _ (h y (by simp only at g2; rwa [g2] at hy)), fun fee k e => by cases e⟩
    · rw [hq] at g1 g2 g3
      refine ⟨g1, fun y hy => g1.keeps _ (h y (by simp only at g2; exact g2 ▸ hy)), fun fee k e => ?_⟩
      cases e
      exact .inr (g3 x rfl)

theorem joinAllLoop_step (p : Profile) (H : HashFn) : ∀ (l : List Node) (n : Node) (t : Tree E), t.head = n :: l → HeadStored t →
    Step t.storage.map (joinAllLoop p H n l t).2.storage.map ∧ HeadStored (joinAllLoop p H n l t).2 := by
  intro l
  induction l with
  | nil => intro n t _ h; exact ⟨.refl _, h⟩
  | cons a l ih =>
    intro n t ht h
    rw [joinAllLoop]
    split
    · have hn := h n (by rw [ht]; exact List.mem_cons_self ..)
      have ha := h a (by rw [ht]; exact List.mem_cons_of_mem _ (List.mem_cons_self ..))
      have hl : ∀ x ∈ l, t.storage.map x.hash ≠ none := fun x hx => h x (by rw [ht]; exact List.mem_cons_of_mem _ (List.mem_cons_of_mem _ hx))
      rw [Exec.modify_bind, Exec.bind_apply]
      obtain ⟨g1, g2, g3⟩ := join_step p H a n { t with head := [] } ha hn
      rcases hj : joinSubtrees p H a n { t with head := [] } with ⟨_ | j, t'⟩
      · rw [hj] at g1 g2
        exact ⟨g1, fun y hy => by simp only at g2 hy; rw [g2] at hy; cases hy⟩
      · rw [hj] at g1 g2 g3
        simp only
        rw [Exec.modify_bind]
        obtain ⟨i1, i2⟩ := ih j { t' with head := j :: l } rfl (fun x hx => by
          rcases List.mem_cons.1 hx with rfl | hx
          · exact g3 _ rfl
          · exact g1.keeps _ (hl x hx))
        exact ⟨g1.trans i1, i2⟩
    · exact ⟨.refl _, h⟩

theorem push_step (p : Profile) (H : HashFn) (fee : Nat) (d : Bytes) (t : Tree E) (h : HeadStored t) :
    Step t.storage.map (push p H fee d t).2.storage.map ∧ HeadStored (push p H fee d t).2 := by
  unfold push
  rw [Exec.bind_apply, onStorage_insert]
  have hw : Step t.storage.map (wrote t.storage (Node.createLeaf H fee d)).map :=
    step_wrote (fun l e => by cases e) (fun r e => by cases e)
  cases hs : t.storage.sched t.storage.clock with
  | some f => exact ⟨hw, fun x hx => hw.keeps _ (h x hx)⟩
  | none =>
    simp only
    rw [Exec.modify_bind]
    obtain ⟨g1, g2⟩ := joinAllLoop_step p H t.head (Node.createLeaf H fee d)
      ⟨wrote t.storage (Node.createLeaf H fee d), Node.createLeaf H fee d :: t.head⟩ rfl (fun x hx => by
        rcases List.mem_cons.1 hx with rfl | hx
        · exact wrote_there _ hs
        · exact hw.keeps _ (h x hx))
    exact ⟨hw.trans g1, g2⟩

theorem run_step (p : Profile) (H : HashFn) : ∀ (ops : List Op) (t : Tree E), HeadStored t →
    Step t.storage.map (run p H ops t).2.storage.map ∧ HeadStored (run p H ops t).2 := by
  intro ops
  induction ops with
  | nil => intro t h; exact ⟨.refl _, h⟩
  | cons op ops ih =>
    intro t h
    have hs : Step t.storage.map (step p H op t).2.storage.map ∧ HeadStored (step p H op t).2 := by
      cases op with
      | push fee d => exact push_step p H fee d t h
      | root => exact ⟨(root_step p H t h).1, (root_step p H t h).2.1⟩
    obtain ⟨i1, i2⟩ := ih (step p H op t).2 hs.2
    exact ⟨hs.1.trans i1, i2⟩

theorem lives_step (p : Profile) (H : HashFn) : ∀ (zs : List (List Op)) (s : SStore E), Step s.map (lives p H zs s).map := by
  intro zs
  induction zs with
  | nil => intro s; exact .refl _
  | cons z zs ih =>
    intro s
    exact (run_step p H z (Tree.new s) (fun x hx => by cases hx)).1.trans (ih _)

theorem lives_origin (p : Profile) (H : HashFn) : ∀ (zs : List (List Op)) (s : SStore E),
    (∀ z ∈ zs, (pushed z).length < 2 ^ 64 ∧ ∀ x ∈ pushed z, x.1 < 2 ^ 64) → ∀ k,
    (lives p H zs s).map k = s.map k ∨
    ∃ z ∈ zs, ∃ ds, ds.Sublist (pushed z) ∧ sumHash H ds = k ∧ (lives p H zs s).map k = some (recordOf H ds) := by
  intro zs
  induction zs with
  | nil => intro s _ k; exact .inl rfl
  | cons z zs ih =>
    intro s hz k
    have hz1 := hz z (List.mem_cons_self ..)
    have e := (run_exact p H z (Tree.new s) [] ⟨[], rfl, rfl, trivial, fun a ha => by cases ha⟩ (by simpa using hz1.1) hz1.2).1
    have e := (Prod.mk.inj e).2
    have ho := machine_origin p H z ⟨[], s⟩ k
    rcases ih (run p H z (Tree.new s)).2.storage (fun w hw => hz w (List.mem_cons_of_mem _ hw)) k with h | ⟨w, hw, ds, h1, h2, h3⟩
    · have h : (lives p H (z :: zs) s).map k = (run p H z (Tree.new s)).2.storage.map k := h
      rw [h, e]
      rcases ho with h | ⟨ds, h1, h2, h3⟩
      · exact .inl h
      · exact .inr ⟨z, List.mem_cons_self .., ds, by simpa using h1, h2, h3⟩
    · exact .inr ⟨w, List.mem_cons_of_mem _ hw, ds, h1, h2, h3⟩

/-- What is found is whole. -/
theorem found_whole (H : HashFn) (m : Bytes32 → Option Node) (P : List Item → Prop) (hP : ∀ ds, P ds → ∀ x ∈ ds, x.1 < 2 ^ 64)
    (hm : ∀ k, m k = none ∨ ∃ ds, P ds ∧ sumHash H ds = k ∧ m k = some (recordOf H ds)) (hl : Linked m) :
    ∀ (f : Nat) (ds : List Item), ds.length ≤ f → ds ≠ [] → (∀ x ∈ ds, x.1 < 2 ^ 64) → (∀ ds', P ds' → ¬ Collide H (sumMsgs H ds) (sumMsgs H ds')) →
    m (sumHash H ds) ≠ none → P ds ∧ m (sumHash H ds) = some (recordOf H ds) ∧
      walk m f (sumHash H ds) = some (ds.map fun x => (x.1, H ([0x00] ++ be64 x.1 ++ x.2))) := by
  intro f
  induction f with
  | zero => intro ds h0 hne; exact absurd (List.length_eq_zero_iff.1 (Nat.le_zero.1 h0)) hne
  | succ f ih =>
    intro ds hlen hne hf hc hfound
    have hrec : P ds ∧ m (sumHash H ds) = some (recordOf H ds) := by
      rcases hm (sumHash H ds) with h | ⟨ds', h1, h2, h3⟩
      · exact absurd h hfound
      · rcases sum_commits H _ ds ds' rfl hf (hP ds' h1) h2.symm with rfl | h
        · exact ⟨h1, h3⟩
        · exact absurd h (hc ds' h1)
    refine ⟨hrec.1, hrec.2, ?_⟩
    match ds, hlen, hne, hf, hc, hfound, hrec with
    | [x], _, _, hf, _, _, hrec =>
      have hx := hf x (by simp)
      have h0 : ¬ (1 : Nat) < 1 := by omega
      simp only [walk, hrec.2, recordOf, List.length_singleton, Nat.le_refl, if_true, total, List.map_cons, List.map_nil, List.sum_cons, List.sum_nil,
        Nat.add_zero, Nat.mod_eq_of_lt hx]
      rw [sumHash_single]
    | x :: y :: ds, hlen, _, hf, hc, _, hrec =>
      obtain ⟨a, b, e, hs, _⟩ := isSplit_of (D := x :: y :: ds) (by simp)
      rw [e] at hlen hf hc hrec ⊢
      have hsp := hs.split_eq
      have hpos : 0 < a.length ∧ 0 < b.length := by
        obtain ⟨h0, c, hc, _⟩ := hs
        have := Nat.two_pow_pos c
        omega
      rw [List.length_append] at hlen
      have hr : (recordOf H (a ++ b)).leftChildKey = some (sumHash H a) ∧ (recordOf H (a ++ b)).rightChildKey = some (sumHash H b) := by
        unfold recordOf
        simp only [if_neg (Nat.not_le.2 hsp.1), hsp.2, List.take_left, List.drop_left]
        exact ⟨trivial, trivial⟩
      obtain ⟨hla, hlb⟩ := hl _ _ hrec.2
      have hma : ∀ z ∈ sumMsgs H a, z ∈ sumMsgs H (a ++ b) := fun z hz => by rw [sumMsgs_append H hs]; simp [hz]
      have hmb : ∀ z ∈ sumMsgs H b, z ∈ sumMsgs H (a ++ b) := fun z hz => by rw [sumMsgs_append H hs]; simp [hz]
      obtain ⟨_, _, wa⟩ := ih a (by omega) (fun e => by rw [e] at hpos; simp at hpos) (fun z hz => hf z (by simp [hz]))
        (fun ds' h' h => hc ds' h' (collide_mono h hma (fun _ => id))) (hla _ hr.1)
      obtain ⟨_, _, wb⟩ := ih b (by omega) (fun e => by rw [e] at hpos; simp at hpos) (fun z hz => hf z (by simp [hz]))
        (fun ds' h' h => hc ds' h' (collide_mono h hmb (fun _ => id))) (hlb _ hr.2)
      simp only [walk, hrec.2, hr.1, hr.2, wa, wb]
      simp

theorem machine_leaves (p : Profile) (H : HashFn) : ∀ (ops : List Op) (c : Machine E),
    (Machine.run p H ops c).2.leaves.Sublist (c.leaves ++ pushed ops) := by
  intro ops
  induction ops with
  | nil => intro c; simp [Machine.run, pushed]
  | cons op ops ih =>
    intro c
    refine (ih (c.step p H op).2).trans ?_
    cases op with
    | push fee d =>
      have h : (c.step p H (.push fee d)).2.leaves.Sublist (c.leaves ++ [(fee, d)]) := by
        unfold Machine.step
        simp only
        split
        · exact List.Sublist.refl _
        · simp only
          split
          · exact List.nil_sublist _
          · exact List.sublist_append_left ..
      simpa [pushed] using h.append_right (pushed ops)
    | root =>
      have h : (c.step p H .root).2.leaves = c.leaves := by
        unfold Machine.step
        simp only
        split <;> rfl
      rw [h]
      exact List.Sublist.refl _

theorem run_snoc_root (p : Profile) (H : HashFn) : ∀ (ops : List Op) (t : Tree E),
    (run p H (ops ++ [.root]) t).2 = (root p H (run p H ops t).2).2 := by
  intro ops
  induction ops with
  | nil => intro t; rfl
  | cons op ops ih => intro t; exact ih _

theorem pushed_snoc_root : ∀ ops : List Op, pushed (ops ++ [.root]) = pushed ops
  | [] => rfl
  | .push fee d :: ops => by simp [pushed, pushed_snoc_root ops]
  | .root :: ops => by simp [pushed, pushed_snoc_root ops]

theorem root_value (p : Profile) (H : HashFn) (ops : List Op) (s : SStore E) (hn : (pushed ops).length < 2 ^ 64)
    (hf : ∀ x ∈ pushed ops, x.1 < 2 ^ 64) {fee : Nat} {k : Bytes32} (h : (root p H (run p H ops (Tree.new s)).2).1 = .ok (fee, k)) :
    ∃ ds, ds.Sublist (pushed ops) ∧ fee = total ds % 2 ^ 64 ∧ k = if ds = [] then emptySum else sumHash H ds := by
  obtain ⟨e, hh⟩ := run_exact p H ops (Tree.new s) [] ⟨[], rfl, rfl, trivial, fun a ha => by cases ha⟩ (by simpa using hn) hf
  have hsub := machine_leaves p H ops ⟨[], s⟩
  rw [List.nil_append] at hsub
  have hr := (Prod.mk.inj (root_exact p H _ hh (Nat.lt_of_le_of_lt hsub.length_le hn)).1).1
  rw [h] at hr
  unfold Machine.step at hr
  simp only at hr
  refine ⟨_, hsub, ?_⟩
  split at hr
  · cases hr; exact ⟨rfl, rfl⟩
  · cases hr

end Sum
end FuelMerkle
