import Verif.Proofs.Sum
import Verif.Proofs.Stretches
import Verif.Spec.SumMachine

/-
The sum tree is the machine of `Spec/SumMachine.lean`.
-/
namespace FuelMerkle
namespace Sum
open Spec
variable {E : Type}

/-- The fee of the leaves fits, if that is checked. -/
def Fee (p : Profile) (ds : List Item) : Prop := p.overflowChecks = true → total ds < 2 ^ 64

/-- Complete subtrees, the latest leaves first. -/
def Peaks (p : Profile) (k : Nat) (l : List (List Item)) : Prop := Lens k (l.map List.length) ∧ ∀ a ∈ l, Fee p a

/-! ### Records -/

theorem recordOf_height (H : HashFn) {ds : List Item} {k : Nat} (h : ds.length = 2 ^ k) : (recordOf H ds).height = k := by
  show (if ds.length ≤ 1 then 0 else Nat.log2 (ds.length - 1) + 1) = k
  rw [h]
  exact ceilLog2_two_pow k

theorem recordOf_leaf (H : HashFn) (x : Item) (hx : x.1 < 2 ^ 64) : Node.createLeaf H x.1 x.2 = recordOf H [x] := by
  unfold recordOf Node.createLeaf
  rw [sumHash_single]
  simp only [List.length_singleton, Nat.le_refl, if_true, total, List.map_cons, List.map_nil, List.sum_cons, List.sum_nil, Nat.add_zero,
    Nat.mod_eq_of_lt hx]
  rfl

theorem recordOf_node (H : HashFn) {a b : List Item} (hs : IsSplit a b) {k : Nat} (ha : a.length = 2 ^ k) :
    recordOf H (a ++ b) = ⟨k + 1, sumHash H (a ++ b), total (a ++ b) % 2 ^ 64, some (sumHash H a), some (sumHash H b)⟩ := by
  obtain ⟨h1, h2⟩ := hs.split_eq
  unfold recordOf
  simp only [if_neg (Nat.not_le.2 h1), h2, List.take_left, List.drop_left]
  congr 1
  have h3 : Nat.log2 ((a ++ b).length - 1) = k := by
    have : 2 ^ Nat.log2 ((a ++ b).length - 1) = 2 ^ k := by rw [← ha]; exact h2
    exact Nat.pow_right_injective (Nat.le_refl 2) this
  rw [h3]

/-- The program's results in terms of the machine's. -/
def outcome {α : Type} (t : Tree E) (a : α) : Except (Fail E) Unit × SStore E → Except (Fail E) α × Tree E
  | (.ok (), s) => (.ok a, { t with storage := s })
  | (.error e, s) => (.error e, { t with storage := s })

theorem writeAll_cons (p : Profile) (H : HashFn) (ds : List Item) (rest : List (List Item)) (s : SStore E) :
    writeAll p H (ds :: rest) s = match writeAll p H [ds] s with
      | (.ok (), s') => writeAll p H rest s'
      | (.error e, s') => (.error e, s') := by
  simp only [writeAll]
  split
  · rfl
  · cases s.sched s.clock <;> rfl

theorem writeAll_fee {p : Profile} {H : HashFn} {ds : List Item} {s s' : SStore E} (h : writeAll p H [ds] s = (.ok (), s')) : Fee p ds := by
  intro hp
  unfold writeAll at h
  split at h
  · cases h
  · rename_i h1
    exact Nat.lt_of_not_le fun h2 => h1 ⟨hp, h2⟩

theorem join_exact (p : Profile) (H : HashFn) {a b : List Item} {k : Nat} (hk : k < 64) (ha : a.length = 2 ^ k) (hs : IsSplit a b)
    (fa : Fee p a) (fb : Fee p b) (t : Tree E) :
    joinSubtrees p H (recordOf H a) (recordOf H b) t = outcome t (recordOf H (a ++ b)) (writeAll p H [a ++ b] t.storage) := by
  have e1 : u32Add p (recordOf H a).height 1 = .ok (k + 1) := by
    rw [recordOf_height H ha]
    unfold u32Add; rw [if_pos (by omega)]
  have ehash : nodeSum H (recordOf H a).fee (recordOf H a).hash.val (recordOf H b).fee (recordOf H b).hash.val = sumHash H (a ++ b) := by
    rw [sumHash_append H hs]
    unfold nodeSum sumNodeMsg
    rw [← be64_eq, ← be64_eq]
    show H (_ ++ be64 (total a % 2 ^ 64) ++ _ ++ be64 (total b % 2 ^ 64) ++ _) = _
    rw [be64_mod, be64_mod]
    rfl
  have etot := total_append a b
  unfold joinSubtrees
  rw [e1, Exec.liftRes_ok_bind]
  by_cases hov : p.overflowChecks = true ∧ 2 ^ 64 ≤ total (a ++ b)
  · have h1 := fa hov.1
    have h2 := fb hov.1
    have e2 : Node.createNode p H (k + 1) (recordOf H a).fee (recordOf H a).hash (recordOf H b).fee (recordOf H b).hash = .error .overflow := by
      unfold Node.createNode u64Add
      have : ¬ (total a % 2 ^ 64 + total b % 2 ^ 64 < 2 ^ 64) := by
        rw [Nat.mod_eq_of_lt h1, Nat.mod_eq_of_lt h2]; omega
      rw [if_neg (show ¬ ((recordOf H a).fee + (recordOf H b).fee < 2 ^ 64) from this), if_pos hov.1]
      rfl
    rw [e2]
    simp only [writeAll, if_pos hov]
    rfl
  · have e2 : Node.createNode p H (k + 1) (recordOf H a).fee (recordOf H a).hash (recordOf H b).fee (recordOf H b).hash =
        .ok (recordOf H (a ++ b)) := by
      unfold Node.createNode
      rw [ehash, recordOf_node H hs ha]
      have : u64Add p (recordOf H a).fee (recordOf H b).fee = .ok (total (a ++ b) % 2 ^ 64) := by
        show u64Add p (total a % 2 ^ 64) (total b % 2 ^ 64) = _
        unfold u64Add
        split
        · congr 1; omega
        · rename_i h
          have hp : ¬ p.overflowChecks = true := fun hp => by
            have h1 := fa hp
            have h2 := fb hp
            have : ¬ 2 ^ 64 ≤ total (a ++ b) := fun h3 => hov ⟨hp, h3⟩
            omega
          rw [if_neg hp]
          congr 1; omega
      rw [this]
      rfl
    rw [e2, Exec.liftRes_ok_bind, Exec.bind_apply, onStorage_insert]
    simp only [writeAll, if_neg hov]
    unfold wrote
    cases hsch : t.storage.sched t.storage.clock with
    | none => rfl
    | some f =>
      obtain ⟨e, ap⟩ := f
      cases ap <;> rfl

theorem rootLoop_exact (p : Profile) (H : HashFn) : ∀ (l : List (List Item)) (b : List Item) (k : Nat) (t : Tree E), 0 < b.length → b.length ≤ 2 ^ k →
    Peaks p k l → Fee p b → (inOrder l ++ b).length < 2 ^ 64 →
    rootLoop p H (recordOf H b) (l.map (recordOf H)) t = outcome t (recordOf H (inOrder l ++ b)) (writeAll p H (joins b l) t.storage) := by
  intro l
  induction l with
  | nil => intro b k t _ _ _ _ _; rfl
  | cons a l ih =>
    intro b k t hb hk hl hf hn
    obtain ⟨⟨g, h1, h2, h3⟩, hfl⟩ := hl
    have hfa := hfl a (List.mem_cons_self ..)
    rw [inOrder_cons, List.append_assoc] at hn ⊢
    have hle : 2 ^ k ≤ 2 ^ g := Nat.pow_le_pow_right (by omega) h1
    have hs : IsSplit a b := ⟨hb, g, h2, by omega⟩
    have hg : g < 64 := by
      have : 2 ^ g < 2 ^ 64 := by
        rw [List.length_append, List.length_append] at hn; omega
      exact (Nat.pow_lt_pow_iff_right (by omega)).1 this
    rw [List.map_cons, rootLoop, joins, writeAll_cons, Exec.bind_apply, join_exact p H hg h2 hs hfa hf]
    cases hw : writeAll p H [a ++ b] t.storage with
    | mk r s =>
      cases r with
      | error e => rfl
      | ok u =>
        simp only [outcome]
        rw [ih (a ++ b) (g + 1) _ (by rw [List.length_append]; omega) (by rw [List.length_append, Nat.pow_succ]; omega)
          ⟨h3, fun x hx => hfl x (List.mem_cons_of_mem _ hx)⟩ (writeAll_fee hw) hn]
        rfl

theorem joinAll_exact (p : Profile) (H : HashFn) : ∀ (l : List (List Item)) (b : List Item) (k : Nat) (t : Tree E),
    t.head = recordOf H b :: l.map (recordOf H) → b.length = 2 ^ k → Peaks p k l → Fee p b → (inOrder l ++ b).length < 2 ^ 64 →
    (match writeAll p H (blocks b l) t.storage with
    | (.ok (), s) => joinAllLoop p H (recordOf H b) (l.map (recordOf H)) t = (.ok (), ⟨s, (merged b l).map (recordOf H)⟩) ∧ Peaks p k (merged b l)
    | (.error e, s) => joinAllLoop p H (recordOf H b) (l.map (recordOf H)) t = (.error e, ⟨s, []⟩)) := by
  intro l
  induction l with
  | nil =>
    intro b k t ht hb _ hf _
    obtain ⟨s, hd⟩ := t
    simp only at ht
    subst ht
    refine ⟨rfl, ⟨⟨k, Nat.le_refl _, hb, trivial⟩, fun a ha => ?_⟩⟩
    rw [merged, List.mem_singleton] at ha
    subst ha; exact hf
  | cons a l ih =>
    intro b k t ht hb hl hf hn
    have hl' := hl
    obtain ⟨⟨g, h1, h2, h3⟩, hfl⟩ := hl
    have hfa := hfl a (List.mem_cons_self ..)
    have hpos := Nat.two_pow_pos k
    have hha := recordOf_height H h2
    have hhb := recordOf_height H hb
    by_cases hg : a.length = b.length
    · have hgk : g = k := Nat.pow_right_injective (Nat.le_refl 2) (show 2 ^ g = 2 ^ k by rw [← h2, ← hb, hg])
      subst hgk
      rw [inOrder_cons, List.append_assoc] at hn
      have hs : IsSplit a b := ⟨by omega, g, h2, by omega⟩
      have hg64 : g < 64 := by
        have : 2 ^ g < 2 ^ 64 := by
          rw [List.length_append, List.length_append] at hn; omega
        exact (Nat.pow_lt_pow_iff_right (by omega)).1 this
      have hunf : joinAllLoop p H (recordOf H b) ((a :: l).map (recordOf H)) t =
          (joinSubtrees p H (recordOf H a) (recordOf H b) >>= fun joined => do
            Exec.modify fun t => { t with head := joined :: l.map (recordOf H) }
            joinAllLoop p H joined (l.map (recordOf H))) { t with head := [] } := by
        rw [List.map_cons, joinAllLoop, if_pos (by rw [hha, hhb])]; rfl
      rw [hunf, blocks, if_pos hg, merged, if_pos hg, writeAll_cons, Exec.bind_apply, join_exact p H hg64 h2 hs hfa hf]
      simp only
      cases hw : writeAll p H [a ++ b] t.storage with
      | mk r s =>
        cases r with
        | error e => rfl
        | ok u =>
          simp only [outcome]
          have := ih (a ++ b) (g + 1) ⟨s, recordOf H (a ++ b) :: l.map (recordOf H)⟩ rfl
            (by rw [List.length_append, h2, hb, Nat.pow_succ]; omega) ⟨h3, fun x hx => hfl x (List.mem_cons_of_mem _ hx)⟩ (writeAll_fee hw) hn
          simp only at this
          rw [Exec.modify_bind]
          cases hw2 : writeAll p H (blocks (a ++ b) l) s with
          | mk r2 s2 =>
            rw [hw2] at this
            cases r2 with
            | error e => exact this
            | ok u2 => exact ⟨this.1, this.2.1.mono (by omega), this.2.2⟩
    · have hgk : g ≠ k := fun e => hg (by rw [h2, hb, e])
      rw [blocks, if_neg hg, merged, if_neg hg]
      obtain ⟨s, hd⟩ := t
      simp only at ht
      subst ht
      refine ⟨?_, ⟨⟨k, Nat.le_refl _, hb, g, by omega, h2, h3⟩, fun x hx => ?_⟩⟩
      · rw [List.map_cons, joinAllLoop, if_neg (by rw [hha, hhb]; exact fun e => hgk e.symm)]
        rfl
      · rcases List.mem_cons.1 hx with rfl | hx
        · exact hf
        · exact hfl x hx

/-! ### Calls -/

/-- The tree has the leaves. -/
def Holds (p : Profile) (H : HashFn) (head : List Node) (ds : List Item) : Prop :=
  ∃ l, head = l.map (recordOf H) ∧ ds = inOrder l ∧ Peaks p 0 l

theorem push_exact (p : Profile) (H : HashFn) (fee : Nat) (d : Bytes) (t : Tree E) {ds : List Item} (h : Holds p H t.head ds)
    (hf : fee < 2 ^ 64) (hn : (ds ++ [(fee, d)]).length < 2 ^ 64) :
    (.push (push p H fee d t).1, (push p H fee d t).2.storage) =
      (((⟨ds, t.storage⟩ : Machine E).step p H (.push fee d)).1, ((⟨ds, t.storage⟩ : Machine E).step p H (.push fee d)).2.storage) ∧
    Holds p H (push p H fee d t).2.head ((⟨ds, t.storage⟩ : Machine E).step p H (.push fee d)).2.leaves := by
  obtain ⟨l, h1, rfl, h3⟩ := h
  have hfee : Fee p [(fee, d)] := fun _ => by simpa [total] using hf
  have hins := onStorage_insert (Node.createLeaf H fee d) t
  have hunf : push p H fee d t = (onStorage (Store.insert (Node.createLeaf H fee d).hash (Node.createLeaf H fee d)) >>=
      fun _ => do
        Exec.modify fun t => { t with head := Node.createLeaf H fee d :: t.head }
        joinAllSubtrees p H) t := rfl
  have hrec : Node.createLeaf H fee d = recordOf H [(fee, d)] := recordOf_leaf H (fee, d) hf
  have hno : ¬ (p.overflowChecks = true ∧ 2 ^ 64 ≤ total [(fee, d)]) := fun h => by have := hfee h.1; omega
  unfold Machine.step
  simp only
  rw [push_lists h3.1 (fee, d) hn, writeAll_cons]
  cases hsch : t.storage.sched t.storage.clock with
  | some f =>
    obtain ⟨e, ap⟩ := f
    have hw : writeAll p H [[(fee, d)]] t.storage = (.error (.err e), wrote t.storage (recordOf H [(fee, d)])) := by
      simp only [writeAll, if_neg hno, hsch, wrote]
      cases ap <;> rfl
    simp only [hsch] at hins
    rw [hunf, Exec.bind_error hins, hw, hrec]
    exact ⟨rfl, l, h1, rfl, h3⟩
  | none =>
    have hw : writeAll p H [[(fee, d)]] t.storage = (.ok (), wrote t.storage (recordOf H [(fee, d)])) := by
      simp only [writeAll, if_neg hno, hsch, wrote]
      rfl
    simp only [hsch] at hins
    have hrun : push p H fee d t = joinAllLoop p H (recordOf H [(fee, d)]) (l.map (recordOf H))
        ⟨wrote t.storage (recordOf H [(fee, d)]), recordOf H [(fee, d)] :: l.map (recordOf H)⟩ := by
      rw [hunf, Exec.bind_ok hins, Exec.modify_bind, ← hrec, ← h1]
      rfl
    have hj := joinAll_exact p H l [(fee, d)] 0 ⟨wrote t.storage (recordOf H [(fee, d)]), recordOf H [(fee, d)] :: l.map (recordOf H)⟩ rfl rfl
      h3 hfee hn
    rw [hw, hrun]
    simp only at hj ⊢
    cases hw2 : writeAll p H (blocks [(fee, d)] l) (wrote t.storage (recordOf H [(fee, d)])) with
    | mk r s =>
      rw [hw2] at hj
      cases r with
      | ok u =>
        rw [hj.1]
        exact ⟨rfl, _, rfl, (merged_inOrder l _).symm, hj.2⟩
      | error e =>
        simp only at hj
        rw [hj]
        exact ⟨rfl, [], rfl, rfl, trivial, fun a ha => by cases ha⟩

theorem root_exact (p : Profile) (H : HashFn) (t : Tree E) {ds : List Item} (h : Holds p H t.head ds) (hn : ds.length < 2 ^ 64) :
    (.root (root p H t).1, (root p H t).2.storage) =
      (((⟨ds, t.storage⟩ : Machine E).step p H .root).1, ((⟨ds, t.storage⟩ : Machine E).step p H .root).2.storage) ∧
    Holds p H (root p H t).2.head ((⟨ds, t.storage⟩ : Machine E).step p H .root).2.leaves := by
  obtain ⟨l, h1, rfl, h3⟩ := h
  unfold Machine.step
  simp only
  rw [root_lists h3.1 hn]
  obtain ⟨s, hd⟩ := t
  simp only at h1
  subst h1
  cases l with
  | nil => exact ⟨rfl, [], rfl, rfl, h3⟩
  | cons a l =>
    obtain ⟨⟨g, h4, h5, h6⟩, h7⟩ := h3
    have hpos := Nat.two_pow_pos g
    have hne : inOrder (a :: l) ≠ [] := fun e => by
      have := congrArg List.length e
      rw [inOrder_cons, List.length_append, List.length_nil] at this; omega
    have hr := rootLoop_exact p H l a (g + 1) ⟨s, (a :: l).map (recordOf H)⟩ (by omega) (by rw [h5, Nat.pow_succ]; omega)
      ⟨h6, fun x hx => h7 x (List.mem_cons_of_mem _ hx)⟩ (h7 a (List.mem_cons_self ..)) (by rw [← inOrder_cons]; exact hn)
    have hroot : root p H (⟨s, (a :: l).map (recordOf H)⟩ : Tree E) =
        ((rootLoop p H (recordOf H a) (l.map (recordOf H)) ⟨s, (a :: l).map (recordOf H)⟩).1.map fun n => (n.fee, n.hash),
          (rootLoop p H (recordOf H a) (l.map (recordOf H)) ⟨s, (a :: l).map (recordOf H)⟩).2) := by
      have hrn : (rootNode p H (⟨s, (a :: l).map (recordOf H)⟩ : Tree E)) =
          ((rootLoop p H (recordOf H a) (l.map (recordOf H)) ⟨s, (a :: l).map (recordOf H)⟩).1.map some,
            (rootLoop p H (recordOf H a) (l.map (recordOf H)) ⟨s, (a :: l).map (recordOf H)⟩).2) := by
        show (rootLoop p H (recordOf H a) (l.map (recordOf H)) >>= fun n => (pure (some n) : TreeM E (Option Node))) _ = _
        rw [Exec.bind_apply]
        rcases rootLoop p H (recordOf H a) (l.map (recordOf H)) ⟨s, (a :: l).map (recordOf H)⟩ with ⟨_ | n, t'⟩ <;> rfl
      unfold root
      rw [Exec.bind_apply, hrn]
      rcases rootLoop p H (recordOf H a) (l.map (recordOf H)) ⟨s, (a :: l).map (recordOf H)⟩ with ⟨_ | n, t'⟩ <;> rfl
    rw [hroot, hr, if_neg hne]
    simp only
    have hout : ∀ x : Except (Fail E) Unit × SStore E, Holds p H (outcome (⟨s, (a :: l).map (recordOf H)⟩ : Tree E) (recordOf H (inOrder l ++ a)) x).2.head
        (inOrder (a :: l)) := by
      rintro ⟨r, s'⟩
      cases r <;> exact ⟨_, rfl, rfl, ⟨g, h4, h5, h6⟩, h7⟩
    cases hw : writeAll p H (joins a l) s with
    | mk r s' =>
      have := hout (r, s')
      cases r with
      | ok u =>
        refine ⟨?_, this⟩
        rw [inOrder_cons]; rfl
      | error e => exact ⟨rfl, this⟩

theorem run_exact (p : Profile) (H : HashFn) : ∀ (ops : List Op) (t : Tree E) (ds : List Item), Holds p H t.head ds →
    (ds ++ pushed ops).length < 2 ^ 64 → (∀ x ∈ pushed ops, x.1 < 2 ^ 64) →
    ((run p H ops t).1, (run p H ops t).2.storage) = ((Machine.run p H ops ⟨ds, t.storage⟩).1, (Machine.run p H ops ⟨ds, t.storage⟩).2.storage) ∧
    Holds p H (run p H ops t).2.head (Machine.run p H ops ⟨ds, t.storage⟩).2.leaves := by
  intro ops
  induction ops with
  | nil => intro t ds h _ _; exact ⟨rfl, h⟩
  | cons op ops ih =>
    intro t ds h hn hf
    have hstep : ((step p H op t).1, (step p H op t).2.storage) =
        (((⟨ds, t.storage⟩ : Machine E).step p H op).1, ((⟨ds, t.storage⟩ : Machine E).step p H op).2.storage) ∧
        Holds p H (step p H op t).2.head ((⟨ds, t.storage⟩ : Machine E).step p H op).2.leaves ∧
        (((⟨ds, t.storage⟩ : Machine E).step p H op).2.leaves ++ pushed ops).length < 2 ^ 64 ∧ ∀ x ∈ pushed ops, x.1 < 2 ^ 64 := by
      cases op with
      | push fee d =>
        rw [pushed, List.length_append, List.length_cons] at hn
        have := push_exact p H fee d t h (hf _ (List.mem_cons_self ..)) (by rw [List.length_append, List.length_singleton]; omega)
        refine ⟨this.1, this.2, ?_, fun x hx => hf x (List.mem_cons_of_mem _ hx)⟩
        have hle : ((⟨ds, t.storage⟩ : Machine E).step p H (.push fee d)).2.leaves.length ≤ ds.length + 1 := by
          unfold Machine.step
          simp only
          split
          · simp
          · simp only
            split <;> simp
        rw [List.length_append]; omega
      | root =>
        rw [pushed] at hn hf
        have := root_exact p H t h (by rw [List.length_append] at hn; omega)
        refine ⟨this.1, this.2, ?_, hf⟩
        have hle : ((⟨ds, t.storage⟩ : Machine E).step p H .root).2.leaves = ds := by
          unfold Machine.step
          simp only
          split <;> rfl
        rw [hle]; exact hn
    obtain ⟨h1, h2, h3, h4⟩ := hstep
    obtain ⟨e1, e2⟩ := Prod.mk.inj h1
    have e3 : (⟨((⟨ds, t.storage⟩ : Machine E).step p H op).2.leaves, (step p H op t).2.storage⟩ : Machine E) =
        ((⟨ds, t.storage⟩ : Machine E).step p H op).2 := by rw [e2]
    have := ih _ _ h2 h3 h4
    rw [e3] at this
    obtain ⟨g1, g2⟩ := this
    obtain ⟨g3, g4⟩ := Prod.mk.inj g1
    simp only [run, Machine.run]
    exact ⟨Prod.ext (by simp only; rw [e1, g3]) g4, g2⟩

/-! ### The storage after a history -/

theorem total_lastOf (ds : List Item) (n : Nat) : total (lastOf ds n) ≤ total ds := by
  have := total_append (ds.take (ds.length - n)) (ds.drop (ds.length - n))
  rw [List.take_append_drop] at this
  unfold lastOf; omega

theorem writeAll_reliable (p : Profile) (H : HashFn) : ∀ (lists : List (List Item)) (s : SStore E), s.Reliable →
    (∀ ds ∈ lists, Fee p ds) →
    (writeAll p H lists s).1 = .ok () ∧ (writeAll p H lists s).2.sched = s.sched ∧
    ∀ k, (writeAll p H lists s).2.map k = match lists.reverse.find? fun ds => decide (sumHash H ds = k) with
      | some ds => some (recordOf H ds)
      | none => s.map k := by
  intro lists
  induction lists with
  | nil => intro s _ _; exact ⟨rfl, rfl, fun k => rfl⟩
  | cons ds rest ih =>
    intro s hr hf
    have hno : ¬ (p.overflowChecks = true ∧ 2 ^ 64 ≤ total ds) := fun h => by
      have := hf ds (List.mem_cons_self ..) h.1; omega
    simp only [writeAll, if_neg hno, hr s.clock]
    obtain ⟨h1, h2, h3⟩ := ih { s with clock := s.clock + 1, map := Store.upd s.map (sumHash H ds) (some (recordOf H ds)) } hr
      (fun x hx => hf x (List.mem_cons_of_mem _ hx))
    refine ⟨h1, h2, fun k => ?_⟩
    rw [h3 k, List.reverse_cons, List.find?_append]
    cases hq : rest.reverse.find? fun ds => decide (sumHash H ds = k) with
    | some x => rfl
    | none =>
      simp only [Option.none_or]
      by_cases hk : sumHash H ds = k
      · simp [Store.upd, hk]
      · simp [Store.upd, hk, Ne.symm hk]

theorem machine_reliable (p : Profile) (H : HashFn) : ∀ (ops : List Op) (ds : List Item) (s : SStore E), s.Reliable →
    (p.overflowChecks = true → total (ds ++ pushed ops) < 2 ^ 64) →
    ∀ k, (Machine.run p H ops ⟨ds, s⟩).2.storage.map k = match (writes ops ds).reverse.find? fun x => decide (sumHash H x = k) with
      | some x => some (recordOf H x)
      | none => s.map k := by
  intro ops
  induction ops with
  | nil => intro ds s _ _ k; rfl
  | cons op ops ih =>
    intro ds s hr ht k
    have key : ∀ (lists : List (List Item)) (ds' : List Item) (out : Out E), (∀ x ∈ lists, Fee p x) →
        (p.overflowChecks = true → total (ds' ++ pushed ops) < 2 ^ 64) →
        (⟨ds, s⟩ : Machine E).step p H op = (out, ⟨ds', (writeAll p H lists s).2⟩) → writes (op :: ops) ds = lists ++ writes ops ds' →
        (Machine.run p H (op :: ops) ⟨ds, s⟩).2.storage.map k = match (writes (op :: ops) ds).reverse.find? fun x => decide (sumHash H x = k) with
          | some x => some (recordOf H x)
          | none => s.map k := by
      intro lists ds' out hf ht' hst hw
      obtain ⟨_, h2, h3⟩ := writeAll_reliable p H lists s hr hf
      simp only [Machine.run, hst]
      rw [ih ds' _ (fun c => by rw [h2]; exact hr c) ht' k, hw, List.reverse_append, List.find?_append]
      cases hq : (writes ops ds').reverse.find? fun x => decide (sumHash H x = k) with
      | some x => rfl
      | none => simp only [Option.none_or]; exact h3 k
    cases op with
    | push fee d =>
      have ht' : p.overflowChecks = true → total ((ds ++ [(fee, d)]) ++ pushed ops) < 2 ^ 64 := by simpa [pushed] using ht
      have hf : ∀ x ∈ (pushSizes (ds.length + 1)).map (lastOf (ds ++ [(fee, d)])), Fee p x := by
        intro x hx hp
        obtain ⟨n, _, rfl⟩ := List.mem_map.1 hx
        have h1 := total_lastOf (ds ++ [(fee, d)]) n
        have h2 := ht' hp
        rw [total_append] at h2; omega
      refine key _ (ds ++ [(fee, d)]) (.push (.ok ())) hf ht' ?_ rfl
      have h1 := (writeAll_reliable p H _ s hr hf).1
      unfold Machine.step
      simp only [List.length_append, List.length_singleton]
      cases hw : writeAll p H ((pushSizes (ds.length + 1)).map (lastOf (ds ++ [(fee, d)]))) s with
      | mk r s' => rw [hw] at h1; simp only at h1; subst h1; rfl
    | root =>
      have ht' : p.overflowChecks = true → total (ds ++ pushed ops) < 2 ^ 64 := ht
      have hf : ∀ x ∈ (rootSizes ds.length).map (lastOf ds), Fee p x := by
        intro x hx hp
        obtain ⟨n, _, rfl⟩ := List.mem_map.1 hx
        have h1 := total_lastOf ds n
        have h2 := ht' hp
        rw [total_append] at h2; omega
      refine key _ ds (.root (.ok (total ds % 2 ^ 64, if ds = [] then emptySum else sumHash H ds))) hf ht' ?_ rfl
      have h1 := (writeAll_reliable p H _ s hr hf).1
      unfold Machine.step
      simp only
      cases hw : writeAll p H ((rootSizes ds.length).map (lastOf ds)) s with
      | mk r s' => rw [hw] at h1; simp only at h1; subst h1; rfl

theorem writeAll_origin (p : Profile) (H : HashFn) : ∀ (lists : List (List Item)) (s : SStore E) k,
    (writeAll p H lists s).2.map k = s.map k ∨
    ∃ ds ∈ lists, sumHash H ds = k ∧ (writeAll p H lists s).2.map k = some (recordOf H ds) := by
  intro lists
  induction lists with
  | nil => intro s k; exact .inl rfl
  | cons ds rest ih =>
    intro s k
    simp only [writeAll]
    split
    · exact .inl rfl
    · have hw : Store.upd s.map (sumHash H ds) (some (recordOf H ds)) k = s.map k ∨
          sumHash H ds = k ∧ Store.upd s.map (sumHash H ds) (some (recordOf H ds)) k = some (recordOf H ds) := by
        by_cases hk : sumHash H ds = k
        · exact .inr ⟨hk, by simp [Store.upd, hk]⟩
        · exact .inl (by simp [Store.upd, Ne.symm hk])
      cases hs : s.sched s.clock with
      | none =>
        simp only
        rcases ih { s with clock := s.clock + 1, map := Store.upd s.map (sumHash H ds) (some (recordOf H ds)) } k with h | ⟨x, hx, h1, h2⟩
        · rw [h]
          rcases hw with h | ⟨h1, h2⟩
          · exact .inl h
          · exact .inr ⟨ds, List.mem_cons_self .., h1, h2⟩
        · exact .inr ⟨x, List.mem_cons_of_mem _ hx, h1, h2⟩
      | some f =>
        obtain ⟨e, ap⟩ := f
        cases ap with
        | false => exact .inl rfl
        | true =>
          rcases hw with h | ⟨h1, h2⟩
          · exact .inl h
          · exact .inr ⟨ds, List.mem_cons_self .., h1, h2⟩

theorem lastOf_sublist (ds : List Item) (n : Nat) : (lastOf ds n).Sublist ds := List.drop_sublist ..

theorem machine_origin (p : Profile) (H : HashFn) : ∀ (ops : List Op) (c : Machine E) k,
    (Machine.run p H ops c).2.storage.map k = c.storage.map k ∨
    ∃ ds, ds.Sublist (c.leaves ++ pushed ops) ∧ sumHash H ds = k ∧ (Machine.run p H ops c).2.storage.map k = some (recordOf H ds) := by
  intro ops
  induction ops with
  | nil => intro c k; exact .inl rfl
  | cons op ops ih =>
    intro c k
    have hstep : ((c.step p H op).2.storage.map k = c.storage.map k ∨
        ∃ ds, ds.Sublist (c.leaves ++ pushed (op :: ops)) ∧ sumHash H ds = k ∧ (c.step p H op).2.storage.map k = some (recordOf H ds)) ∧
        ((c.step p H op).2.leaves ++ pushed ops).Sublist (c.leaves ++ pushed (op :: ops)) := by
      cases op with
      | push fee d =>
        have e : c.leaves ++ pushed (.push fee d :: ops) = (c.leaves ++ [(fee, d)]) ++ pushed ops := by simp [pushed]
        rw [e]
        have ho := writeAll_origin p H ((pushSizes (c.leaves ++ [(fee, d)]).length).map (lastOf (c.leaves ++ [(fee, d)]))) c.storage k
        have ho' : (writeAll p H ((pushSizes (c.leaves ++ [(fee, d)]).length).map (lastOf (c.leaves ++ [(fee, d)]))) c.storage).2.map k = c.storage.map k ∨
            ∃ ds, ds.Sublist ((c.leaves ++ [(fee, d)]) ++ pushed ops) ∧ sumHash H ds = k ∧
              (writeAll p H ((pushSizes (c.leaves ++ [(fee, d)]).length).map (lastOf (c.leaves ++ [(fee, d)]))) c.storage).2.map k = some (recordOf H ds) := by
          rcases ho with h | ⟨ds, h1, h2, h3⟩
          · exact .inl h
          · obtain ⟨n, _, rfl⟩ := List.mem_map.1 h1
            exact .inr ⟨_, (lastOf_sublist _ n).trans (List.sublist_append_left ..), h2, h3⟩
        unfold Machine.step
        simp only
        cases hw : writeAll p H ((pushSizes (c.leaves ++ [(fee, d)]).length).map (lastOf (c.leaves ++ [(fee, d)]))) c.storage with
        | mk r s' =>
          rw [hw] at ho'
          cases r with
          | ok u => exact ⟨ho', .refl _⟩
          | error e =>
            refine ⟨ho', ?_⟩
            simp only
            refine List.Sublist.append ?_ (.refl _)
            split
            · exact List.nil_sublist _
            · exact List.sublist_append_left ..
      | root =>
        have ho := writeAll_origin p H ((rootSizes c.leaves.length).map (lastOf c.leaves)) c.storage k
        have ho' : (writeAll p H ((rootSizes c.leaves.length).map (lastOf c.leaves)) c.storage).2.map k = c.storage.map k ∨
            ∃ ds, ds.Sublist (c.leaves ++ pushed ops) ∧ sumHash H ds = k ∧
              (writeAll p H ((rootSizes c.leaves.length).map (lastOf c.leaves)) c.storage).2.map k = some (recordOf H ds) := by
          rcases ho with h | ⟨ds, h1, h2, h3⟩
          · exact .inl h
          · obtain ⟨n, _, rfl⟩ := List.mem_map.1 h1
            exact .inr ⟨_, (lastOf_sublist _ n).trans (List.sublist_append_left ..), h2, h3⟩
        unfold Machine.step
        simp only
        cases hw : writeAll p H ((rootSizes c.leaves.length).map (lastOf c.leaves)) c.storage with
        | mk r s' =>
          rw [hw] at ho'
          cases r with
          | ok u => exact ⟨ho', .refl _⟩
          | error e => exact ⟨ho', .refl _⟩
    obtain ⟨h1, h2⟩ := hstep
    simp only [Machine.run]
    rcases ih (c.step p H op).2 k with h | ⟨ds, g1, g2, g3⟩
    · rw [h]; exact h1
    · exact .inr ⟨ds, g1.trans h2, g2, g3⟩

end Sum
end FuelMerkle
