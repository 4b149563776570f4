import Verif.Proofs.BinaryMachine
import Verif.Proofs.BinaryRun
import Verif.Proofs.Profiles
import Verif.Spec.BinaryDesk

/-
Several binary trees on one storage.
-/
namespace FuelMerkle
namespace Binary
open Spec
variable {E : Type}

theorem pushes_cons (op : Op) (ops : List Op) : pushes (op :: ops) = pushes [op] ++ pushes ops := by
  cases op <;> simp [pushes]

theorem pushCount_pushes : ∀ ops : List Op, pushCount ops = (pushes ops).length
  | [] => rfl
  | .push d :: ops => by simp [pushCount, pushes, pushCount_pushes ops]
  | .root :: ops => by simp [pushCount, pushes, pushCount_pushes ops]
  | .prove i :: ops => by simp [pushCount, pushes, pushCount_pushes ops]

theorem leavesTo_cons (j i : Nat) (op : Op) (xs : List (Nat × Op)) :
    leavesTo j ((i, op) :: xs) = (if j = i then pushes [op] else []) ++ leavesTo j xs := by
  unfold leavesTo callsTo
  by_cases h : i = j
  · subst h
    simp only [List.filter_cons, if_true, decide_true, List.map_cons]
    exact pushes_cons _ _
  · have h' : ¬ j = i := fun e => h e.symm
    simp [h, h']

theorem bench_exact (p : Profile) (H : HashFn) : ∀ (xs : List (Nat × Op)) (c : Bench E) (ls : Nat → List Bytes),
    (∀ j, Holds H (c.head j) (c.count j) (ls j)) → (∀ j, c.count j + (leavesTo j xs).length < p.leafLimit) → (∀ x ∈ xs, indicesOk [x.2]) →
    (Bench.run p H xs c).1 = (Lists.run H xs ⟨c.storage, ls, c.count⟩).1 ∧
    (Bench.run p H xs c).2.storage = (Lists.run H xs ⟨c.storage, ls, c.count⟩).2.storage ∧
    (Bench.run p H xs c).2.count = (Lists.run H xs ⟨c.storage, ls, c.count⟩).2.count := by
  intro xs
  induction xs with
  | nil => intro c ls h _ _; exact ⟨rfl, rfl, rfl⟩
  | cons x xs ih =>
    obtain ⟨i, op⟩ := x
    intro c ls h hn hi
    have hni := hn i
    rw [leavesTo_cons, if_pos rfl, List.length_append] at hni
    obtain ⟨e, h2⟩ := run_exact p H [op] ⟨c.storage, c.head i, c.count i⟩ (ls i) (h i)
      (by rw [pushCount_pushes]; simp only; omega) (hi _ (List.mem_cons_self ..))
    obtain ⟨e1, e⟩ := Prod.mk.inj e
    obtain ⟨e2, e3⟩ := Prod.mk.inj e
    have e1 : (step p H op ⟨c.storage, c.head i, c.count i⟩).1 = (Machine.step H op ⟨c.count i, ls i, c.storage⟩).1 := (List.cons.inj e1).1
    have e2 : (step p H op ⟨c.storage, c.head i, c.count i⟩).2.storage = (Machine.step H op ⟨c.count i, ls i, c.storage⟩).2.storage := e2
    have e3 : (step p H op ⟨c.storage, c.head i, c.count i⟩).2.leavesCount = (Machine.step H op ⟨c.count i, ls i, c.storage⟩).2.count := e3
    have h2 : Holds H (step p H op ⟨c.storage, c.head i, c.count i⟩).2.head (step p H op ⟨c.storage, c.head i, c.count i⟩).2.leavesCount
      (Machine.step H op ⟨c.count i, ls i, c.storage⟩).2.leaves := h2
    have hle : (Machine.step H op ⟨c.count i, ls i, c.storage⟩).2.count ≤ c.count i + (pushes [op]).length := by
      cases op with
      | push d =>
        unfold Machine.step
        simp only
        split <;> simp [pushes]
      | root => simp [Machine.step]
      | prove k =>
        unfold Machine.step
        simp only
        split
        · simp
        · cases c.storage.sched c.storage.clock with
          | some f => simp
          | none =>
            simp only
            cases c.storage.map (2 * k) with
            | none => simp
            | some q =>
              simp only
              split
              · simp
              · split <;> simp
    have hl : ((Lists.step H (i, op) ⟨c.storage, ls, c.count⟩).2 : Lists E) =
        ⟨(c.step p H (i, op)).2.storage, (Lists.step H (i, op) ⟨c.storage, ls, c.count⟩).2.leaves, (c.step p H (i, op)).2.count⟩ := by
      simp only [Bench.step, Lists.step]
      rw [e2, e3]
    obtain ⟨g1, g2, g3⟩ := ih (c.step p H (i, op)).2 (Lists.step H (i, op) ⟨c.storage, ls, c.count⟩).2.leaves
      (fun j => by
        simp only [Bench.step, Lists.step]
        by_cases hj : j = i
        · simp only [hj, if_true]; exact h2
        · simp only [hj, if_false]; exact h j)
      (fun j => by
        have hj := hn j
        rw [leavesTo_cons, List.length_append] at hj
        simp only [Bench.step]
        split
        · next hji => subst hji; rw [if_pos rfl] at hj; rw [e3]; omega
        · omega)
      (fun x hx => hi x (List.mem_cons_of_mem _ hx))
    simp only [Bench.run, Lists.run]
    rw [hl]
    refine ⟨?_, g2, g3⟩
    rw [g1]
    exact congrArg (· :: _) e1

/-! ### Working storage -/

theorem writeTrees_reliable : ∀ (recs : List (Nat × Bytes32)) (s : BStore E), s.Reliable →
    (writeTrees recs s).1 = .ok () ∧ (writeTrees recs s).2.sched = s.sched ∧
    ∀ k, (writeTrees recs s).2.map k = match recs.reverse.find? fun x => decide (x.1 = k) with
      | some x => some x
      | none => s.map k := by
  intro recs
  induction recs with
  | nil => intro s _; exact ⟨rfl, rfl, fun k => rfl⟩
  | cons x rest ih =>
    intro s hr
    simp only [writeTrees, hr s.clock]
    obtain ⟨h1, h2, h3⟩ := ih { s with clock := s.clock + 1, map := Store.upd s.map x.1 (some x) } hr
    refine ⟨h1, h2, fun k => ?_⟩
    rw [h3 k, List.reverse_cons, List.find?_append]
    cases rest.reverse.find? fun x => decide (x.1 = k) with
    | some y => rfl
    | none =>
      by_cases hk : x.1 = k
      · simp [Store.upd, hk]
      · simp [Store.upd, hk, Ne.symm hk]

theorem readHashes_sched (hand : List (Nat × Bytes32)) : ∀ (ks : List Nat) (s : BStore E), (readHashes hand ks s).2.sched = s.sched := by
  intro ks
  induction ks with
  | nil => intro s; rfl
  | cons k ks ih =>
    intro s
    simp only [readHashes]
    cases s.sched s.clock with
    | some f => rfl
    | none =>
      simp only
      cases (hand.lookup k).or ((s.map k).map Prod.snd) with
      | none => rfl
      | some h =>
        simp only
        have := ih { s with clock := s.clock + 1 }
        rcases hq : readHashes hand ks { s with clock := s.clock + 1 } with ⟨_ | hs, s'⟩ <;> rw [hq] at this <;> exact this

theorem prove_step_sched (H : HashFn) (i : Nat) (c : Machine E) : (c.step H (.prove i)).2.storage.sched = c.storage.sched ∧
    (c.step H (.prove i)).2.count = c.count := by
  unfold Machine.step
  simp only
  split
  · exact ⟨rfl, rfl⟩
  · cases c.storage.sched c.storage.clock with
    | some f => exact ⟨rfl, rfl⟩
    | none =>
      simp only
      cases c.storage.map (2 * i) with
      | none => exact ⟨rfl, rfl⟩
      | some q =>
        simp only
        split
        · exact ⟨rfl, rfl⟩
        · have := readHashes_sched ((rootSizes c.leaves.length).map (treeOf H c.count c.leaves)).reverse (sideKeys c.count i)
            { c.storage with clock := c.storage.clock + 1 }
          rcases hq : readHashes ((rootSizes c.leaves.length).map (treeOf H c.count c.leaves)).reverse (sideKeys c.count i)
            { c.storage with clock := c.storage.clock + 1 } with ⟨_ | hs, s'⟩ <;> rw [hq] at this <;> exact ⟨this, rfl⟩

theorem lists_reliable (H : HashFn) : ∀ (xs : List (Nat × Op)) (c : Lists E), c.storage.Reliable → (∀ j, c.count j = (c.leaves j).length) →
    (∀ j, (Lists.run H xs c).2.leaves j = c.leaves j ++ leavesTo j xs) ∧ (∀ j, (Lists.run H xs c).2.count j = ((Lists.run H xs c).2.leaves j).length) ∧
    (Lists.run H xs c).2.storage.Reliable ∧
    ∀ k, (Lists.run H xs c).2.storage.map k = match (benchWrites H xs c.leaves).reverse.find? fun x => decide (x.1 = k) with
      | some x => some x
      | none => c.storage.map k := by
  intro xs
  induction xs with
  | nil => intro c hr hc; exact ⟨fun j => by simp [Lists.run, leavesTo, callsTo, pushes], hc, hr, fun k => rfl⟩
  | cons x xs ih =>
    obtain ⟨i, op⟩ := x
    intro c hr hc
    cases op with
    | push d =>
      obtain ⟨h1, h2, h3⟩ := writeTrees_reliable ((pushSizes (c.leaves i ++ [d]).length).map (treeOf H (c.count i + 1) (c.leaves i ++ [d]))) c.storage hr
      have hst : (Lists.step H (i, .push d) c).2 = ⟨(writeTrees ((pushSizes (c.leaves i ++ [d]).length).map (treeOf H (c.count i + 1) (c.leaves i ++ [d]))) c.storage).2,
          fun j => if j = i then c.leaves i ++ [d] else c.leaves j, fun j => if j = i then c.count i + 1 else c.count j⟩ := by
        simp only [Lists.step, Machine.step]
        rcases hw : writeTrees ((pushSizes (c.leaves i ++ [d]).length).map (treeOf H (c.count i + 1) (c.leaves i ++ [d]))) c.storage with ⟨_ | _, s'⟩
        · rw [hw] at h1; cases h1
        · rfl
      obtain ⟨g1, g2, g3, g4⟩ := ih (Lists.step H (i, .push d) c).2 (by rw [hst]; intro t; simp only; rw [h2]; exact hr t)
        (fun j => by rw [hst]; simp only; split <;> simp [hc])
      refine ⟨fun j => ?_, g2, g3, fun k => ?_⟩
      · show (Lists.run H xs (Lists.step H (i, .push d) c).2).2.leaves j = _
        rw [g1, hst, leavesTo_cons]
        simp only
        split
        · next e => subst e; simp [pushes]
        · simp
      · show (Lists.run H xs (Lists.step H (i, .push d) c).2).2.storage.map k = _
        rw [g4 k, benchWrites, List.reverse_append, List.find?_append]
        have hl : (Lists.step H (i, .push d) c).2.leaves = fun j => if j = i then c.leaves i ++ [d] else c.leaves j := by rw [hst]
        rw [hl]
        cases (benchWrites H xs fun j => if j = i then c.leaves i ++ [d] else c.leaves j).reverse.find? fun x => decide (x.1 = k) with
        | some y => rfl
        | none =>
          simp only [Option.none_or]
          rw [hst]
          simp only
          rw [h3 k, hc i, List.length_append, List.length_singleton]
    | root =>
      have hst : (Lists.step H (i, .root) c).2 = c := by
        simp only [Lists.step, Machine.step]
        have e1 : (fun j => if j = i then c.leaves i else c.leaves j) = c.leaves := by funext j; split <;> simp_all
        have e2 : (fun j => if j = i then c.count i else c.count j) = c.count := by funext j; split <;> simp_all
        rw [e1, e2]
      obtain ⟨g1, g2, g3, g4⟩ := ih c hr hc
      have hrun : (Lists.run H ((i, .root) :: xs) c).2 = (Lists.run H xs c).2 := by
        show (Lists.run H xs (Lists.step H (i, .root) c).2).2 = _
        rw [hst]
      rw [hrun]
      refine ⟨fun j => ?_, g2, g3, g4⟩
      rw [g1, leavesTo_cons]
      simp [pushes]
    | prove n =>
      obtain ⟨m1, m2⟩ := prove_step_map H n ⟨c.count i, c.leaves i, c.storage⟩
      obtain ⟨m3, m4⟩ := prove_step_sched H n ⟨c.count i, c.leaves i, c.storage⟩
      have hl : (Lists.step H (i, .prove n) c).2.leaves = c.leaves := by
        simp only [Lists.step]
        funext j
        split
        · next e => subst e; exact m2
        · rfl
      have hcnt : (Lists.step H (i, .prove n) c).2.count = c.count := by
        simp only [Lists.step]
        funext j
        split
        · next e => subst e; exact m4
        · rfl
      obtain ⟨g1, g2, g3, g4⟩ := ih (Lists.step H (i, .prove n) c).2 (by intro t; simp only [Lists.step]; rw [m3]; exact hr t) (by rw [hl, hcnt]; exact hc)
      refine ⟨fun j => ?_, g2, g3, fun k => ?_⟩
      · show (Lists.run H xs (Lists.step H (i, .prove n) c).2).2.leaves j = _
        rw [g1, hl, leavesTo_cons]
        simp [pushes]
      · show (Lists.run H xs (Lists.step H (i, .prove n) c).2).2.storage.map k = _
        rw [g4 k, hl, benchWrites]
        have : (Lists.step H (i, .prove n) c).2.storage.map = c.storage.map := m1
        rw [this]
        nofun

/-! ### Leaves -/

theorem keyOf_leaf (n : Nat) : keyOf n 1 = 2 * n := by
  simp [keyOf, ceilLog2]

theorem keyOf_odd (n h : Nat) (hh : 0 < h) : keyOf n (2 ^ h) % 2 = 1 := by
  unfold keyOf
  rw [ceilLog2_two_pow]
  obtain ⟨g, rfl⟩ : ∃ g, h = g + 1 := ⟨h - 1, by omega⟩
  have := Nat.two_pow_pos g
  have e1 : 2 ^ (g + 1 + 1) * (n / 2 ^ (g + 1)) = 2 * (2 ^ (g + 1) * (n / 2 ^ (g + 1))) := by rw [Nat.pow_succ 2 (g + 1), Nat.mul_comm (2 ^ (g + 1)) 2, Nat.mul_assoc]
  have e2 : 2 ^ (g + 1) = 2 * 2 ^ g := by rw [Nat.pow_succ, Nat.mul_comm]
  omega

theorem pushSizes_leaf (n : Nat) : ∃ rest, pushSizes n = 1 :: rest ∧ ∀ r ∈ rest, ∃ h, 0 < h ∧ r = 2 ^ h := by
  refine ⟨((List.range 63).map Nat.succ).filterMap (fun h => if n % 2 ^ h = 0 then some (2 ^ h) else none), ?_, ?_⟩
  · unfold pushSizes
    rw [List.range_succ_eq_map]
    rw [List.filterMap_cons_some (b := 1) (by simp [Nat.mod_one])]
  · intro r hr
    obtain ⟨h, hm, hv⟩ := List.mem_filterMap.1 hr
    obtain ⟨g, _, rfl⟩ := List.mem_map.1 hm
    split at hv
    · cases hv; exact ⟨g.succ, Nat.succ_pos g, rfl⟩
    · cases hv

theorem find_leaf (H : HashFn) (n k : Nat) (ds : List Bytes) (d : Bytes) (hn : n = ds.length) :
    ((pushSizes (n + 1)).map (treeOf H (n + 1) (ds ++ [d]))).reverse.find? (fun x => decide (x.1 = 2 * k)) =
      if n = k then some (2 * k, leafSum H d) else none := by
  obtain ⟨rest, h1, h2⟩ := pushSizes_leaf (n + 1)
  rw [h1, List.map_cons, List.reverse_cons, List.find?_append]
  have hnone : (rest.map (treeOf H (n + 1) (ds ++ [d]))).reverse.find? (fun x => decide (x.1 = 2 * k)) = none := by
    rw [List.find?_eq_none]
    intro x hx
    obtain ⟨r, hr, rfl⟩ := List.mem_map.1 (List.mem_reverse.1 hx)
    obtain ⟨h, h0, rfl⟩ := h2 r hr
    have := keyOf_odd (n + 1 - 2 ^ h) h h0
    rw [decide_eq_true_eq]
    intro e
    have e : keyOf (n + 1 - 2 ^ h) (2 ^ h) = 2 * k := e
    omega
  rw [hnone, Option.none_or]
  have ht : treeOf H (n + 1) (ds ++ [d]) 1 = (2 * n, leafSum H d) := by
    unfold treeOf lastOf
    rw [Nat.add_sub_cancel, keyOf_leaf]
    have : (ds ++ [d]).drop ((ds ++ [d]).length - 1) = [d] := by simp
    rw [this, mth_single, leafSum]
  rw [ht]
  by_cases hk : n = k
  · subst hk; simp
  · have : ¬ 2 * n = 2 * k := by omega
    simp [hk, this]

theorem find_lastAt (H : HashFn) (k : Nat) : ∀ (xs : List (Nat × Op)) (ls : Nat → List Bytes),
    (benchWrites H xs ls).reverse.find? (fun x => decide (x.1 = 2 * k)) =
      (lastAt k xs fun j => (ls j).length).map fun d => (2 * k, leafSum H d) := by
  intro xs
  induction xs with
  | nil => intro ls; rfl
  | cons x xs ih =>
    obtain ⟨i, op⟩ := x
    intro ls
    cases op with
    | push d =>
      rw [benchWrites, lastAt, List.reverse_append, List.find?_append, ih, find_leaf H _ k (ls i) d rfl]
      have : (fun j => (if j = i then ls i ++ [d] else ls j).length) = fun j => if j = i then (ls i).length + 1 else (ls j).length := by
        funext j; split <;> simp
      rw [this]
      cases lastAt k xs fun j => if j = i then (ls i).length + 1 else (ls j).length with
      | some y => rfl
      | none => simp only [Option.map_none, Option.none_or]; split <;> rfl
    | root => exact ih ls
    | prove n => exact ih ls

theorem lastAt_some (k : Nat) : ∀ (xs : List (Nat × Op)) (n : Nat → Nat) (i : Nat), n i ≤ k → k < n i + (leavesTo i xs).length →
    ∃ d, lastAt k xs n = some d := by
  intro xs
  induction xs with
  | nil => intro n i h1 h2; simp [leavesTo, callsTo, pushes] at h2; omega
  | cons x xs ih =>
    obtain ⟨j, op⟩ := x
    intro n i h1 h2
    rw [leavesTo_cons, List.length_append] at h2
    cases op with
    | push d =>
      rw [lastAt]
      by_cases hij : i = j
      · subst hij
        rw [if_pos rfl] at h2
        simp only [pushes, List.length_singleton] at h2
        by_cases hk : n i = k
        · cases lastAt k xs fun j => if j = i then n i + 1 else n j with
          | some y => exact ⟨y, rfl⟩
          | none => exact ⟨d, by simp [hk]⟩
        · obtain ⟨y, hy⟩ := ih (fun j => if j = i then n i + 1 else n j) i (by simp only [if_true]; omega) (by simp only [if_true]; omega)
          exact ⟨y, by rw [hy]; rfl⟩
      · rw [if_neg hij] at h2
        obtain ⟨y, hy⟩ := ih (fun a => if a = j then n j + 1 else n a) i (by simp only [if_neg hij]; exact h1) (by simp only [if_neg hij]; simpa using h2)
        exact ⟨y, by rw [hy]; rfl⟩
    | root =>
      rw [lastAt]
      · exact ih n i h1 (by split at h2 <;> simpa [pushes] using h2)
      · nofun
    | prove m =>
      rw [lastAt]
      · exact ih n i h1 (by split at h2 <;> simpa [pushes] using h2)
      · nofun

/-! ### One tree alone -/

theorem lists_alone (H : HashFn) (i : Nat) : ∀ (ops : List Op) (c : Lists E),
    (Lists.run H (ops.map fun op => (i, op)) c).2.storage = (Machine.run H ops ⟨c.count i, c.leaves i, c.storage⟩).2.storage ∧
    (Lists.run H (ops.map fun op => (i, op)) c).2.leaves i = (Machine.run H ops ⟨c.count i, c.leaves i, c.storage⟩).2.leaves ∧
    (Lists.run H (ops.map fun op => (i, op)) c).2.count i = (Machine.run H ops ⟨c.count i, c.leaves i, c.storage⟩).2.count := by
  intro ops
  induction ops with
  | nil => intro c; exact ⟨rfl, rfl, rfl⟩
  | cons op ops ih =>
    intro c
    have := ih (Lists.step H (i, op) c).2
    simp only [Lists.step, if_true] at this
    exact this

theorem callsTo_alone (i : Nat) (xs : List (Nat × Op)) : (callsTo i xs).map (fun op => (i, op)) = xs.filter fun x => x.1 = i := by
  unfold callsTo
  rw [List.map_map]
  have : ∀ l : List (Nat × Op), (∀ x ∈ l, x.1 = i) → l.map ((fun op => (i, op)) ∘ Prod.snd) = l := by
    intro l hl
    induction l with
    | nil => rfl
    | cons x l ih =>
      rw [List.map_cons, ih fun y hy => hl y (List.mem_cons_of_mem _ hy)]
      have := hl x (List.mem_cons_self ..)
      obtain ⟨a, b⟩ := x
      simp only at this
      subst this
      rfl
  exact this _ fun x hx => by simpa using (List.mem_filter.1 hx).2

theorem benchWrites_alone (H : HashFn) (i : Nat) : ∀ (xs : List (Nat × Op)) (ls ls' : Nat → List Bytes), ls i = ls' i →
    ∀ x ∈ benchWrites H (xs.filter fun x => x.1 = i) ls', x ∈ benchWrites H xs ls := by
  intro xs
  induction xs with
  | nil => intro ls ls' _ x hx; exact hx
  | cons y xs ih =>
    obtain ⟨j, op⟩ := y
    intro ls ls' h x hx
    by_cases hj : j = i
    · subst hj
      rw [List.filter_cons_of_pos (by simp)] at hx
      cases op with
      | push d =>
        rw [benchWrites, List.mem_append] at hx ⊢
        rw [h]
        rcases hx with hx | hx
        · exact .inl hx
        · exact .inr (ih _ _ (by simp) x hx)
      | root => exact ih ls ls' h x hx
      | prove n => exact ih ls ls' h x hx
    · rw [List.filter_cons_of_neg (by simp [hj])] at hx
      have hj' : ¬ i = j := fun e => hj e.symm
      cases op with
      | push d =>
        rw [benchWrites, List.mem_append]
        exact .inr (ih _ _ (by simp [hj', h]) x hx)
      | root => exact ih ls ls' h x hx
      | prove n => exact ih ls ls' h x hx

/-- Reading on working storage. -/
theorem readHashes_reliable (hand : List (Nat × Bytes32)) : ∀ (ks : List Nat) (s : BStore E), s.Reliable → ∀ hs,
    (readHashes hand ks s).1 = .ok hs ↔ hs.map some = ks.map fun k => (hand.lookup k).or ((s.map k).map Prod.snd) := by
  intro ks
  induction ks with
  | nil =>
    intro s _ hs
    simp only [readHashes, List.map_nil, List.map_eq_nil_iff, Except.ok.injEq]
    exact eq_comm
  | cons k ks ih =>
    intro s hr hs
    have ih := ih { s with clock := s.clock + 1 } hr
    simp only [readHashes, hr s.clock, List.map_cons]
    cases (hand.lookup k).or ((s.map k).map Prod.snd) with
    | none => 
      simp only
      constructor
      · intro h; cases h
      · intro h
        cases hs with
        | nil => cases h
        | cons a hs => cases h
    | some h =>
      simp only
      rcases hq : readHashes hand ks { s with clock := s.clock + 1 } with ⟨e | hs', s'⟩
      · simp only [hq] at ih
        constructor
        · intro h; cases h
        · intro h
          cases hs with
          | nil => cases h
          | cons a hs =>
            rw [List.map_cons] at h
            have := (ih hs).2 (List.cons.inj h).2
            cases this
      · simp only [hq] at ih
        simp only [Except.ok.injEq]
        constructor
        · rintro rfl
          rw [List.map_cons, (ih hs').1 rfl]
        · intro h
          cases hs with
          | nil => cases h
          | cons a hs =>
            rw [List.map_cons] at h
            obtain ⟨e1, e2⟩ := List.cons.inj h
            have := (ih hs).2 e2
            cases this; cases e1; rfl

/-- A proof on working storage: the leaf and the sides as they are found. -/
theorem prove_reliable (H : HashFn) (k : Nat) (ds : List Bytes) (s : BStore E) (hr : s.Reliable) (hk : k < ds.length)
    (h1 : (s.map (2 * k)).isSome = true)
    (h2 : ∀ key ∈ sideKeys ds.length k, ((((rootSizes ds.length).map (treeOf H ds.length ds)).reverse.lookup key).or ((s.map key).map Prod.snd)).isSome = true) :
    ∃ set, (Machine.step H (.prove k) ⟨ds.length, ds, s⟩).1 = .prove (.ok (mth H ds, set)) ∧
      set.map some = (s.map (2 * k)).map Prod.snd :: (sideKeys ds.length k).map fun key =>
        (((rootSizes ds.length).map (treeOf H ds.length ds)).reverse.lookup key).or ((s.map key).map Prod.snd) := by
  unfold Machine.step
  simp only [if_neg (Nat.not_le.2 hk), hr s.clock]
  obtain ⟨q, hq⟩ := Option.isSome_iff_exists.1 h1
  have hne : ds ≠ [] := fun e => by rw [e] at hk; cases hk
  rw [hq]
  simp only [if_neg hne]
  generalize ((rootSizes ds.length).map (treeOf H ds.length ds)).reverse = hand at h2 ⊢
  obtain ⟨hs, hhs⟩ : ∃ hs : List Bytes32, hs.map some = (sideKeys ds.length k).map fun key => (hand.lookup key).or ((s.map key).map Prod.snd) := by
    generalize sideKeys ds.length k = ks at h2
    induction ks with
    | nil => exact ⟨[], rfl⟩
    | cons a ks ih =>
      obtain ⟨hs, e⟩ := ih fun key hm => h2 key (List.mem_cons_of_mem _ hm)
      obtain ⟨x, hx⟩ := Option.isSome_iff_exists.1 (h2 a (List.mem_cons_self ..))
      exact ⟨x :: hs, by rw [List.map_cons, List.map_cons, e, hx]⟩
  have := (readHashes_reliable hand (sideKeys ds.length k) { s with clock := s.clock + 1 } hr hs).2 hhs
  rcases hw : readHashes hand (sideKeys ds.length k) { s with clock := s.clock + 1 } with ⟨e | hs', s'⟩
  · rw [hw] at this; cases this
  · rw [hw] at this
    cases this
    exact ⟨q.2 :: hs, rfl, by rw [List.map_cons, hhs]; rfl⟩

/-- And conversely. -/
theorem prove_found (H : HashFn) (k : Nat) (ds : List Bytes) (s : BStore E) (hr : s.Reliable) (hk : k < ds.length) {r : Bytes32 × List Bytes32}
    (h : (Machine.step H (.prove k) ⟨ds.length, ds, s⟩).1 = .prove (.ok r)) :
    (s.map (2 * k)).isSome = true ∧
    ∀ key ∈ sideKeys ds.length k, ((((rootSizes ds.length).map (treeOf H ds.length ds)).reverse.lookup key).or ((s.map key).map Prod.snd)).isSome = true := by
  unfold Machine.step at h
  simp only [if_neg (Nat.not_le.2 hk), hr s.clock] at h
  have hne : ds ≠ [] := fun e => by rw [e] at hk; cases hk
  cases hq : s.map (2 * k) with
  | none => rw [hq] at h; cases h
  | some q =>
    rw [hq] at h
    simp only [if_neg hne] at h
    refine ⟨rfl, ?_⟩
    generalize ((rootSizes ds.length).map (treeOf H ds.length ds)).reverse = hand at h ⊢
    rcases hw : readHashes hand (sideKeys ds.length k) { s with clock := s.clock + 1 } with ⟨e | hs', s'⟩
    · rw [hw] at h; cases h
    · have := (readHashes_reliable hand (sideKeys ds.length k) { s with clock := s.clock + 1 } hr hs').1 (by rw [hw])
      intro key hm
      have hm' : (hand.lookup key).or ((s.map key).map Prod.snd) ∈ hs'.map some := by
        rw [this]; exact List.mem_map_of_mem (f := fun key => (hand.lookup key).or ((s.map key).map Prod.snd)) hm
      obtain ⟨x, _, hx⟩ := List.mem_map.1 hm'
      rw [← hx]; rfl

end Binary
end FuelMerkle
