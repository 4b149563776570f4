import Verif.Proofs.BinaryMachine
import Verif.Spec.BinaryLoaded

/-
A loaded binary tree is the machine of `Spec/BinaryMachine.lean`.
-/
namespace FuelMerkle
namespace Binary
open Spec
variable {E : Type}

theorem keyOf_top {a g : Nat} (h : 2 ^ g ∣ a) : keyOf a (2 ^ g) = topKey (a, 2 ^ g) := by
  obtain ⟨c, rfl⟩ := h
  unfold keyOf topKey
  rw [ceilLog2_two_pow, Nat.mul_div_cancel_left _ (Nat.two_pow_pos g), Nat.pow_succ]
  congr 2
  rw [Nat.mul_comm (2 ^ g) 2, Nat.mul_assoc]

theorem Lens.snoc : ∀ {l : List Nat} {k g : Nat}, Lens k l → (∀ x ∈ l, x < 2 ^ g) → k ≤ g → Lens k (l ++ [2 ^ g]) := by
  intro l
  induction l with
  | nil => intro k g _ _ h; exact ⟨g, h, rfl, trivial⟩
  | cons a l ih =>
    rintro k g ⟨h, h1, rfl, h3⟩ h4 h5
    refine ⟨h, h1, rfl, ih h3 (fun x hx => h4 x (List.mem_cons_of_mem _ hx)) ?_⟩
    have := h4 _ (List.mem_cons_self ..)
    exact (Nat.pow_lt_pow_iff_right (a := 2) (by omega)).1 this

theorem inOrder_append {α : Type} (l m : List (List α)) : inOrder (l ++ m) = inOrder m ++ inOrder l := by
  simp [inOrder]

theorem nodes_append (H : HashFn) (o : Nat) (m : List (List Bytes)) : ∀ l : List (List Bytes),
    nodes H o (l ++ m) = nodes H (o + (inOrder m).length) l ++ nodes H o m := by
  intro l
  induction l with
  | nil => rfl
  | cons a l ih =>
    rw [List.cons_append, nodes, nodes, ih, inOrder_append, List.length_append]
    simp only [Nat.add_assoc, List.cons_append]

/-- The largest complete subtrees, and their nodes. -/
theorem peaks_nodes (H : HashFn) (ds : List Bytes) (n : Nat) : ∀ (b a : Nat), 2 ^ b ∣ a → a + n % 2 ^ b ≤ ds.length →
    (((peaks b a n).map (stretch ds)).flatten = (ds.drop a).take (n % 2 ^ b)) ∧
    Lens 0 (((peaks b a n).map (stretch ds)).reverse.map List.length) ∧
    (∀ x ∈ ((peaks b a n).map (stretch ds)).reverse.map List.length, x < 2 ^ b) ∧
    nodes H a ((peaks b a n).map (stretch ds)).reverse =
      ((peaks b a n).map fun x => ({ position := ⟨topKey x⟩, hash := mth H (stretch ds x) } : Node)).reverse := by
  intro b
  induction b with
  | zero => intro a _ _; simp [peaks, Lens, nodes, Nat.mod_one]
  | succ b ih =>
    intro a ha hn
    have h2 : 2 ^ (b + 1) = 2 * 2 ^ b := by rw [Nat.pow_succ]; omega
    have hpos := Nat.two_pow_pos b
    have e : n % 2 ^ (b + 1) = 2 ^ b * (n / 2 ^ b % 2) + n % 2 ^ b := by
      rw [Nat.pow_succ, Nat.mod_mul]; omega
    have ha' : 2 ^ b ∣ a := Nat.dvd_trans (Nat.pow_dvd_pow 2 (by omega)) ha
    rw [peaks, Nat.testBit_eq_decide_div_mod_eq]
    by_cases hc : n / 2 ^ b % 2 = 1
    · rw [hc, Nat.mul_one] at e
      obtain ⟨g1, g2, g3, g4⟩ := ih (a + 2 ^ b) (Nat.dvd_add ha' (Nat.dvd_refl _)) (by omega)
      have hlen : (stretch ds (a, 2 ^ b)).length = 2 ^ b := by
        simp only [stretch, List.length_take, List.length_drop]; omega
      simp only [hc, decide_true, if_true, List.map_cons, List.flatten_cons, List.reverse_cons, List.map_append, List.map_nil, hlen]
      refine ⟨?_, Lens.snoc g2 g3 (by omega), ?_, ?_⟩
      · rw [g1, e, stretch, List.take_add, List.drop_drop]
      · intro x hx
        rcases List.mem_append.1 hx with hx | hx
        · have := g3 x hx; omega
        · simp only [List.mem_singleton] at hx; omega
      · rw [nodes_append]
        have hin : (inOrder [stretch ds (a, 2 ^ b)]).length = 2 ^ b := by
          simp [inOrder, hlen]
        rw [hin, g4]
        congr 1
        simp only [nodes, treeNode, hlen, inOrder, List.reverse_nil, List.flatten_nil, List.length_nil, Nat.add_zero]
        rw [keyOf_top ha']
    · have hz : n / 2 ^ b % 2 = 0 := by omega
      rw [hz, Nat.mul_zero, Nat.zero_add] at e
      obtain ⟨g1, g2, g3, g4⟩ := ih a ha' (by omega)
      simp only [hc, decide_false, Bool.false_eq_true, if_false]
      exact ⟨by rw [g1, e], g2, fun x hx => by have := g3 x hx; omega, g4⟩

theorem peaks_hold (H : HashFn) (ds : List Bytes) (hn : ds.length < 2 ^ 64) :
    Holds H ((peaks 64 0 ds.length).map fun x => ({ position := ⟨topKey x⟩, hash := mth H (stretch ds x) } : Node)).reverse ds.length ds := by
  have hm : ds.length % 2 ^ 64 = ds.length := Nat.mod_eq_of_lt hn
  obtain ⟨g1, g2, _, g4⟩ := peaks_nodes H ds ds.length 64 0 (Nat.dvd_zero _) (by omega)
  refine ⟨_, 0, g4.symm, ?_, by omega, g2⟩
  rw [inOrder, List.reverse_reverse, g1, hm, List.drop_zero, List.take_length]

theorem buildLoop_exact (f : Nat × Nat → Bytes32) : ∀ (xs : List (Nat × Nat)) (hd : List Node) (t : Tree E),
    (∀ x ∈ xs, t.storage.map (topKey x) = none ∨ t.storage.map (topKey x) = some (topKey x, f x)) →
    (match readHashes [] (xs.map topKey) t.storage with
    | (.ok _, s) => buildLoop (xs.map fun x => ⟨topKey x⟩) hd t =
        (.ok ((xs.map fun x => ({ position := ⟨topKey x⟩, hash := f x } : Node)).reverse ++ hd), { t with storage := s })
    | (.error e, s) => buildLoop (xs.map fun x => ⟨topKey x⟩) hd t = (.error e, { t with storage := s })) := by
  intro xs
  induction xs with
  | nil => intro hd t _; rfl
  | cons x xs ih =>
    intro hd t hb
    simp only [List.map_cons, readHashes, buildLoop, Position.inOrderIndex]
    cases hs : t.storage.sched t.storage.clock with
    | some f =>
      simp only
      rw [Exec.bind_error (onStorage_error (Store.get_fault (topKey x) hs))]
    | none =>
      simp only [List.lookup_nil, Option.none_or]
      rw [Exec.bind_ok (onStorage_ok (Store.get_none (topKey x) hs))]
      rcases hb x (List.mem_cons_self ..) with hm | hm
      · simp only [hm, Option.map_none]; rfl
      · simp only [hm, Option.map_some]
        have := ih (Node.ofPrim (topKey x, f x) :: hd) { t with storage := { t.storage with clock := t.storage.clock + 1 } }
          (fun y hy => hb y (List.mem_cons_of_mem _ hy))
        simp only at this
        rcases hq : readHashes [] (xs.map topKey) { t.storage with clock := t.storage.clock + 1 } with ⟨_ | v, s⟩
        · rw [hq] at this
          exact this
        · rw [hq] at this
          simp only at this ⊢
          rw [this, List.reverse_cons, List.append_assoc]
          rfl

theorem peakPositions_top (p : Profile) {n : Nat} (hn : n < p.leafLimit) :
    peakPositions p n = .ok ((peaks 64 0 n).map fun x => ⟨topKey x⟩) := by
  have hlim := p.leafLimit_le
  rw [peakPositions_spec p hn, peakRanges_eq (by omega)]
  congr 1
  apply List.map_congr_left
  have key : ∀ b a, ∀ x ∈ peaks b a n, rangeIndex x = topKey x := by
    intro b
    induction b with
    | zero => intro a x hx; simp [peaks] at hx
    | succ b ih =>
      intro a x hx
      rw [peaks] at hx
      split at hx
      · rcases List.mem_cons.1 hx with rfl | hx
        · simp [rangeIndex, topKey, ceilLog2_two_pow]
        · exact ih _ _ hx
      · exact ih _ _ hx
  intro x hx
  have := key 64 0 x hx
  unfold rangePos
  exact congrArg Position.mk this

theorem load_exact (p : Profile) (H : HashFn) (ds : List Bytes) (s : BStore E) (hn : ds.length < p.leafLimit) (hb : Believable H ds s) :
    match Machine.open ds s with
    | (.ok c, s') => c = ⟨ds.length, ds, s'⟩ ∧ ∃ t, Tree.load p s ds.length = (.ok t, s') ∧ t.storage = s' ∧ t.leavesCount = ds.length ∧ Holds H t.head ds.length ds
    | (.error e, s') => Tree.load p s ds.length = (.error e, s') := by
  have hlim := p.leafLimit_le
  have hpos := peakPositions_top p hn
  have hl := buildLoop_exact (fun x => mth H (stretch ds x)) (peaks 64 0 ds.length) [] ⟨s, [], ds.length⟩ hb
  unfold Machine.open Tree.load build
  simp only
  rw [Exec.get_bind, hpos, Exec.liftRes_ok_bind]
  simp only at hl
  rcases hq : readHashes [] ((peaks 64 0 ds.length).map topKey) s with ⟨e | v, s'⟩
  · rw [hq] at hl
    simp only at hl ⊢
    rw [Exec.bind_error hl]
  · rw [hq] at hl
    simp only at hl ⊢
    rw [Exec.bind_ok hl]
    refine ⟨trivial, _, rfl, rfl, rfl, ?_⟩
    rw [List.append_nil]
    exact peaks_hold H ds (by omega)

/-! ### Where storages are believable -/

theorem peaks_mem (n : Nat) : ∀ (b a : Nat), 2 ^ b ∣ a → ∀ x ∈ peaks b a n, ∃ h k, x = (k * 2 ^ h, 2 ^ h) ∧ (k + 1) * 2 ^ h ≤ a + n % 2 ^ b := by
  intro b
  induction b with
  | zero => intro a _ x hx; simp [peaks] at hx
  | succ b ih =>
    intro a ha x hx
    have ha' : 2 ^ b ∣ a := Nat.dvd_trans (Nat.pow_dvd_pow 2 (by omega)) ha
    have e : n % 2 ^ (b + 1) = 2 ^ b * (n / 2 ^ b % 2) + n % 2 ^ b := by
      rw [Nat.pow_succ, Nat.mod_mul]; omega
    rw [peaks, Nat.testBit_eq_decide_div_mod_eq] at hx
    by_cases hc : n / 2 ^ b % 2 = 1
    · rw [hc, Nat.mul_one] at e
      simp only [hc, decide_true, if_true] at hx
      rcases List.mem_cons.1 hx with rfl | hx
      · obtain ⟨c, rfl⟩ := ha'
        exact ⟨b, c, by rw [Nat.mul_comm], by rw [Nat.add_mul, Nat.one_mul, Nat.mul_comm c]; omega⟩
      · obtain ⟨h, k, h1, h2⟩ := ih (a + 2 ^ b) (Nat.dvd_add ha' (Nat.dvd_refl _)) x hx
        exact ⟨h, k, h1, by omega⟩
    · have hz : n / 2 ^ b % 2 = 0 := by omega
      rw [hz, Nat.mul_zero, Nat.zero_add] at e
      simp only [hc, decide_false, Bool.false_eq_true, if_false] at hx
      rw [e]
      exact ih a ha' x hx

theorem topKey_io (h k : Nat) : topKey (k * 2 ^ h, 2 ^ h) = ioIndex h k := by
  unfold topKey ioIndex
  rw [Nat.pow_succ]
  simp only
  congr 2
  rw [Nat.mul_comm k, ← Nat.mul_assoc, Nat.mul_comm 2]

/-- Storages with nothing or the right record under the keys of the complete subtrees are believable. -/
theorem believable_of (H : HashFn) (ds : List Bytes) (s : BStore E) (hn : ds.length < 2 ^ 64)
    (h : ∀ h k, (k + 1) * 2 ^ h ≤ ds.length → s.map (ioIndex h k) = none ∨
      s.map (ioIndex h k) = some (ioIndex h k, mth H ((ds.drop (k * 2 ^ h)).take (2 ^ h)))) : Believable H ds s := by
  intro x hx
  obtain ⟨g, k, rfl, h2⟩ := peaks_mem ds.length 64 0 (Nat.dvd_zero _) x hx
  rw [Nat.mod_eq_of_lt hn, Nat.zero_add] at h2
  rw [topKey_io]
  exact h g k h2

theorem believable_agree {H : HashFn} {ds : List Bytes} {s : BStore E} (hn : ds.length < 2 ^ 64) (h : Agree H ds s.map) : Believable H ds s :=
  believable_of H ds s hn fun g k hk => .inr (h g k hk)

end Binary
end FuelMerkle
