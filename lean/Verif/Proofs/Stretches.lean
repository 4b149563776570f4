import Verif.Proofs.Path
import Verif.Spec.Stretches

/-
Growing a list of complete subtrees leaf by leaf.
-/
namespace FuelMerkle
namespace Spec
variable {α : Type}

/-! ### Sizes -/

/-- Powers of two, from `2^k` on, each larger than the one before. -/
def Lens : Nat → List Nat → Prop
  | _, [] => True
  | k, a :: l => ∃ h, k ≤ h ∧ a = 2 ^ h ∧ Lens (h + 1) l

theorem Lens.mono : ∀ {l : List Nat} {k k' : Nat}, Lens k l → k' ≤ k → Lens k' l := by
  intro l k k' h hk
  cases l with
  | nil => trivial
  | cons a l =>
    obtain ⟨g, h1, h2⟩ := h
    exact ⟨g, by omega, h2⟩

theorem Lens.sum_dvd : ∀ {l : List Nat} {k : Nat}, Lens k l → 2 ^ k ∣ l.sum := by
  intro l
  induction l with
  | nil => intro k _; simp
  | cons a l ih =>
    rintro k ⟨g, h1, rfl, h3⟩
    rw [List.sum_cons]
    refine Nat.dvd_add (Nat.pow_dvd_pow 2 h1) (Nat.dvd_trans (Nat.pow_dvd_pow 2 (by omega)) (ih h3))

/-- The lengths of the lists joined from the right. -/
def joinLens : Nat → List Nat → List Nat
  | _, [] => []
  | b, a :: l => (a + b) :: joinLens (a + b) l

/-- The lengths of the lists joined as long as they are equally long. -/
def blockLens : Nat → List Nat → List Nat
  | _, [] => []
  | b, a :: l => if a = b then (a + b) :: blockLens (a + b) l else []

theorem root_sizes {n : Nat} (hn : n < 2 ^ 64) : ∀ (d k : Nat) (b : Nat) (l : List Nat), k + d = 64 → b < 2 ^ k → Lens k l → n = b + l.sum →
    (List.range' k d).filterMap (fun h => if n.testBit h = true ∧ n % 2 ^ h ≠ 0 then some (n % 2 ^ (h + 1)) else none) =
      if b = 0 then (match l with | [] => [] | a :: l => joinLens a l) else joinLens b l := by
  intro d
  induction d with
  | zero =>
    intro k b l hk hb hl hs
    have : l = [] := by
      cases l with
      | nil => rfl
      | cons a l =>
        obtain ⟨g, h1, rfl, _⟩ := hl
        have : 2 ^ 64 ≤ 2 ^ g := Nat.pow_le_pow_right (by omega) (by omega)
        rw [List.sum_cons] at hs; omega
    subst this
    simp [joinLens]
  | succ d ih =>
    intro k b l hk hb hl hs
    have h2 : 2 ^ (k + 1) = 2 * 2 ^ k := by rw [Nat.pow_succ]; omega
    have hpos := Nat.two_pow_pos k
    have hbit : ∀ c, n = b + 2 ^ (k + 1) * c → n.testBit k = false := by
      intro c hc
      have : n / 2 ^ k = 2 * c := by
        rw [hc, h2, Nat.mul_comm 2, Nat.mul_assoc, Nat.add_mul_div_left _ _ hpos, Nat.div_eq_of_lt hb]; omega
      rw [Nat.testBit_eq_decide_div_mod_eq, this]; simp
    rw [List.range'_succ]
    cases l with
    | nil =>
      have := hbit 0 (by simpa using hs)
      rw [List.filterMap_cons_none (by simp [this]), ih (k + 1) b [] (by omega) (by omega) trivial hs]
    | cons a l =>
      obtain ⟨g, h1, rfl, h3⟩ := hl
      by_cases hg : g = k
      · subst hg
        obtain ⟨c, hc⟩ := h3.sum_dvd
        have hs' := hs
        rw [List.sum_cons, hc] at hs
        have hdiv : n / 2 ^ g = 2 * c + 1 := by
          have : n = b + 2 ^ g * (2 * c + 1) := by rw [hs, h2, Nat.mul_add, ← Nat.mul_assoc, Nat.mul_comm (2 ^ g) 2]; omega
          rw [this, Nat.add_mul_div_left _ _ hpos, Nat.div_eq_of_lt hb]; omega
        have hm : n % 2 ^ g = b := by
          have : n = b + 2 ^ g * (2 * c + 1) := by rw [hs, h2, Nat.mul_add, ← Nat.mul_assoc, Nat.mul_comm (2 ^ g) 2]; omega
          rw [this, Nat.add_mul_mod_self_left, Nat.mod_eq_of_lt hb]
        have hm' : n % 2 ^ (g + 1) = 2 ^ g + b := by
          rw [hs, ← Nat.add_assoc, Nat.add_mul_mod_self_left, Nat.mod_eq_of_lt (by omega)]; omega
        have hbt : n.testBit g = true := by
          rw [Nat.testBit_eq_decide_div_mod_eq, hdiv]; simp
        have hih := ih (g + 1) (2 ^ g + b) l (by omega) (by omega) h3 (by rw [hs', List.sum_cons]; omega)
        by_cases hb0 : b = 0
        · rw [List.filterMap_cons_none (by simp [hm, hb0]), hih, if_pos hb0, if_neg (by omega), hb0, Nat.add_zero]
        · rw [List.filterMap_cons_some (b := 2 ^ g + b) (by rw [hm, hm', if_pos ⟨hbt, hb0⟩]), hih, if_neg hb0, if_neg (by omega), joinLens]
      · have hl' : Lens (k + 1) (2 ^ g :: l) := ⟨g, by omega, rfl, h3⟩
        obtain ⟨c, hc⟩ := hl'.sum_dvd
        have := hbit c (by rw [hs, hc])
        rw [List.filterMap_cons_none (by simp [this]), ih (k + 1) b _ (by omega) (by omega) hl' hs]

theorem push_sizes {n : Nat} (hn : n < 2 ^ 64) : ∀ (d k : Nat) (l : List Nat), k + d = 64 → Lens k l → n = 2 ^ k + l.sum →
    (List.range' k d).filterMap (fun h => if n % 2 ^ h = 0 then some (2 ^ h) else none) = 2 ^ k :: blockLens (2 ^ k) l := by
  intro d
  induction d with
  | zero =>
    intro k l hk _ hs
    have : k = 64 := by omega
    subst this
    omega
  | succ d ih =>
    intro k l hk hl hs
    have h2 : 2 ^ (k + 1) = 2 * 2 ^ k := by rw [Nat.pow_succ]; omega
    have hpos := Nat.two_pow_pos k
    have h0 : n % 2 ^ k = 0 := by
      obtain ⟨c, hc⟩ := hl.sum_dvd
      rw [hs, hc, Nat.add_mul_mod_self_left, Nat.mod_self]
    rw [List.range'_succ, List.filterMap_cons_some (b := 2 ^ k) (by rw [if_pos h0])]
    have hend : Lens (k + 1) l → (List.range' (k + 1) d).filterMap (fun h => if n % 2 ^ h = 0 then some (2 ^ h) else none) = [] := by
      intro hl'
      obtain ⟨c, hc⟩ := hl'.sum_dvd
      rw [List.filterMap_eq_nil_iff]
      intro h hh
      rw [List.mem_range'_1] at hh
      rw [if_neg]
      intro e
      have h3 : 2 ^ (k + 1) ∣ n := Nat.dvd_trans (Nat.pow_dvd_pow 2 (by omega)) (Nat.dvd_of_mod_eq_zero e)
      rw [hs, hc] at h3
      have h4 := (Nat.dvd_add_left (Nat.dvd_mul_right (2 ^ (k + 1)) c)).1 h3
      have := Nat.le_of_dvd hpos h4
      omega
    cases l with
    | nil => rw [hend trivial, blockLens]
    | cons a l =>
      obtain ⟨g, h1, rfl, h3⟩ := hl
      by_cases hg : g = k
      · subst hg
        rw [blockLens, if_pos rfl, ih (g + 1) l (by omega) h3 (by rw [hs, List.sum_cons]; omega), h2, Nat.two_mul]
      · rw [blockLens, if_neg (fun e => hg (Nat.pow_right_injective (Nat.le_refl 2) e)), hend ⟨g, by omega, rfl, h3⟩]

/-! ### Lists of complete subtrees -/

/-- The leaves in order. -/
def inOrder (l : List (List α)) : List α := l.reverse.flatten

theorem inOrder_cons (a : List α) (l : List (List α)) : inOrder (a :: l) = inOrder l ++ a := by simp [inOrder]

theorem inOrder_length (l : List (List α)) : (inOrder l).length = (l.map List.length).sum := by
  induction l with
  | nil => rfl
  | cons a l ih => rw [inOrder_cons, List.length_append, ih, List.map_cons, List.sum_cons, Nat.add_comm]

/-- The lists joined from the right. -/
def joins : List α → List (List α) → List (List α)
  | _, [] => []
  | b, a :: l => (a ++ b) :: joins (a ++ b) l

/-- The lists joined as long as they are equally long. -/
def blocks : List α → List (List α) → List (List α)
  | _, [] => []
  | b, a :: l => if a.length = b.length then (a ++ b) :: blocks (a ++ b) l else []

/-- What is left when the lists are joined as long as they are equally long. -/
def merged : List α → List (List α) → List (List α)
  | b, [] => [b]
  | b, a :: l => if a.length = b.length then merged (a ++ b) l else b :: a :: l

theorem lastOf_right (a b : List α) : lastOf (a ++ b) b.length = b := by
  unfold lastOf
  rw [List.length_append, Nat.add_sub_cancel, List.drop_left]

theorem joins_lastOf : ∀ (l : List (List α)) (b : List α),
    joins b l = (joinLens b.length (l.map List.length)).map (lastOf (inOrder l ++ b)) := by
  intro l
  induction l with
  | nil => intro b; rfl
  | cons a l ih =>
    intro b
    rw [joins, ih, List.map_cons, joinLens, List.map_cons, inOrder_cons, List.append_assoc, List.length_append]
    congr 1
    rw [← List.length_append, lastOf_right]

theorem blocks_lastOf : ∀ (l : List (List α)) (b : List α),
    blocks b l = (blockLens b.length (l.map List.length)).map (lastOf (inOrder l ++ b)) := by
  intro l
  induction l with
  | nil => intro b; rfl
  | cons a l ih =>
    intro b
    rw [blocks, List.map_cons, blockLens]
    split
    · rw [ih, List.map_cons, inOrder_cons, List.append_assoc, List.length_append]
      congr 1
      rw [← List.length_append, lastOf_right]
    · rfl

theorem merged_inOrder : ∀ (l : List (List α)) (b : List α), inOrder (merged b l) = inOrder l ++ b := by
  intro l
  induction l with
  | nil => intro b; simp [merged, inOrder]
  | cons a l ih =>
    intro b
    rw [merged]
    split
    · rw [ih, inOrder_cons, List.append_assoc]
    · rw [inOrder_cons]

theorem rootSizes_eq {l : List Nat} (h : Lens 0 l) (hn : l.sum < 2 ^ 64) :
    rootSizes l.sum = (match l with | [] => [] | a :: l => joinLens a l) := by
  have := root_sizes hn 64 0 0 l rfl (by omega) h (by omega)
  unfold rootSizes
  rw [List.range_eq_range', this, if_pos rfl]

theorem pushSizes_eq {l : List Nat} (h : Lens 0 l) (hn : l.sum + 1 < 2 ^ 64) : pushSizes (l.sum + 1) = 1 :: blockLens 1 l := by
  have := push_sizes hn 64 0 l rfl h (by rw [Nat.add_comm]; rfl)
  unfold pushSizes
  rw [List.range_eq_range', this]
  rfl

theorem root_lists {l : List (List α)} (h : Lens 0 (l.map List.length)) (hn : (inOrder l).length < 2 ^ 64) :
    (rootSizes (inOrder l).length).map (lastOf (inOrder l)) = (match l with | [] => [] | a :: l => joins a l) := by
  have := root_sizes hn 64 0 0 (l.map List.length) rfl (by omega) h (by rw [inOrder_length]; omega)
  unfold rootSizes
  rw [List.range_eq_range', this, if_pos rfl]
  cases l with
  | nil => rfl
  | cons a l => simp only [List.map_cons]; rw [joins_lastOf, inOrder_cons]

theorem push_lists {l : List (List α)} (h : Lens 0 (l.map List.length)) (x : α) (hn : (inOrder l ++ [x]).length < 2 ^ 64) :
    (pushSizes (inOrder l ++ [x]).length).map (lastOf (inOrder l ++ [x])) = [x] :: blocks [x] l := by
  have := push_sizes hn 64 0 (l.map List.length) rfl h (by rw [List.length_append, inOrder_length, Nat.add_comm]; rfl)
  unfold pushSizes
  rw [List.range_eq_range', this, List.map_cons, blocks_lastOf]
  congr 1
  exact lastOf_right _ [x]

end Spec
end FuelMerkle
