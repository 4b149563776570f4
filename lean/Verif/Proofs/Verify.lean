import Verif.Model.Verify
import Verif.Spec.Verifier
import Verif.Proofs.Rfc6962
import Verif.Proofs.Exec
import Mathlib.Tactic.Ring

/-
The proof checker of the test helpers.
-/
namespace FuelMerkle
open Spec Binary

/-! ### Blocks -/

theorem block_succ {i n m : Nat} (h : (i / 2 ^ (m + 1) + 1) * 2 ^ (m + 1) ≤ n) :
    (i / 2 ^ m + 1) * 2 ^ m ≤ n := by
  have e : i / 2 ^ (m + 1) = i / 2 ^ m / 2 := by rw [Nat.pow_succ, Nat.div_div_eq_div_mul]
  rw [e] at h
  have hp := Nat.two_pow_pos m
  have h2 : i / 2 ^ m + 1 ≤ (i / 2 ^ m / 2 + 1) * 2 := by omega
  calc (i / 2 ^ m + 1) * 2 ^ m ≤ ((i / 2 ^ m / 2 + 1) * 2) * 2 ^ m := Nat.mul_le_mul_right _ h2
    _ = (i / 2 ^ m / 2 + 1) * 2 ^ (m + 1) := by ring
    _ ≤ n := h

theorem block_mono {i n m m' : Nat} (hm : m ≤ m') (h : (i / 2 ^ m' + 1) * 2 ^ m' ≤ n) :
    (i / 2 ^ m + 1) * 2 ^ m ≤ n := by
  obtain ⟨e, rfl⟩ := Nat.exists_eq_add_of_le hm
  induction e with
  | zero => exact h
  | succ e ih => exact ih (by omega) (block_succ h)

theorem blockHeight_le (i n b : Nat) : blockHeight i n b ≤ b := by
  induction b with
  | zero => exact Nat.le_refl _
  | succ b ih => rw [blockHeight]; split <;> omega

theorem blockHeight_complete {i n : Nat} (hi : i < n) (b : Nat) :
    (i / 2 ^ blockHeight i n b + 1) * 2 ^ blockHeight i n b ≤ n := by
  induction b with
  | zero => simp [blockHeight]; omega
  | succ b ih =>
    rw [blockHeight]
    split
    · assumption
    · exact ih

theorem blockHeight_max {i n b m : Nat} (hm : m ≤ b) (h : (i / 2 ^ m + 1) * 2 ^ m ≤ n) :
    m ≤ blockHeight i n b := by
  induction b with
  | zero => omega
  | succ b ih =>
    rw [blockHeight]
    split
    · exact hm
    · next hc =>
      rcases Nat.lt_or_ge b m with hlt | hge
      · have : m = b + 1 := by omega
        subst this; exact absurd h hc
      · exact ih hge

theorem blockHeight_eq {i n m : Nat} (hm : m < 64) (h1 : (i / 2 ^ m + 1) * 2 ^ m ≤ n)
    (h2 : ¬ (i / 2 ^ (m + 1) + 1) * 2 ^ (m + 1) ≤ n) (hi : i < n) : blockHeight i n 64 = m := by
  have a := blockHeight_max (b := 64) (by omega) h1
  have c := blockHeight_complete hi 64
  rcases Nat.lt_or_ge m (blockHeight i n 64) with hlt | hge
  · exact absurd (block_mono hlt c) h2
  · omega

/-- For `n < 2 ^ 63` the block height is at most 62. -/
theorem blockHeight_lt {i n : Nat} (hi : i < n) (hn : n < 2 ^ 63) :
    blockHeight i n 64 ≤ 62 ∧
      ¬ (i / 2 ^ (blockHeight i n 64 + 1) + 1) * 2 ^ (blockHeight i n 64 + 1) ≤ n := by
  have c := blockHeight_complete hi 64
  have hle : blockHeight i n 64 ≤ 62 := by
    rcases Nat.lt_or_ge 62 (blockHeight i n 64) with hlt | hge
    · have h1 : 2 ^ 63 ≤ 2 ^ blockHeight i n 64 := Nat.pow_le_pow_right (by decide) hlt
      have h2 : 2 ^ blockHeight i n 64 ≤ (i / 2 ^ blockHeight i n 64 + 1) * 2 ^ blockHeight i n 64 := Nat.le_mul_of_pos_left (2 ^ blockHeight i n 64)
        (Nat.succ_pos (i / 2 ^ blockHeight i n 64))
      omega
    · exact hge
  refine ⟨hle, fun h => ?_⟩
  have := blockHeight_max (b := 64) (by omega) h
  omega

theorem lowBits_succ (i m : Nat) : lowBits i (m + 1) = lowBits i m ++ [i / 2 ^ m % 2 == 1] := by
  simp [lowBits, List.range_succ]

theorem lowBits_length (i m : Nat) : (lowBits i m).length = m := by simp [lowBits]

theorem climb_append (H : HashFn) (l l' : List (Bool × Bytes32)) (s : Bytes32) :
    climb H s (l ++ l') = climb H (climb H s l) l' := by
  induction l generalizing s with
  | nil => rfl
  | cons a l ih => obtain ⟨b, x⟩ := a; exact ih _

theorem climbMsgs_append (H : HashFn) (l l' : List (Bool × Bytes32)) (s : Bytes32) :
    climbMsgs H s (l ++ l') = climbMsgs H s l ++ climbMsgs H (climb H s l) l' := by
  induction l generalizing s with
  | nil => rfl
  | cons a l ih =>
    obtain ⟨b, x⟩ := a
    simp only [List.cons_append, climbMsgs, ih, climb]

/-! ### The code -/

namespace Verify

theorem bit_side {i h : Nat} : i - i / 2 ^ (h + 1) * 2 ^ (h + 1) < 2 ^ h ↔ ¬ i / 2 ^ h % 2 = 1 := by
  have hp := Nat.two_pow_pos h
  have e1 : i / 2 ^ (h + 1) = i / 2 ^ h / 2 := by rw [Nat.pow_succ, Nat.div_div_eq_div_mul]
  have e2 : i / 2 ^ h / 2 * 2 ^ (h + 1) = i / 2 ^ h / 2 * 2 * 2 ^ h := by ring
  have e3 := Nat.div_add_mod' i (2 ^ h)
  have e4 := Nat.mod_lt i hp
  rw [e1, e2]
  generalize i / 2 ^ h = q at *
  generalize 2 ^ h = w at *
  generalize i % w = r at *
  rcases Nat.mod_two_eq_zero_or_one q with hq | hq
  · have : q / 2 * 2 = q := by omega
    rw [this]; omega
  · have h1 : q = q / 2 * 2 + 1 := by omega
    have : q * w = q / 2 * 2 * w + w := by
      conv_lhs => rw [h1]
      ring
    omega

theorem div_pow_mul_lt {i j : Nat} (hi : i < 2 ^ 64) (hj : j + 1 < 64) :
    i / 2 ^ (j + 1) * 2 ^ (j + 1) + 2 ^ (j + 1) ≤ 2 ^ 64 := by
  have e : (2 : Nat) ^ 64 = 2 ^ (64 - (j + 1)) * 2 ^ (j + 1) := by rw [← Nat.pow_add]; congr 1; omega
  have h : i / 2 ^ (j + 1) < 2 ^ (64 - (j + 1)) := by
    rw [Nat.div_lt_iff_lt_mul (Nat.two_pow_pos _), ← e]; exact hi
  rw [e, ← Nat.succ_mul]
  exact Nat.mul_le_mul_right _ h

theorem pow2_ok (p : Profile) {h : Nat} (hh : h < 64) : pow2 p h = .ok (2 ^ h) := by
  simp [pow2, u64Shl1, shiftAmount, hh]

/-- One round, where the sum `start + (1 << height)` does not overflow or wraps. -/
theorem loop_round (p : Profile) (H : HashFn) (proofSet : List Bytes32) {i n j : Nat} (hi : i < 2 ^ 64)
    (hj : j + 1 < 64) (hok : (i / 2 ^ (j + 1) + 1) * 2 ^ (j + 1) < 2 ^ 64 ∨ p.overflowChecks = false)
    (fuel : Nat) (sum : Bytes32) (se : Nat) :
    loop p H proofSet i n (fuel + 1) { height := j + 1, sum, stableEnd := se } =
      if n < (i / 2 ^ (j + 1) + 1) * 2 ^ (j + 1) then .ok (some { height := j + 1, sum, stableEnd := se })
      else match proofSet[j + 1]? with
        | none => .ok none
        | some x => loop p H proofSet i n fuel
          { height := j + 2, sum := H (stepMsg sum (i / 2 ^ j % 2 == 1) x),
            stableEnd := (i / 2 ^ (j + 1) + 1) * 2 ^ (j + 1) - 1 } := by
  have hp := Nat.two_pow_pos (j + 1)
  have hdm := Nat.div_mul_le_self i (2 ^ (j + 1))
  have hmul : (i / 2 ^ (j + 1) + 1) * 2 ^ (j + 1) = i / 2 ^ (j + 1) * 2 ^ (j + 1) + 2 ^ (j + 1) := by ring
  have htop := div_pow_mul_lt hi hj
  have hend : (do let e ← u64Add p (i / 2 ^ (j + 1) * 2 ^ (j + 1)) (2 ^ (j + 1)); u64Sub p e 1) =
      Except.ok ((i / 2 ^ (j + 1) + 1) * 2 ^ (j + 1) - 1) := by
    rw [hmul]
    by_cases hlt : i / 2 ^ (j + 1) * 2 ^ (j + 1) + 2 ^ (j + 1) < 2 ^ 64
    · rw [u64Add, if_pos hlt, Res.ok_bind, u64Sub, if_pos (by omega)]
    · have hc : p.overflowChecks = false := by
        rcases hok with h | h
        · omega
        · exact h
      have he : i / 2 ^ (j + 1) * 2 ^ (j + 1) + 2 ^ (j + 1) = 2 ^ 64 := by omega
      rw [u64Add, if_neg hlt, hc, if_neg (by simp), Res.ok_bind, he, Nat.mod_self, u64Sub, if_neg (by omega),
        hc, if_neg (by simp), Nat.zero_add]
  rw [loop, pow2_ok p hj, Res.ok_bind, u64Mul, if_pos (by omega), Res.ok_bind]
  have hb : ∀ f : Nat → Res (Option St),
      (do let e ← u64Add p (i / 2 ^ (j + 1) * 2 ^ (j + 1)) (2 ^ (j + 1)); let r ← u64Sub p e 1; f r) =
      f ((i / 2 ^ (j + 1) + 1) * 2 ^ (j + 1) - 1) := by
    intro f
    have : (do let e ← u64Add p (i / 2 ^ (j + 1) * 2 ^ (j + 1)) (2 ^ (j + 1)); let r ← u64Sub p e 1; f r) =
        (do let e ← u64Add p (i / 2 ^ (j + 1) * 2 ^ (j + 1)) (2 ^ (j + 1)); u64Sub p e 1) >>= f := by
      rw [bind_assoc]
    rw [this, hend, Res.ok_bind]
  rw [hb]
  by_cases hc : n < (i / 2 ^ (j + 1) + 1) * 2 ^ (j + 1)
  · rw [if_pos (by omega), if_pos hc]; rfl
  · rw [if_neg (by omega), if_neg hc]
    cases proofSet[j + 1]? with
    | none => rfl
    | some x =>
      dsimp only
      rw [u64Sub, if_pos hdm, Res.ok_bind, Nat.add_sub_cancel, pow2_ok p (by omega), Res.ok_bind]
      congr 2
      by_cases hb : i / 2 ^ j % 2 = 1
      · rw [if_neg (mt bit_side.1 (not_not_intro hb))]
        simp [hb, nodeSum, Prefix.bytes, stepMsg]
      · rw [if_pos (bit_side.2 hb)]
        simp [hb, nodeSum, Prefix.bytes, stepMsg]

/-- One round, where the sum `start + (1 << height)` overflows and is checked. -/
theorem loop_round_panic (p : Profile) (H : HashFn) (proofSet : List Bytes32) {i n j : Nat} (hi : i < 2 ^ 64)
    (hj : j + 1 < 64) (hbig : 2 ^ 64 ≤ (i / 2 ^ (j + 1) + 1) * 2 ^ (j + 1)) (hc : p.overflowChecks = true)
    (fuel : Nat) (st : St) (hst : st.height = j + 1) :
    loop p H proofSet i n (fuel + 1) st = .error .overflow := by
  have hdm := Nat.div_mul_le_self i (2 ^ (j + 1))
  have hmul : (i / 2 ^ (j + 1) + 1) * 2 ^ (j + 1) = i / 2 ^ (j + 1) * 2 ^ (j + 1) + 2 ^ (j + 1) := by ring
  rw [loop, hst, pow2_ok p hj, Res.ok_bind, u64Mul, if_pos (by omega), Res.ok_bind, u64Add,
    if_neg (by omega), hc, if_pos rfl]
  rfl

theorem climb_take_succ (H : HashFn) (first : Bytes32) (rest : List Bytes32) (i : Nat) {j : Nat}
    (hj : j < rest.length) :
    climb H first ((lowBits i (j + 1)).zip (rest.take (j + 1))) =
      H (stepMsg (climb H first ((lowBits i j).zip (rest.take j))) (i / 2 ^ j % 2 == 1) rest[j]) := by
  rw [lowBits_succ, List.take_succ_eq_append_getElem hj, List.zip_append (by simp [lowBits_length]; omega),
    climb_append]
  rfl

/-- The rounds inside the largest complete block. -/
theorem loop_inside (p : Profile) (H : HashFn) {i n : Nat} (first : Bytes32) (rest : List Bytes32)
    (hn : n < 2 ^ 64) {m : Nat} (hm62 : m ≤ 63) (hi : i < n)
    (hcomp : (i / 2 ^ m + 1) * 2 ^ m ≤ n) (fuel : Nat) :
    ∀ k j, j + k = m → j ≤ rest.length →
      loop p H (first :: rest) i n (fuel + k)
        { height := j + 1, sum := climb H first ((lowBits i j).zip (rest.take j)),
          stableEnd := (i / 2 ^ j + 1) * 2 ^ j - 1 } =
      if m ≤ rest.length then loop p H (first :: rest) i n fuel
        { height := m + 1, sum := climb H first ((lowBits i m).zip (rest.take m)),
          stableEnd := (i / 2 ^ m + 1) * 2 ^ m - 1 } else .ok none := by
  intro k
  induction k with
  | zero =>
    intro j hj hle
    have : j = m := by omega
    subst this
    rw [if_pos hle, Nat.add_zero]
  | succ k ih =>
    intro j hj hle
    have hc : (i / 2 ^ (j + 1) + 1) * 2 ^ (j + 1) ≤ n := block_mono (by omega) hcomp
    rw [show fuel + (k + 1) = (fuel + k) + 1 by omega,
      loop_round p H _ (by omega) (by omega) (Or.inl (by omega)), if_neg (by omega),
      List.getElem?_cons_succ]
    rcases Nat.lt_or_ge j rest.length with hlt | hge
    · rw [List.getElem?_eq_getElem hlt]
      dsimp only
      rw [← climb_take_succ H first rest i hlt]
      exact ih (j + 1) (by omega) hlt
    · rw [List.getElem?_eq_none hge]
      dsimp only
      rw [if_neg (by omega)]

/-- The loop from its start, up to the round that decides. -/
theorem loop_to_block (p : Profile) (H : HashFn) {i n : Nat} (first : Bytes32) (rest : List Bytes32)
    (hn : n < 2 ^ 64) {m : Nat} (hm62 : m ≤ 63) (hi : i < n)
    (hcomp : (i / 2 ^ m + 1) * 2 ^ m ≤ n) {fuel : Nat} (hf : m ≤ fuel) :
    loop p H (first :: rest) i n fuel { height := 1, sum := first, stableEnd := i } =
      if m ≤ rest.length then loop p H (first :: rest) i n (fuel - m)
        { height := m + 1, sum := climb H first ((lowBits i m).zip (rest.take m)),
          stableEnd := (i / 2 ^ m + 1) * 2 ^ m - 1 } else .ok none := by
  have h := loop_inside p H first rest hn hm62 hi hcomp (fuel - m) m 0 (by omega) (by omega)
  simp only [Nat.pow_zero, Nat.div_one, Nat.mul_one, Nat.add_sub_cancel, List.take_zero, List.zip_nil_right,
    climb, Nat.zero_add] at h
  rw [← h, Nat.sub_add_cancel hf]

theorem loop_spec (p : Profile) (H : HashFn) {i n : Nat} (first : Bytes32) (rest : List Bytes32)
    (hi : i < n) (hn : n < 2 ^ 64) {m : Nat} (hm : m = blockHeight i n 64) (hm62 : m ≤ 62)
    (hok : (i / 2 ^ (m + 1) + 1) * 2 ^ (m + 1) < 2 ^ 64 ∨ p.overflowChecks = false) {fuel : Nat}
    (hf : m < fuel) :
      loop p H (first :: rest) i n fuel { height := 1, sum := first, stableEnd := i } =
      .ok (if m ≤ rest.length then some
        { height := m + 1, sum := climb H first ((lowBits i m).zip (rest.take m)),
          stableEnd := (i / 2 ^ m + 1) * 2 ^ m - 1 } else none) := by
  have hcomp := blockHeight_complete hi 64
  rw [← hm] at hcomp
  rw [loop_to_block p H first rest hn (by omega) hi hcomp (by omega)]
  split
  · obtain ⟨f, hf'⟩ : ∃ f, fuel - m = f + 1 := ⟨fuel - m - 1, by omega⟩
    rw [hf', loop_round p H _ (by omega) (by omega) hok, if_pos]
    rcases Nat.lt_or_ge n ((i / 2 ^ (m + 1) + 1) * 2 ^ (m + 1)) with h | h
    · exact h
    · have := blockHeight_max (b := 64) (by omega) h
      omega
  · rfl

theorem finish_eq (H : HashFn) (rest : List Bytes32) (s : Bytes32) :
    finish H s rest = climb H s ((List.replicate rest.length true).zip rest) := by
  induction rest generalizing s with
  | nil => rfl
  | cons x rest ih =>
    simp only [finish, List.foldl_cons, List.length_cons, List.replicate_succ, List.zip_cons_cons, climb,
      stepMsg] at ih ⊢
    rw [ih]; rfl

theorem hstep (H : HashFn) (a b : Bytes32) : H (stepMsg a false b) = nodeSum H a.val b.val := by
  simp [stepMsg, nodeSum, Prefix.bytes]

/-- What `verify` computes, when the round that decides is not hit by an overflow check. -/
theorem verify_eq_of (p : Profile) (H : HashFn) (root first : Bytes32) (rest : List Bytes32) {i n : Nat}
    (hn : n < 2 ^ 64) (hm62 : i < n → blockHeight i n 64 ≤ 62)
    (hok : i < n → (i / 2 ^ (blockHeight i n 64 + 1) + 1) * 2 ^ (blockHeight i n 64 + 1) < 2 ^ 64 ∨
      p.overflowChecks = false) :
    ∃ b, verify p H root (first :: rest) i n = .ok b ∧
      (b = true ↔ (i < n ∧ (forcedSides i n).length ≤ rest.length ∧
        climb H first ((sidesOf i n rest.length).zip rest) = root)) := by
  unfold verify
  by_cases hi : i < n
  swap
  · rw [if_pos (by omega)]; exact ⟨false, rfl, by simp [hi]⟩
  rw [if_neg (by omega)]
  dsimp only
  have hl := loop_spec p H first rest hi hn rfl (hm62 hi) (hok hi)
    (fuel := (first :: rest).length + 66) (by have := hm62 hi; omega)
  have hcomp := blockHeight_complete hi 64
  rw [hl, Res.ok_bind]
  have hf : forcedSides i n = lowBits i (blockHeight i n 64) ++
    if (i / 2 ^ blockHeight i n 64 + 1) * 2 ^ blockHeight i n 64 = n then [] else [false] := rfl
  unfold sidesOf
  generalize forcedSides i n = F at *
  generalize blockHeight i n 64 = m at *
  by_cases hm : m ≤ rest.length
  swap
  · rw [if_neg hm]
    have : m ≤ F.length := by rw [hf]; simp [lowBits_length]
    refine ⟨false, rfl, ?_⟩
    simp only [Bool.false_eq_true, false_iff, not_and]
    intro _ h; omega
  rw [if_pos hm]
  dsimp only
  rw [u64Sub, if_pos (by omega), Res.ok_bind]
  have hblk : 0 < (i / 2 ^ m + 1) * 2 ^ m := Nat.mul_pos (Nat.succ_pos _) (Nat.two_pow_pos m)
  have hz : ∀ l : List Bool, (lowBits i m ++ l).zip rest =
      (lowBits i m).zip (rest.take m) ++ l.zip (rest.drop m) := by
    intro l
    conv_lhs => rw [← List.take_append_drop m rest]
    rw [List.zip_append (by simp [lowBits_length]; omega)]
  by_cases he : (i / 2 ^ m + 1) * 2 ^ m = n
  · rw [if_pos he, List.append_nil] at hf
    subst hf
    rw [if_neg (by omega)]
    refine ⟨_, rfl, ?_⟩
    rw [decide_eq_true_iff, lowBits_length, finish_eq, hz, climb_append,
      List.drop_succ_cons, List.length_drop]
    exact ⟨fun h => ⟨hi, hm, h⟩, fun h => h.2.2⟩
  · rw [if_neg he] at hf
    subst hf
    rw [if_pos (by omega), List.getElem?_cons_succ]
    have hfl : (lowBits i m ++ [false]).length = m + 1 := by simp [lowBits_length]
    rw [hfl]
    rcases Nat.lt_or_ge m rest.length with hlt | hge
    · rw [List.getElem?_eq_getElem hlt]
      refine ⟨_, rfl, ?_⟩
      rw [decide_eq_true_iff, finish_eq, List.append_assoc, hz, climb_append, List.drop_eq_getElem_cons hlt]
      rw [List.singleton_append, List.zip_cons_cons, climb, hstep H, List.drop_succ_cons,
        List.length_drop]
      exact ⟨fun h => ⟨hi, hlt, h⟩, fun h => h.2.2⟩
    · rw [List.getElem?_eq_none (by omega)]
      refine ⟨false, rfl, ?_⟩
      simp only [Bool.false_eq_true, false_iff, not_and]
      intro _ h; omega

/-- What `verify` computes for fewer than `2 ^ 63` leaves. -/
theorem verify_eq (p : Profile) (H : HashFn) (root first : Bytes32) (rest : List Bytes32) {i n : Nat}
    (hn : n < 2 ^ 63) :
    ∃ b, verify p H root (first :: rest) i n = .ok b ∧
      (b = true ↔ (i < n ∧ (forcedSides i n).length ≤ rest.length ∧
        climb H first ((sidesOf i n rest.length).zip rest) = root)) := by
  refine verify_eq_of p H root first rest (by omega) (fun hi => (blockHeight_lt hi hn).1) fun hi => Or.inl ?_
  have hm := (blockHeight_lt hi hn).1
  have hd := Nat.div_mul_le_self i (2 ^ (blockHeight i n 64 + 1))
  have h1 : 2 ^ (blockHeight i n 64 + 1) ≤ 2 ^ 63 := Nat.pow_le_pow_right (by decide) (by omega)
  rw [Nat.succ_mul]
  omega

/-! ### Counts from `2 ^ 63` on -/

/-- For an index from `2 ^ 63` on the block height is at most 62. -/
theorem blockHeight_high {i n : Nat} (hi : i < n) (hn : n < 2 ^ 64) (h63 : 2 ^ 63 ≤ i) :
    blockHeight i n 64 ≤ 62 := by
  have c := blockHeight_complete hi 64
  rcases Nat.lt_or_ge 62 (blockHeight i n 64) with hlt | hge
  · have h := block_mono (m := 63) hlt c
    have : 1 ≤ i / 2 ^ 63 := by omega
    have h2 : 2 * 2 ^ 63 ≤ (i / 2 ^ 63 + 1) * 2 ^ 63 := Nat.mul_le_mul_right _ (by omega)
    omega
  · exact hge

/-- For an index below `2 ^ 63` and a count from `2 ^ 63` on it is 63. -/
theorem blockHeight_low {i n : Nat} (hn : n < 2 ^ 64) (hi : i < 2 ^ 63) (h63 : 2 ^ 63 ≤ n) :
    blockHeight i n 64 = 63 := by
  have e : i / 2 ^ 63 = 0 := Nat.div_eq_of_lt hi
  have e' : i / 2 ^ 64 = 0 := Nat.div_eq_of_lt (by omega)
  refine blockHeight_eq (by omega) ?_ ?_ (by omega)
  · rw [e]; omega
  · show ¬ (i / 2 ^ 64 + 1) * 2 ^ 64 ≤ n
    rw [e']; omega

/-- With wrapping arithmetic the loop never leaves the leaves: it stops at the end of the
proof set. -/
theorem loop_wrap (p : Profile) (H : HashFn) (proofSet : List Bytes32) {i n : Nat} (hn : n < 2 ^ 64)
    (hi : i < 2 ^ 63) (h63 : 2 ^ 63 ≤ n) (hc : p.overflowChecks = false) (fuel : Nat) :
    ∀ st : St, 1 ≤ st.height → proofSet.length < st.height + fuel → 0 < fuel →
      loop p H proofSet i n fuel st = .ok none := by
  induction fuel with
  | zero => intro st _ _ h; omega
  | succ fuel ih =>
    intro st h1 h2 _
    have hpw : ∀ h, pow2 p h = .ok (2 ^ (h % 64)) := by
      intro h
      by_cases hh : h < 64
      · rw [pow2_ok p hh, Nat.mod_eq_of_lt hh]
      · simp [pow2, u64Shl1, shiftAmount, hh, hc]
    have hlt : st.height % 64 < 64 := Nat.mod_lt _ (by decide)
    have hdm := Nat.div_mul_le_self i (2 ^ (st.height % 64))
    have hblk : (i / 2 ^ (st.height % 64) + 1) * 2 ^ (st.height % 64) ≤ n := by
      refine block_mono (m' := 63) (by omega) ?_
      rw [Nat.div_eq_of_lt hi]; omega
    have hpos := Nat.two_pow_pos (st.height % 64)
    rw [Nat.succ_mul] at hblk
    rw [loop, hpw, Res.ok_bind, u64Mul, if_pos (by omega), Res.ok_bind, u64Add, if_pos (by omega), Res.ok_bind,
      u64Sub, if_pos (by omega), Res.ok_bind, if_neg (by omega)]
    rcases Nat.lt_or_ge st.height proofSet.length with hh | hh
    · rw [List.getElem?_eq_getElem hh]
      dsimp only
      rw [u64Sub, if_pos hdm, Res.ok_bind, hpw, Res.ok_bind]
      exact ih _ (by show 1 ≤ st.height + 1; omega) (by show _ < st.height + 1 + fuel; omega) (by omega)
    · rw [List.getElem?_eq_none hh]; rfl

/-- `verify` for an index below `2 ^ 63` and a count from `2 ^ 63` on. -/
theorem verify_low (p : Profile) (H : HashFn) (root first : Bytes32) (rest : List Bytes32) {i n : Nat}
    (hn : n < 2 ^ 64) (hi : i < 2 ^ 63) (h63 : 2 ^ 63 ≤ n) :
    verify p H root (first :: rest) i n =
      if p.overflowChecks = true ∧ 63 ≤ rest.length then .error .overflow else .ok false := by
  unfold verify
  rw [if_neg (by omega)]
  dsimp only
  by_cases hc : p.overflowChecks = true
  · have e : (i / 2 ^ 63 + 1) * 2 ^ 63 ≤ n := by rw [Nat.div_eq_of_lt hi]; omega
    rw [loop_to_block p H first rest hn (Nat.le_refl 63) (by omega) e (by omega)]
    by_cases hl : 63 ≤ rest.length
    · rw [if_pos hl, if_pos ⟨hc, hl⟩]
      rw [show (first :: rest).length + 66 - 63 = ((first :: rest).length + 2) + 1 by omega, loop]
      simp only [pow2, u64Shl1, shiftAmount, hc]
      rfl
    · rw [if_neg hl, if_neg (fun h => hl h.2)]; rfl
  · have hc' : p.overflowChecks = false := by simpa using hc
    rw [loop_wrap p H _ hn hi h63 hc' _ _ (by simp) (by simp; omega) (by omega), if_neg (fun h => hc h.1)]
    rfl

/-- `verify` when the deciding round is hit by an overflow check. -/
theorem verify_panic (p : Profile) (H : HashFn) (root first : Bytes32) (rest : List Bytes32) {i n : Nat}
    (hn : n < 2 ^ 64) (hi : i < n) (hm62 : blockHeight i n 64 ≤ 62) (hc : p.overflowChecks = true)
    (hbig : 2 ^ 64 ≤ (i / 2 ^ (blockHeight i n 64 + 1) + 1) * 2 ^ (blockHeight i n 64 + 1)) :
    verify p H root (first :: rest) i n =
      if blockHeight i n 64 ≤ rest.length then .error .overflow else .ok false := by
  unfold verify
  rw [if_neg (by omega)]
  dsimp only
  have hcomp := blockHeight_complete hi 64
  rw [loop_to_block p H first rest hn (by omega) hi hcomp (by omega)]
  generalize blockHeight i n 64 = m at *
  by_cases hl : m ≤ rest.length
  · rw [if_pos hl, if_pos hl]
    obtain ⟨f, hf'⟩ : ∃ f, (first :: rest).length + 66 - m = f + 1 := ⟨(first :: rest).length + 65 - m, by omega⟩
    rw [hf', loop_round_panic p H _ (by omega) (by omega) hbig hc f _ rfl]
    rfl
  · rw [if_neg hl, if_neg hl]; rfl

end Verify

/-! ### Paths in the tree -/

theorem lowBits_sub {i e m : Nat} (hm : m ≤ e) (hi : 2 ^ e ≤ i) : lowBits i m = lowBits (i - 2 ^ e) m := by
  unfold lowBits
  apply List.map_congr_left
  intro j hj
  have hj := List.mem_range.1 hj
  obtain ⟨c, rfl⟩ := Nat.exists_eq_add_of_lt (show j < e by omega)
  have e1 : i = (i - 2 ^ (j + c + 1)) + 2 ^ j * (2 * 2 ^ c) := by
    have : 2 ^ j * (2 * 2 ^ c) = 2 ^ (j + c + 1) := by ring
    omega
  have e2 : i / 2 ^ j = (i - 2 ^ (j + c + 1)) / 2 ^ j + 2 * 2 ^ c := by
    conv_lhs => rw [e1]
    rw [Nat.add_mul_div_left _ _ (Nat.two_pow_pos j)]
  rw [e2, Nat.add_mul_mod_self_left]

/-- The audit path climbs to the root, on the sides computed by `sidesOf`. -/
theorem perfect_climb (H : HashFn) (m : Nat) : ∀ (D : List Bytes) (i : Nat) (hD : D.length = 2 ^ m)
    (hi : i < D.length), (auditPath H i D).length = m ∧
      climb H (leafSum H D[i]) ((lowBits i m).zip (auditPath H i D)) = mth H D := by
  induction m with
  | zero =>
    intro D i hD hi
    match D, hD with
    | [d], _ =>
      have : i = 0 := by simpa using hi
      subst this
      refine ⟨by rw [auditPath_short _ _ (by simp)]; rfl, ?_⟩
      rw [auditPath_short _ _ (by simp), mth_single]; rfl
  | succ m ih =>
    intro D i hD hi
    have hp := Nat.two_pow_pos m
    have e : (2 : Nat) ^ (m + 1) = 2 ^ m + 2 ^ m := by ring
    have hs : split D.length = 2 ^ m := split_pow (by omega) (by omega)
    rw [auditPath_split H i (D := D) (by omega), mth_split H (D := D) (by omega), hs, lowBits_succ]
    by_cases hlt : i < 2 ^ m
    · rw [if_pos hlt]
      obtain ⟨a, b⟩ := ih (D.take (2 ^ m)) i (by simp; omega) (by simp; omega)
      refine ⟨by simp [a], ?_⟩
      rw [List.zip_append (by rw [lowBits_length, a]), climb_append]
      rw [List.getElem_take] at b
      rw [b]
      simp [Nat.div_eq_of_lt hlt, climb, stepMsg, nodeSum, Prefix.bytes]
    · rw [if_neg hlt]
      obtain ⟨a, b⟩ := ih (D.drop (2 ^ m)) (i - 2 ^ m) (by simp; omega) (by simp; omega)
      refine ⟨by simp [a], ?_⟩
      rw [List.zip_append (by rw [lowBits_length, a]), climb_append]
      have hl : lowBits i m = lowBits (i - 2 ^ m) m := lowBits_sub (Nat.le_refl _) (by omega)
      rw [List.getElem_drop] at b
      simp only [show 2 ^ m + (i - 2 ^ m) = i by omega] at b
      rw [hl, b]
      have : i / 2 ^ m = 1 := Nat.div_eq_of_lt_le (by omega) (by omega)
      simp [this, climb, stepMsg, nodeSum, Prefix.bytes]

theorem block_sub {i e m : Nat} (hm : m ≤ e) (hi : 2 ^ e ≤ i) :
    (i / 2 ^ m + 1) * 2 ^ m = ((i - 2 ^ e) / 2 ^ m + 1) * 2 ^ m + 2 ^ e := by
  obtain ⟨c, rfl⟩ := Nat.exists_eq_add_of_le hm
  have e0 : (2 : Nat) ^ (m + c) = 2 ^ m * 2 ^ c := by ring
  have e1 : i = (i - 2 ^ (m + c)) + 2 ^ m * 2 ^ c := by omega
  have e2 : i / 2 ^ m = (i - 2 ^ (m + c)) / 2 ^ m + 2 ^ c := by
    conv_lhs => rw [e1]
    rw [Nat.add_mul_div_left _ _ (Nat.two_pow_pos m)]
  rw [e2, e0]; ring

/-- The shape of a tree that is not perfect, seen from leaf `i`. -/
theorem forcedSides_left {i n e : Nat} (he : e ≤ 62) (h1 : 2 ^ e < n) (h2 : n < 2 ^ (e + 1)) (hi : i < 2 ^ e) :
    forcedSides i n = lowBits i e ++ [false] := by
  have hb : blockHeight i n 64 = e := by
    apply blockHeight_eq (by omega) _ _ (by omega)
    · rw [Nat.div_eq_of_lt hi]; omega
    · rw [Nat.div_eq_of_lt (by have : (2 : Nat) ^ (e + 1) = 2 ^ e + 2 ^ e := by ring
                               omega)]
      omega
  unfold forcedSides
  rw [hb]
  dsimp only
  rw [if_neg (by rw [Nat.div_eq_of_lt hi]; omega)]

theorem blockHeight_right {i n e : Nat} (he : e ≤ 62) (h1 : 2 ^ e < n) (h2 : n < 2 ^ (e + 1)) (hi : 2 ^ e ≤ i)
    (hin : i < n) :
    blockHeight i n 64 = blockHeight (i - 2 ^ e) (n - 2 ^ e) 64 ∧ blockHeight (i - 2 ^ e) (n - 2 ^ e) 64 < e := by
  have hn : n < 2 ^ 63 := by
    have : 2 ^ (e + 1) ≤ 2 ^ 63 := Nat.pow_le_pow_right (by decide) (by omega)
    omega
  have c := blockHeight_complete (i := i - 2 ^ e) (n := n - 2 ^ e) (by omega) 64
  obtain ⟨c1, c2⟩ := blockHeight_lt (i := i - 2 ^ e) (n := n - 2 ^ e) (by omega) (by omega)
  generalize blockHeight (i - 2 ^ e) (n - 2 ^ e) 64 = m at *
  have e1 : (2 : Nat) ^ (e + 1) = 2 ^ e + 2 ^ e := by ring
  have hme : m < e := by
    rcases Nat.lt_or_ge m e with h | h
    · exact h
    · have h3 : 2 ^ e ≤ 2 ^ m := Nat.pow_le_pow_right (by decide) h
      have h4 : 2 ^ m ≤ ((i - 2 ^ e) / 2 ^ m + 1) * 2 ^ m := Nat.le_mul_of_pos_left (2 ^ m) (Nat.succ_pos ((i - 2 ^ e) / 2 ^ m))
      omega
  refine ⟨?_, hme⟩
  apply blockHeight_eq (by omega) _ _ hin
  · rw [block_sub (by omega) hi]; omega
  · rw [block_sub (by omega) hi]; omega

theorem forcedSides_right {i n e : Nat} (he : e ≤ 62) (h1 : 2 ^ e < n) (h2 : n < 2 ^ (e + 1)) (hi : 2 ^ e ≤ i)
    (hin : i < n) : forcedSides i n = forcedSides (i - 2 ^ e) (n - 2 ^ e) := by
  obtain ⟨a, b⟩ := blockHeight_right he h1 h2 hi hin
  unfold forcedSides
  rw [a]
  dsimp only
  rw [lowBits_sub (by omega) hi, block_sub (by omega) hi]
  congr 1
  apply if_congr _ rfl rfl
  omega

theorem forcedSides_perfect {i e : Nat} (he : e ≤ 62) (hi : i < 2 ^ e) : forcedSides i (2 ^ e) = lowBits i e := by
  have hb : blockHeight i (2 ^ e) 64 = e := by
    have hp := Nat.two_pow_pos e
    have e1 : (2 : Nat) ^ (e + 1) = 2 ^ e + 2 ^ e := by ring
    apply blockHeight_eq (by omega) _ _ hi
    · rw [Nat.div_eq_of_lt hi]; omega
    · rw [Nat.div_eq_of_lt (by omega)]
      omega
  unfold forcedSides
  rw [hb]
  dsimp only
  rw [if_pos (by rw [Nat.div_eq_of_lt hi]; omega), List.append_nil]

theorem pow_bounds {n : Nat} (h0 : 0 < n) (hn : n < 2 ^ 63) :
    ∃ e, e ≤ 62 ∧ (n = 2 ^ e ∨ (2 ^ e < n ∧ n < 2 ^ (e + 1))) := by
  have h1 := Nat.log2_self_le (n := n) (by omega)
  have h2 := Nat.lt_log2_self (n := n)
  have : n.log2 < 63 := (Nat.log2_lt (by omega)).2 hn
  refine ⟨n.log2, by omega, ?_⟩
  omega

theorem auditPath_climb (H : HashFn) (n : Nat) : ∀ (D : List Bytes) (i : Nat) (hD : D.length = n)
    (hn : n < 2 ^ 63) (hi : i < D.length), (forcedSides i n).length ≤ (auditPath H i D).length ∧
      climb H (leafSum H D[i]) ((sidesOf i n (auditPath H i D).length).zip (auditPath H i D)) = mth H D := by
  induction n using Nat.strongRecOn with
  | _ n ih =>
    intro D i hD hn hi
    obtain ⟨e, he, rfl | ⟨h1, h2⟩⟩ := pow_bounds (n := n) (by omega) hn
    · obtain ⟨a, b⟩ := perfect_climb H e D i hD hi
      unfold sidesOf
      rw [forcedSides_perfect he (by omega), lowBits_length, a]
      simpa using b
    · have hp := Nat.two_pow_pos e
      have hs : split D.length = 2 ^ e := split_pow (by omega) (by omega)
      rw [auditPath_split H i (D := D) (by omega), mth_split H (D := D) (by omega), hs]
      by_cases hlt : i < 2 ^ e
      · rw [if_pos hlt]
        obtain ⟨a, b⟩ := perfect_climb H e (D.take (2 ^ e)) i (by simp; omega) (by simp; omega)
        unfold sidesOf
        rw [forcedSides_left he h1 h2 hlt]
        refine ⟨by simp [a, lowBits_length], ?_⟩
        rw [List.getElem_take] at b
        simp only [List.length_append, lowBits_length, a, List.length_singleton, Nat.sub_self,
          List.replicate_zero, List.append_nil]
        rw [List.zip_append (by rw [lowBits_length, a]), climb_append, b]
        simp [climb, stepMsg, nodeSum, Prefix.bytes]
      · rw [if_neg hlt]
        obtain ⟨a, b⟩ := ih (n - 2 ^ e) (by omega) (D.drop (2 ^ e)) (i - 2 ^ e) (by simp; omega) (by omega)
          (by simp; omega)
        unfold sidesOf at b ⊢
        rw [forcedSides_right he h1 h2 (by omega) (by omega)]
        refine ⟨by simp; omega, ?_⟩
        rw [List.getElem_drop] at b
        simp only [show 2 ^ e + (i - 2 ^ e) = i by omega] at b
        rw [List.length_append, List.length_singleton, Nat.sub_add_comm a, List.replicate_succ',
          ← List.append_assoc, List.zip_append (by simp; omega), climb_append, b]
        simp [climb, stepMsg, nodeSum, Prefix.bytes]

end FuelMerkle
