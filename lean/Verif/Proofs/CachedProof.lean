import Verif.Proofs.ProofSize

/-
How the audit path of a leaf changes when the list gets longer.
-/
namespace FuelMerkle
open Spec

/-- The aligned block of `2 ^ k` leaves around leaf `i`. -/
theorem auditPath_block (H : HashFn) (k : Nat) : ∀ (n : Nat) (D : List Bytes) (i : Nat), D.length = n →
    (i / 2 ^ k + 1) * 2 ^ k ≤ D.length →
    ∃ rest, auditPath H i D = auditPath H (i % 2 ^ k) ((D.drop (i / 2 ^ k * 2 ^ k)).take (2 ^ k)) ++ rest ∧
      ((i / 2 ^ (k + 1) + 1) * 2 ^ (k + 1) ≤ D.length →
        ∃ X r, rest = mth H X :: r ∧ X.length = 2 ^ k ∧ ∀ x ∈ mthMsgs H X, x ∈ mthMsgs H D) ∧
      (D.length < (i / 2 ^ (k + 1) + 1) * 2 ^ (k + 1) →
        rest = [] ∨ ∃ X r, rest = mth H X :: r ∧ X.length ≠ 2 ^ k ∧ ∀ x ∈ mthMsgs H X, x ∈ mthMsgs H D) := by
  intro n
  induction n using Nat.strongRecOn with
  | _ n ih =>
  intro D i hn hb
  have hp := Nat.two_pow_pos k
  have hs2 : (2 : Nat) ^ (k + 1) = 2 * 2 ^ k := by rw [Nat.pow_succ]; omega
  have hle : ∀ m : Nat, 2 ^ k ≤ (m / 2 ^ k + 1) * 2 ^ k := fun m => Nat.le_mul_of_pos_left _ (Nat.succ_pos _)
  have hle1 : ∀ m : Nat, 2 ^ (k + 1) ≤ (m / 2 ^ (k + 1) + 1) * 2 ^ (k + 1) := fun m => Nat.le_mul_of_pos_left _ (Nat.succ_pos _)
  have hlt : ∀ m : Nat, m < (m / 2 ^ k + 1) * 2 ^ k := fun m => by
    rw [Nat.mul_comm]; exact Nat.lt_mul_div_succ m hp
  have hge : ∀ m : Nat, m / 2 ^ k * 2 ^ k ≤ m := fun m => Nat.div_mul_le_self m _
  have hk := hle i
  by_cases h1 : D.length = 2 ^ k
  · have hi := hlt i
    refine ⟨[], ?_, fun h => ?_, fun _ => .inl rfl⟩
    · rw [Nat.mod_eq_of_lt (by omega), Nat.div_eq_of_lt (by omega), Nat.zero_mul, List.drop_zero,
        List.take_of_length_le (by omega), List.append_nil]
    · have := hle1 i
      omega
  · have hD : 1 < D.length := by omega
    obtain ⟨⟨c, hc⟩, h2, h3⟩ := split_spec hD
    have hmt : ∀ x ∈ mthMsgs H (D.take (split D.length)), x ∈ mthMsgs H D := fun x hx => by
      rw [mthMsgs_split H hD]; exact List.mem_cons_of_mem _ (List.mem_append_left _ hx)
    have hmd : ∀ x ∈ mthMsgs H (D.drop (split D.length)), x ∈ mthMsgs H D := fun x hx => by
      rw [mthMsgs_split H hD]; exact List.mem_cons_of_mem _ (List.mem_append_right _ hx)
    have hlt' : (D.take (split D.length)).length = split D.length := by rw [List.length_take]; omega
    have hld : (D.drop (split D.length)).length = D.length - split D.length := List.length_drop
    rw [auditPath_split H i hD]
    generalize hS : split D.length = s at *
    by_cases h4 : s = 2 ^ k
    · by_cases hi : i < s
      · have e1 : i / 2 ^ k = 0 := Nat.div_eq_of_lt (by omega)
        have e2 : i / 2 ^ (k + 1) = 0 := Nat.div_eq_of_lt (by omega)
        rw [if_pos hi, Nat.mod_eq_of_lt (by omega), e1, e2, Nat.zero_mul, List.drop_zero, ← h4]
        exact ⟨_, rfl, fun h => ⟨_, _, rfl, by omega, hmd⟩, fun h => .inr ⟨_, _, rfl, by omega, hmd⟩⟩
      · have e1 : i / 2 ^ k = 1 := by
          have a1 : 1 ≤ i / 2 ^ k := (Nat.le_div_iff_mul_le hp).2 (by omega)
          have a2 : i / 2 ^ k < 2 := (Nat.div_lt_iff_lt_mul hp).2 (by
            have := hlt i
            omega)
          omega
        have hi2 : i < 2 ^ (k + 1) := by have := hlt i; rw [e1] at this; omega
        have e2 : i / 2 ^ (k + 1) = 0 := Nat.div_eq_of_lt hi2
        have e3 : i % 2 ^ k = i - s := by
          have := Nat.div_add_mod i (2 ^ k)
          rw [e1] at this
          omega
        rw [e1] at hb
        rw [if_neg hi, e3, e1, e2, Nat.one_mul, ← h4, List.take_of_length_le (l := D.drop s) (by omega)]
        exact ⟨_, rfl, fun h => ⟨_, _, rfl, by omega, hmt⟩, fun h => by omega⟩
    · have hkc : k < c := by
        have : (2 : Nat) ^ k < 2 ^ (c + 1) := by rw [Nat.pow_succ]; omega
        have := (Nat.pow_lt_pow_iff_right (a := 2) (by decide)).1 this
        have : k ≠ c := by rintro rfl; exact h4 hc
        omega
      obtain ⟨q, hq⟩ : 2 ^ (k + 1) ∣ s := hc ▸ Nat.pow_dvd_pow 2 hkc
      have hq' : s = 2 ^ k * (2 * q) := by rw [hq, hs2, Nat.mul_comm 2, Nat.mul_assoc]
      have hp1 := Nat.two_pow_pos (k + 1)
      by_cases hi : i < s
      · have c0 : (i / 2 ^ k + 1) * 2 ^ k ≤ s := by
          have : i / 2 ^ k < 2 * q := (Nat.div_lt_iff_lt_mul hp).2 (by rw [Nat.mul_comm, ← hq']; exact hi)
          rw [hq', Nat.mul_comm]; exact Nat.mul_le_mul_left _ this
        have c1 : (i / 2 ^ (k + 1) + 1) * 2 ^ (k + 1) ≤ s := by
          have : i / 2 ^ (k + 1) < q := (Nat.div_lt_iff_lt_mul hp1).2 (by rw [Nat.mul_comm, ← hq]; exact hi)
          rw [hq, Nat.mul_comm]; exact Nat.mul_le_mul_left _ this
        obtain ⟨rest, r1, r2, -⟩ := ih s (by omega) (D.take s) i hlt' (by omega)
        obtain ⟨X, r, x1, x2, x3⟩ := r2 (by omega)
        have hblk : ((D.take s).drop (i / 2 ^ k * 2 ^ k)).take (2 ^ k) = (D.drop (i / 2 ^ k * 2 ^ k)).take (2 ^ k) := by
          rw [Nat.add_mul, Nat.one_mul] at c0
          rw [List.drop_take, List.take_take, Nat.min_eq_left (by omega)]
        rw [if_pos hi, r1, hblk, List.append_assoc]
        exact ⟨_, rfl, fun _ => ⟨X, r ++ [mth H (D.drop s)], by rw [x1]; rfl, x2, fun x hx => hmt x (x3 x hx)⟩, fun h => by omega⟩
      · have d0 : (i - s) / 2 ^ k = i / 2 ^ k - 2 * q := by rw [hq', Nat.sub_mul_div]
        have d1 : (i - s) / 2 ^ (k + 1) = i / 2 ^ (k + 1) - q := by rw [hq, Nat.sub_mul_div]
        have g0 : 2 * q ≤ i / 2 ^ k := (Nat.le_div_iff_mul_le hp).2 (by rw [Nat.mul_comm, ← hq']; omega)
        have g1 : q ≤ i / 2 ^ (k + 1) := (Nat.le_div_iff_mul_le hp1).2 (by rw [Nat.mul_comm, ← hq]; omega)
        have d2 : (i - s) % 2 ^ k = i % 2 ^ k := by rw [hq', Nat.sub_mul_mod (by rw [← hq']; omega)]
        have m0 : (i - s) / 2 ^ k * 2 ^ k + s = i / 2 ^ k * 2 ^ k := by
          rw [d0, hq', Nat.mul_comm (2 ^ k) (2 * q), ← Nat.add_mul, Nat.sub_add_cancel g0]
        have m1 : ((i - s) / 2 ^ (k + 1) + 1) * 2 ^ (k + 1) + s = (i / 2 ^ (k + 1) + 1) * 2 ^ (k + 1) := by
          rw [d1, hq, Nat.mul_comm (2 ^ (k + 1)) q, ← Nat.add_mul]
          congr 1
          omega
        have hb' : (i / 2 ^ k) * 2 ^ k + 2 ^ k ≤ D.length := by rw [Nat.add_mul, Nat.one_mul] at hb; exact hb
        have u1 : (i / 2 ^ (k + 1) + 1) * 2 ^ (k + 1) ≤ D.length →
            ((i - s) / 2 ^ (k + 1) + 1) * 2 ^ (k + 1) ≤ (D.drop s).length := by omega
        have u2 : D.length < (i / 2 ^ (k + 1) + 1) * 2 ^ (k + 1) →
            (D.drop s).length < ((i - s) / 2 ^ (k + 1) + 1) * 2 ^ (k + 1) := by omega
        have u3 : s + (i - s) / 2 ^ k * 2 ^ k = i / 2 ^ k * 2 ^ k := by omega
        have u4 : (D.take s).length ≠ 2 ^ k := by omega
        obtain ⟨rest, r1, r2, r3⟩ := ih (D.length - s) (by omega) (D.drop s) (i - s) hld (by
          rw [Nat.add_mul, Nat.one_mul, hld]; omega)
        rw [if_neg hi, r1, d2, List.drop_drop, u3, List.append_assoc]
        refine ⟨_, rfl, fun h => ?_, fun h => .inr ?_⟩
        · obtain ⟨X, r, x1, x2, x3⟩ := r2 (u1 h)
          exact ⟨X, r ++ [mth H (D.take s)], by rw [x1]; rfl, x2, fun x hx => hmd x (x3 x hx)⟩
        · rcases r3 (u2 h) with rfl | ⟨X, r, x1, x2, x3⟩
          · exact ⟨D.take s, [], rfl, u4, hmt⟩
          · exact ⟨X, r ++ [mth H (D.take s)], by rw [x1]; rfl, x2, fun x hx => hmd x (x3 x hx)⟩

end FuelMerkle
