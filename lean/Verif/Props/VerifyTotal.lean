import Verif.Props.Verify

/-
Property C70: the verifier on every input it can be given: any root, any proof set, any index
and any count that are `u64` values, with and without overflow checks.
-/
namespace FuelMerkle.Props
open FuelMerkle.Binary FuelMerkle.Spec FuelMerkle.Verify

set_option maxRecDepth 100000

/-! ### C70 -/

/-- A proof set without elements and an index out of range are rejected, never a panic. -/
theorem C70_rejected_at_once (p : Profile) (H : HashFn) (root : Bytes32) (set : List Bytes32) (i n : Nat)
    (h : n ≤ i ∨ set = []) : verify p H root set i n = .ok false := by
  unfold verify
  by_cases hi : i ≥ n
  · rw [if_pos hi]; rfl
  · rw [if_neg hi]
    rcases h with h | h
    · omega
    · subst h; rfl

/-- Below `2 ^ 63` leaves the verifier always answers, and with the same answer in every build
profile. -/
theorem C70_answers_below (p q : Profile) (H : HashFn) (root : Bytes32) (set : List Bytes32) (i n : Nat)
    (hn : n < 2 ^ 63) :
    ∃ b, verify p H root set i n = .ok b ∧ verify q H root set i n = .ok b := by
  cases set with
  | nil => exact ⟨false, C70_rejected_at_once p H root [] i n (.inr rfl), C70_rejected_at_once q H root [] i n (.inr rfl)⟩
  | cons first rest =>
    obtain ⟨b, hb, hi⟩ := verify_eq p H root first rest (i := i) (n := n) hn
    obtain ⟨c, hc, hj⟩ := verify_eq q H root first rest (i := i) (n := n) hn
    have : b = c := Bool.eq_iff_iff.2 (hi.trans hj.symm)
    exact ⟨b, hb, by rw [hc, this]⟩

theorem low_top {i n : Nat} (hn : n < 2 ^ 64) (hi : i < 2 ^ 63) (h63 : 2 ^ 63 ≤ n) : TopBlock i n := by
  have h := blockHeight_low hn hi h63
  unfold TopBlock
  rw [h]
  show 2 ^ 64 ≤ (i / 2 ^ 64 + 1) * 2 ^ 64
  omega

theorem not_top_below {i n : Nat} (hi : i < n) (hn : n < 2 ^ 63) : ¬ TopBlock i n := by
  unfold TopBlock
  have hm := (blockHeight_lt hi hn).1
  have hd := Nat.div_mul_le_self i (2 ^ (blockHeight i n 64 + 1))
  have h1 : 2 ^ (blockHeight i n 64 + 1) ≤ 2 ^ 63 := Nat.pow_le_pow_right (by decide) (by omega)
  rw [Nat.succ_mul]
  omega

/-- Without overflow checks the verifier answers on every input. It accepts exactly if the
index is in range, the proof set has at least the forced siblings and hashes up to the root,
and it is not the case that the index is below `2 ^ 63` and the count is not. -/
theorem C70_unchecked_answers (p : Profile) (hp : p.overflowChecks = false) (H : HashFn)
    (root first : Bytes32) (rest : List Bytes32) (i n : Nat) (hn : n < 2 ^ 64) :
    ∃ b, verify p H root (first :: rest) i n = .ok b ∧
      (b = true ↔ i < n ∧ (forcedSides i n).length ≤ rest.length ∧
        climb H first ((sidesOf i n rest.length).zip rest) = root ∧ ¬ (i < 2 ^ 63 ∧ 2 ^ 63 ≤ n)) := by
  by_cases hl : i < 2 ^ 63 ∧ 2 ^ 63 ≤ n
  · refine ⟨false, ?_, nofun, fun h => absurd hl h.2.2.2⟩
    rw [verify_low p H root first rest hn hl.1 hl.2, if_neg (by simp [hp])]
  · obtain ⟨b, hb, h⟩ := verify_eq_of p H root first rest hn (i := i) (fun hi => by
      rcases Nat.lt_or_ge n (2 ^ 63) with h63 | h63
      · exact (blockHeight_lt hi h63).1
      · exact blockHeight_high hi hn (by omega)) (fun _ => .inr hp)
    refine ⟨b, hb, h.trans ?_⟩
    exact ⟨fun ⟨a, b, c⟩ => ⟨a, b, c, hl⟩, fun ⟨a, b, c, _⟩ => ⟨a, b, c⟩⟩

/-- With overflow checks it panics exactly if the index is in range, the proof set is long
enough for the loop to leave the largest complete block, and the next block ends at `2 ^ 64`;
the panic is an arithmetic overflow. -/
theorem C70_checked_panics_iff (p : Profile) (hp : p.overflowChecks = true) (H : HashFn)
    (root first : Bytes32) (rest : List Bytes32) (i n : Nat) (hn : n < 2 ^ 64) (e : Panic) :
    verify p H root (first :: rest) i n = .error e ↔
      e = .overflow ∧ i < n ∧ blockHeight i n 64 ≤ rest.length ∧ TopBlock i n := by
  by_cases hi : i < n
  swap
  · rw [C70_rejected_at_once p H root _ i n (.inl (by omega))]
    simp [hi]
  by_cases ht : TopBlock i n
  · by_cases hl : i < 2 ^ 63 ∧ 2 ^ 63 ≤ n
    · rw [verify_low p H root first rest hn hl.1 hl.2, blockHeight_low hn hl.1 hl.2]
      by_cases hr : 63 ≤ rest.length
      · rw [if_pos ⟨hp, hr⟩]; simp [hi, hr, ht, eq_comm]
      · rw [if_neg (fun h => hr h.2)]; simp [hr]
    · have h63 : 2 ^ 63 ≤ n := by
        rcases Nat.lt_or_ge n (2 ^ 63) with h | h
        · exact absurd ht (not_top_below hi h)
        · exact h
      have hm := blockHeight_high hi hn (by omega)
      rw [verify_panic p H root first rest hn hi hm hp ht]
      by_cases hr : blockHeight i n 64 ≤ rest.length
      · rw [if_pos hr]; simp [hi, hr, ht, eq_comm]
      · rw [if_neg hr]; simp [hr]
  · have hm : blockHeight i n 64 ≤ 62 := by
      rcases Nat.lt_or_ge n (2 ^ 63) with h63 | h63
      · exact (blockHeight_lt hi h63).1
      · rcases Nat.lt_or_ge i (2 ^ 63) with h | h
        · exact absurd (low_top hn h h63) ht
        · exact blockHeight_high hi hn h
    obtain ⟨b, hb, _⟩ := verify_eq_of p H root first rest hn (i := i) (fun _ => hm)
      (fun _ => .inl (by unfold TopBlock at ht; omega))
    rw [hb]
    simp [ht]

/-- Where the checked build does not panic, the two builds give the same answer. -/
theorem C70_builds_agree (p q : Profile) (hp : p.overflowChecks = true) (hq : q.overflowChecks = false)
    (H : HashFn) (root : Bytes32) (set : List Bytes32) (i n : Nat) (hn : n < 2 ^ 64) :
    verify p H root set i n = .error .overflow ∨
      ∃ b, verify p H root set i n = .ok b ∧ verify q H root set i n = .ok b := by
  cases set with
  | nil =>
    exact .inr ⟨false, C70_rejected_at_once p H root [] i n (.inr rfl),
      C70_rejected_at_once q H root [] i n (.inr rfl)⟩
  | cons first rest =>
    by_cases hl : i < 2 ^ 63 ∧ 2 ^ 63 ≤ n
    · rw [verify_low p H root first rest hn hl.1 hl.2, verify_low q H root first rest hn hl.1 hl.2]
      by_cases hr : 63 ≤ rest.length
      · rw [if_pos ⟨hp, hr⟩]; exact .inl rfl
      · rw [if_neg (fun h => hr h.2), if_neg (fun h => hr h.2)]; exact .inr ⟨false, rfl, rfl⟩
    · obtain ⟨c, hc, hj⟩ := C70_unchecked_answers q hq H root first rest i n hn
      by_cases hi : i < n
      swap
      · exact .inr ⟨false, C70_rejected_at_once p H root _ i n (.inl (by omega)),
          C70_rejected_at_once q H root _ i n (.inl (by omega))⟩
      have hm : blockHeight i n 64 ≤ 62 := by
        rcases Nat.lt_or_ge n (2 ^ 63) with h63 | h63
        · exact (blockHeight_lt hi h63).1
        · exact blockHeight_high hi hn (by omega)
      by_cases ht : TopBlock i n
      · rw [verify_panic p H root first rest hn hi hm hp ht]
        by_cases hr : blockHeight i n 64 ≤ rest.length
        · rw [if_pos hr]; exact .inl rfl
        · rw [if_neg hr]
          refine .inr ⟨false, rfl, ?_⟩
          rw [hc]
          cases c with
          | false => rfl
          | true =>
            have h2 := (hj.1 rfl).2.1
            have : blockHeight i n 64 ≤ (forcedSides i n).length := by simp [forcedSides, lowBits_length]
            omega
      · obtain ⟨b, hb, h⟩ := verify_eq_of p H root first rest hn (i := i) (fun _ => hm)
          (fun _ => .inl (by unfold TopBlock at ht; omega))
        refine .inr ⟨b, hb, ?_⟩
        rw [hc]
        congr 1
        refine Bool.eq_iff_iff.2 (hj.trans ?_)
        rw [h]
        exact ⟨fun ⟨a, b, c, _⟩ => ⟨a, b, c⟩, fun ⟨a, b, c⟩ => ⟨a, b, c, hl⟩⟩

/-- From `2 ^ 63` leaves on no proof for an index below `2 ^ 63` is accepted, not even the
right one. -/
theorem C70_lower_half_lost (p : Profile) (H : HashFn) (root : Bytes32) (set : List Bytes32) (i n : Nat)
    (hn : n < 2 ^ 64) (h63 : 2 ^ 63 ≤ n) (hi : i < 2 ^ 63) : verify p H root set i n ≠ .ok true := by
  cases set with
  | nil => rw [C70_rejected_at_once p H root [] i n (.inr rfl)]; simp
  | cons first rest =>
    rw [verify_low p H root first rest hn hi h63]
    split <;> simp

/-- With overflow checks every proof set that is not empty makes the verifier panic, if the
claimed index and count are the largest possible ones. -/
theorem C70_any_proof_crashes (p : Profile) (hp : p.overflowChecks = true) (H : HashFn) (root : Bytes32)
    (set : List Bytes32) (hs : set ≠ []) :
    verify p H root set (2 ^ 64 - 2) (2 ^ 64 - 1) = .error .overflow := by
  cases set with
  | nil => exact absurd rfl hs
  | cons first rest =>
    have hb : blockHeight (2 ^ 64 - 2) (2 ^ 64 - 1) 64 = 0 := by decide +kernel
    refine (C70_checked_panics_iff p hp H root first rest _ _ (by omega) _).2 ⟨rfl, by omega, by omega, ?_⟩
    unfold TopBlock
    rw [hb]
    decide +kernel

/-- The largest count and index for which nothing overflows, and the ones next to them. -/
example : TopBlock (2 ^ 63 - 1) (2 ^ 63) ∧ ¬ TopBlock (2 ^ 63 - 2) (2 ^ 63 - 1) ∧
    ¬ TopBlock (2 ^ 63 + 4) (2 ^ 63 + 5) ∧ TopBlock (2 ^ 64 - 3) (2 ^ 64 - 1) := by
  unfold TopBlock
  decide +kernel

/-- An accepted proof with a count above `2 ^ 63`, in both builds. -/
example : let x : Bytes32 := Sha256.sha256 [1]
    (forcedSides (2 ^ 63 + 4) (2 ^ 63 + 5)).length = 0 ∧
    verify ⟨true, true, .w64⟩ Sha256.sha256 x [x] (2 ^ 63 + 4) (2 ^ 63 + 5) = .ok true ∧
    verify ⟨false, false, .w64⟩ Sha256.sha256 x [x] (2 ^ 63 + 4) (2 ^ 63 + 5) = .ok true := by
  intro x
  have hf : (forcedSides (2 ^ 63 + 4) (2 ^ 63 + 5)).length = 0 := by decide +kernel
  have hn : forcedSides (2 ^ 63 + 4) (2 ^ 63 + 5) = [] := List.length_eq_zero_iff.1 hf
  obtain ⟨b, hb, h⟩ := C70_unchecked_answers ⟨false, false, .w64⟩ rfl Sha256.sha256 x x [] (2 ^ 63 + 4) (2 ^ 63 + 5)
    (by omega)
  have hbt : b = true := h.2 ⟨by omega, by omega, by simp [climb], by omega⟩
  subst hbt
  refine ⟨hf, ?_, hb⟩
  rcases C70_builds_agree ⟨true, true, .w64⟩ ⟨false, false, .w64⟩ rfl rfl Sha256.sha256 x [x] (2 ^ 63 + 4) (2 ^ 63 + 5)
    (by omega) with hp | ⟨c, hc, hd⟩
  · have := ((C70_checked_panics_iff ⟨true, true, .w64⟩ rfl Sha256.sha256 x x [] _ _ (by omega) _).1 hp).2.2.2
    exact absurd this (by unfold TopBlock; decide +kernel)
  · rw [hb] at hd
    rw [hc, ← Except.ok.inj hd]

end FuelMerkle.Props
