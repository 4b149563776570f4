import Verif.Spec.ProofSize
import Verif.Proofs.Counts
import Verif.Proofs.VerifySound

/-
The length of audit paths.
-/
namespace FuelMerkle
open Spec

theorem bitLength_le_iff (n c : Nat) : bitLength n ≤ c ↔ n < 2 ^ c := by
  unfold bitLength
  split
  · next h => subst h; simp [Nat.two_pow_pos]
  · next h => rw [← Nat.log2_lt h]; omega

theorem popcount_zero : popcount 0 = 0 := by rw [popcount]; simp

theorem shapePath_length_pow (e : Nat) : ∀ (a i : Nat) (s : Nat × Nat), a ≤ i → i < a + 2 ^ e → (shapePath a (2 ^ e) i s).length = e + 1 := by
  induction e with
  | zero => intro a i s h1 h2; rw [shapePath, dif_neg (by simp)]; rfl
  | succ e ih =>
    intro a i s h1 h2
    have h2' := Nat.pow_succ 2 e
    have := Nat.two_pow_pos e
    rw [shapePath, dif_pos (by omega), List.length_cons, split_two_pow]
    have h3 : 2 ^ (e + 1) - 2 ^ e = 2 ^ e := by omega
    rw [h3]
    split
    · rw [ih _ _ _ h1 (by omega)]
    · rw [ih _ _ _ (by omega) (by omega)]

theorem xor_add_pow {e a b : Nat} (ha : a < 2 ^ e) (hb : b < 2 ^ e) : (2 ^ e + a) ^^^ (2 ^ e + b) = a ^^^ b := by
  rw [show 2 ^ e + a = 2 ^ e * 1 + a by omega, show 2 ^ e + b = 2 ^ e * 1 + b by omega,
    Nat.two_pow_add_eq_or_of_lt ha, Nat.two_pow_add_eq_or_of_lt hb, Nat.mul_one]
  apply Nat.eq_of_testBit_eq
  intro j
  simp only [Nat.testBit_xor, Nat.testBit_or, Nat.testBit_two_pow]
  by_cases hj : e = j
  · subst hj
    simp [Nat.testBit_lt_two_pow ha, Nat.testBit_lt_two_pow hb]
  · simp [hj]

theorem shapePath_length : ∀ (n a i : Nat) (s : Nat × Nat), i < n → (shapePath a n (a + i) s).length = pathLength i n + 1 := by
  intro n
  induction n using Nat.strongRecOn with
  | _ n ih =>
    intro a i s hi
    by_cases h1 : 1 < n
    · obtain ⟨⟨e, he⟩, hlt, hle⟩ := split_spec h1
      have hp := Nat.two_pow_pos e
      have hps := Nat.pow_succ 2 e
      rw [shapePath, dif_pos h1, List.length_cons, he]
      obtain ⟨m, hm⟩ : ∃ m, n - 1 = 2 ^ e + m := ⟨n - 1 - 2 ^ e, by omega⟩
      have hme : m < 2 ^ e := by omega
      by_cases hik : i < 2 ^ e
      · rw [if_pos (by omega), shapePath_length_pow e _ _ _ (by omega) (by omega)]
        have hin : innerLevels i n = e + 1 := by
          unfold innerLevels
          rw [hm]
          have h2 : i ^^^ (2 ^ e + m) < 2 ^ (e + 1) := Nat.xor_lt_two_pow (by omega) (by omega)
          have h3 : ¬ i ^^^ (2 ^ e + m) < 2 ^ e := by
            intro h
            have := Nat.testBit_lt_two_pow h
            rw [Nat.testBit_xor, Nat.testBit_lt_two_pow hik, Nat.testBit_two_pow_add_eq, Nat.testBit_lt_two_pow hme] at this
            simp at this
          rw [← bitLength_le_iff] at h2 h3
          omega
        unfold pathLength
        rw [hin, Nat.shiftRight_eq_div_pow, Nat.div_eq_of_lt (by omega), popcount_zero]
      · obtain ⟨j, rfl⟩ : ∃ j, i = 2 ^ e + j := ⟨i - 2 ^ e, by omega⟩
        have hje : j < 2 ^ e := by omega
        rw [if_neg (by omega), ← Nat.add_assoc]
        rw [ih (n - 2 ^ e) (by omega) _ j _ (by omega)]
        have hx : innerLevels (2 ^ e + j) n = innerLevels j (n - 2 ^ e) := by
          unfold innerLevels
          rw [hm, xor_add_pow hje hme]
          congr 2; omega
        have hin : innerLevels j (n - 2 ^ e) ≤ e := by
          unfold innerLevels
          rw [bitLength_le_iff]
          exact Nat.xor_lt_two_pow hje (by omega)
        unfold pathLength
        rw [hx]
        generalize innerLevels j (n - 2 ^ e) = c at hin
        obtain ⟨d, rfl⟩ : ∃ d, e = c + d := ⟨e - c, by omega⟩
        rw [Nat.shiftRight_eq_div_pow, Nat.shiftRight_eq_div_pow, Nat.pow_add, Nat.mul_add_div (Nat.two_pow_pos c),
          popcount_pow_add]
        · omega
        · rw [Nat.div_lt_iff_lt_mul (Nat.two_pow_pos c), Nat.mul_comm, ← Nat.pow_add]; exact hje
    · have hn : n = 1 := by omega
      have hi0 : i = 0 := by omega
      subst hn hi0
      rw [shapePath, dif_neg (by omega)]
      simp [pathLength, innerLevels, bitLength, popcount_zero]

theorem popcount_le {b : Nat} : ∀ {n : Nat}, n < 2 ^ b → popcount n ≤ b := by
  induction b with
  | zero => intro n h; have : n = 0 := by simpa using h
            subst this; rw [popcount_zero]
  | succ b ih =>
    intro n h
    rw [popcount]
    split
    · omega
    · have := ih (n := n / 2) (by rw [Nat.pow_succ] at h; omega)
      omega

theorem pathLength_le {i n : Nat} (hi : i < n) : pathLength i n ≤ ceilLog2 n := by
  have hc := (ceilLog2_le_iff n _).1 (Nat.le_refl _)
  generalize ceilLog2 n = c at hc
  have h1 : innerLevels i n ≤ c := by
    unfold innerLevels
    rw [bitLength_le_iff]
    exact Nat.xor_lt_two_pow (by omega) (by omega)
  unfold pathLength
  generalize innerLevels i n = k at h1
  obtain ⟨d, rfl⟩ := Nat.exists_eq_add_of_le h1
  have : popcount (i >>> k) ≤ d := popcount_le (by
    rw [Nat.shiftRight_eq_div_pow, Nat.div_lt_iff_lt_mul (Nat.two_pow_pos k), Nat.mul_comm, ← Nat.pow_add]; omega)
  omega

theorem pathLength_first {n : Nat} (h : 0 < n) : pathLength 0 n = ceilLog2 n := by
  simp only [pathLength, innerLevels, Nat.zero_xor, Nat.zero_shiftRight, popcount_zero, Nat.add_zero, bitLength, ceilLog2]
  by_cases h1 : n ≤ 1
  · rw [if_pos (by omega), if_pos h1]
  · rw [if_neg (by omega), if_neg h1]

theorem pathLength_last {n : Nat} (h : 0 < n) : pathLength (n - 1) n = popcount (n - 1) := by
  simp [pathLength, innerLevels, bitLength]

theorem Binary.proveSides_length {E : Type} (S : Binary.Scratch) (ps : List Position) : ∀ {t t' : Binary.Tree E} {r : List Bytes32},
    Binary.proveSides S ps t = (.ok r, t') → r.length = ps.length := by
  induction ps with
  | nil => intro t t' r h; simp only [Binary.proveSides, Exec.pure_apply, Prod.mk.injEq, Except.ok.injEq] at h; rw [← h.1]; rfl
  | cons x ps ih =>
    intro t t' r h
    rw [Binary.proveSides] at h
    obtain ⟨q, t1, h1, h⟩ := Binary.bind_inv h
    cases hq : (S x.inOrderIndex).or q with
    | none => simp only [hq] at h; cases h
    | some q =>
      simp only [hq] at h
      obtain ⟨r1, t2, h2, h⟩ := Binary.bind_inv h
      cases h
      rw [List.length_cons, ih h2, List.length_cons]

/-! ### Accepted proofs of the right length -/

theorem leafAt_length {D : List Bool} : ∀ {n i : Nat}, leafAt D n = some i → i < n ∧ ∀ a s, (shapePath a n (a + i) s).length = D.length + 1 := by
  induction D with
  | nil =>
    intro n i h
    rw [leafAt] at h
    split at h
    · next h1 =>
      injection h with h
      subst h1 h
      refine ⟨by omega, fun a s => ?_⟩
      rw [shapePath, dif_neg (by omega)]; rfl
    · cases h
  | cons b D ih =>
    intro n i h
    rw [leafAt] at h
    split at h
    · cases h
    next h1 =>
    have hs := split_spec (n := n) (by omega)
    split at h
    · obtain ⟨j, hj, rfl⟩ := Option.map_eq_some_iff.1 h
      obtain ⟨h2, h3⟩ := ih hj
      refine ⟨by omega, fun a s => ?_⟩
      rw [shapePath, dif_pos (by omega), List.length_cons, if_neg (by omega), show a + (j + split n) = a + split n + j by omega, h3]
      rfl
    · obtain ⟨h2, h3⟩ := ih h
      refine ⟨by omega, fun a s => ?_⟩
      rw [shapePath, dif_pos (by omega), List.length_cons, if_pos (by omega), h3]
      rfl

theorem leafAt_pathLength {D : List Bool} {n i : Nat} (h : leafAt D n = some i) : D.length = pathLength i n := by
  obtain ⟨h1, h2⟩ := leafAt_length h
  have h3 := h2 0 (0, 0)
  rw [shapePath_length n 0 i _ h1] at h3
  omega

theorem leafAt_exists (n : Nat) : ∀ i, n < 2 ^ 63 → i < n →
    ∃ x, leafAt (List.replicate x true ++ (forcedSides i n).reverse) n = some i := by
  induction n using Nat.strongRecOn with
  | _ n ih =>
    intro i hn hi
    obtain ⟨e, he, rfl | ⟨h1, h2⟩⟩ := pow_bounds (n := n) (by omega) hn
    · exact ⟨0, by rw [forcedSides_perfect he hi, List.replicate_zero, List.nil_append, leafAt_lowBits e i hi]⟩
    · have hp := Nat.two_pow_pos e
      have hs : split n = 2 ^ e := split_pow (by omega) (by omega)
      by_cases hlt : i < 2 ^ e
      · refine ⟨0, ?_⟩
        rw [forcedSides_left he h1 h2 hlt, List.reverse_append, List.reverse_singleton, List.singleton_append,
          List.replicate_zero, List.nil_append, leafAt, if_neg (by omega), if_neg (by simp), hs, leafAt_lowBits e i hlt]
      · obtain ⟨x, hx⟩ := ih (n - 2 ^ e) (by omega) (i - 2 ^ e) (by omega) (by omega)
        refine ⟨x + 1, ?_⟩
        rw [forcedSides_right he h1 h2 (by omega) hi, List.replicate_succ, List.cons_append, leafAt, if_neg (by omega), if_pos rfl, hs, hx]
        simp only [Option.map_some]
        congr 1; omega

/-- With the right number of siblings the sides used by the verifier lead to the leaf. -/
theorem leafAt_sidesOf {n i : Nat} (hn : n < 2 ^ 63) (hi : i < n) : leafAt (sidesOf i n (pathLength i n)).reverse n = some i := by
  obtain ⟨x, hx⟩ := leafAt_exists n i hn hi
  have hl := leafAt_pathLength hx
  rw [List.length_append, List.length_replicate, List.length_reverse] at hl
  rw [sidesOf, List.reverse_append, List.reverse_replicate, show pathLength i n - (forcedSides i n).length = x by omega]
  exact hx

theorem stepMsg_eq_both {s x a b : Bytes32} {onLeft : Bool} (h : stepMsg s onLeft x = [0x01] ++ a.val ++ b.val) :
    if onLeft then s = b ∧ x = a else s = a ∧ x = b := by
  rw [List.append_assoc] at h
  cases onLeft
  · rw [stepMsg, if_neg (by simp), List.append_assoc] at h
    exact Bytes32.append_inj (List.append_cancel_left h)
  · rw [stepMsg, if_pos rfl, List.append_assoc] at h
    exact (Bytes32.append_inj (List.append_cancel_left h)).symm

/-- A climb to the root of a list whose directions lead to a leaf is the climb from that leaf along
its audit path, without a collision. -/
theorem climb_unique (H : HashFn) (first : Bytes32) : ∀ (l : List (Bool × Bytes32)) (D : List Bytes) (i : Nat),
    leafAt (l.map Prod.fst) D.length = some i → climb H first l.reverse = mth H D →
    Collide H (mthMsgs H D) (climbMsgs H first l.reverse) ∨
      ∃ d, D[i]? = some d ∧ first = H ([0x00] ++ d) ∧ l.reverse.map Prod.snd = auditPath H i D := by
  intro l
  induction l with
  | nil =>
    intro D i hl h
    simp only [List.map_nil, leafAt] at hl
    split at hl
    · next h1 =>
      injection hl with hl
      subst hl
      match D, h1 with
      | [d], _ =>
        rw [mth] at h
        exact .inr ⟨d, by simp, h, by rw [auditPath_short _ _ (by simp)]; rfl⟩
    · cases hl
  | cons a l ih =>
    intro D i hl h
    obtain ⟨b, x⟩ := a
    rw [List.reverse_cons, climb_append] at h
    rw [List.reverse_cons, climbMsgs_append]
    simp only [climb, climbMsgs, List.map_cons, leafAt, List.map_append] at h hl ⊢
    split at hl
    · cases hl
    next h1 =>
    have hlen : 1 < D.length := by omega
    have hsp := split_spec hlen
    rw [mth_split H hlen] at h
    rw [mthMsgs_split H hlen]
    by_cases hm : stepMsg (climb H first l.reverse) b x =
        [0x01] ++ (mth H (D.take (split D.length))).val ++ (mth H (D.drop (split D.length))).val
    · have he := stepMsg_eq_both hm
      cases b
      · simp only [Bool.false_eq_true, if_false] at he hl
        have hlt : (D.take (split D.length)).length = split D.length := by rw [List.length_take]; omega
        obtain ⟨hi, _⟩ := leafAt_length hl
        rcases ih (D.take (split D.length)) i (by rw [hlt]; exact hl) he.1 with hc | ⟨d, h2, h3, h4⟩
        · exact .inl (collide_mono hc (fun y hy => by simp [hy]) (fun y hy => by simp [hy]))
        · refine .inr ⟨d, ?_, h3, ?_⟩
          · rw [List.getElem?_take, if_pos hi] at h2; exact h2
          · rw [auditPath_split H i hlen, if_pos hi, h4, he.2]; rfl
      · simp only [if_true] at he hl
        obtain ⟨j, hj, rfl⟩ := Option.map_eq_some_iff.1 hl
        have hlt : (D.drop (split D.length)).length = D.length - split D.length := by rw [List.length_drop]
        rcases ih (D.drop (split D.length)) j (by rw [hlt]; exact hj) he.1 with hc | ⟨d, h2, h3, h4⟩
        · exact .inl (collide_mono hc (fun y hy => by simp [hy]) (fun y hy => by simp [hy]))
        · refine .inr ⟨d, ?_, h3, ?_⟩
          · rw [List.getElem?_drop, Nat.add_comm] at h2; exact h2
          · rw [auditPath_split H _ hlen, if_neg (by omega), Nat.add_sub_cancel, h4, he.2]; rfl
    · exact .inl ⟨_, List.mem_cons_self, _, by simp, fun h' => hm h'.symm, h.symm⟩

end FuelMerkle
