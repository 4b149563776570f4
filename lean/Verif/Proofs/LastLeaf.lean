import Verif.Proofs.Pruned

/-
The audit path of the last leaf consists of the peaks of the leaves before it.
-/
namespace FuelMerkle
namespace Binary
open Spec

theorem auditPath_last (H : HashFn) (ds : List Bytes) (r : Nat) : ∀ a, 0 < r → a + r ≤ ds.length →
    auditPath H (r - 1) (rng ds a r) = ((peakRanges a r).map fun x => subHash H ds x.1 x.2).reverse := by
  induction r using Nat.strongRecOn with
  | _ r ih =>
    intro a h0 hle
    have hlen := rng_length hle
    by_cases h1 : r = 1
    · subst h1
      rw [peakRanges_one, auditPath_short H _ (by omega)]
      rfl
    · obtain ⟨⟨c, hc⟩, h2, h3⟩ := split_spec (n := r) (by omega)
      have hp := Nat.two_pow_pos c
      rw [auditPath_split H _ (by omega), hlen, if_neg (by omega), hc, peakRanges_pow (c := c) (by omega) (by rw [Nat.pow_succ]; omega),
        rng_drop, rng_take (by omega), List.map_cons, List.reverse_cons, ← ih (r - 2 ^ c) (by omega) (a + 2 ^ c) (by omega) (by omega),
        show r - 1 - 2 ^ c = r - 2 ^ c - 1 by omega]
      rfl

/-- The elements of the proof of the last leaf after the first are the hashes of the peaks of the leaves
before it, from the right. -/
theorem auditPath_last_peaks (H : HashFn) (ds : List Bytes) (d : Bytes) (hn : ds.length < 2 ^ 64) :
    auditPath H ds.length (ds ++ [d]) = ((peaks 64 0 ds.length).map fun x => mth H (stretch ds x)).reverse := by
  have hl : (ds ++ [d]).length = ds.length + 1 := by simp
  have h := auditPath_last H (ds ++ [d]) (ds.length + 1) 0 (by omega) (by omega)
  rw [← hl, rng_all, hl, Nat.add_sub_cancel, peakRanges_eq hn] at h
  rw [h]
  congr 1
  apply List.map_congr_left
  intro x hx
  obtain ⟨g, k, rfl, h2⟩ := peaks_mem ds.length 64 0 (Nat.dvd_zero _) x hx
  rw [Nat.mod_eq_of_lt hn, Nat.zero_add, Nat.add_mul, Nat.one_mul] at h2
  rw [subHash_append (by simpa using h2)]
  rfl

end Binary
end FuelMerkle
