import Verif.Model.Binary
import Verif.Proofs.Path
import Verif.Spec.Rfc6962

/-
Merkle tree hashes and audit paths of ranges of leaves.
-/
namespace FuelMerkle
open Spec Binary

/-- Leaves `a, …, a + r - 1`. -/
def rng (ds : List Bytes) (a r : Nat) : List Bytes := (ds.drop a).take r

theorem rng_length {ds : List Bytes} {a r : Nat} (h : a + r ≤ ds.length) :
    (rng ds a r).length = r := by
  simp [rng]; omega

theorem rng_all (ds : List Bytes) : rng ds 0 ds.length = ds := by simp [rng]

theorem rng_take {ds : List Bytes} {a r k : Nat} (h : k ≤ r) :
    (rng ds a r).take k = rng ds a k := by
  simp [rng, List.take_take, Nat.min_eq_left h]

theorem rng_drop (ds : List Bytes) (a r k : Nat) :
    (rng ds a r).drop k = rng ds (a + k) (r - k) := by
  simp [rng, List.drop_take, List.drop_drop]

theorem rng_one {ds : List Bytes} {a : Nat} (h : a < ds.length) : rng ds a 1 = [ds[a]] := by
  rw [rng, List.drop_eq_getElem_cons h]; rfl

theorem rng_append {ds es : List Bytes} {a r : Nat} (h : a + r ≤ ds.length) :
    rng (ds ++ es) a r = rng ds a r := by
  unfold rng
  rw [List.drop_append_of_le_length (by omega), List.take_append_of_le_length (by simp; omega)]

/-- Hash of the subtree over leaves `a, …, a + r - 1`. -/
def subHash (H : HashFn) (ds : List Bytes) (a r : Nat) : Bytes32 := mth H (rng ds a r)

theorem subHash_append {H : HashFn} {ds es : List Bytes} {a r : Nat} (h : a + r ≤ ds.length) :
    subHash H (ds ++ es) a r = subHash H ds a r := by
  unfold subHash; rw [rng_append h]

theorem subHash_all (H : HashFn) (ds : List Bytes) : subHash H ds 0 ds.length = mth H ds := by
  unfold subHash; rw [rng_all]

theorem mth_single (H : HashFn) (d : Bytes) : mth H [d] = leafSum H d := by
  rw [mth]; rfl

theorem mth_split (H : HashFn) {D : List Bytes} (h : 1 < D.length) :
    mth H D = nodeSum H (mth H (D.take (split D.length))).val (mth H (D.drop (split D.length))).val := by
  match D, h with
  | d :: d' :: ds, _ => rw [mth]; rfl

theorem subHash_leaf {H : HashFn} {ds : List Bytes} {a : Nat} (h : a < ds.length) :
    subHash H ds a 1 = leafSum H ds[a] := by
  unfold subHash; rw [rng_one h, mth_single]

theorem subHash_split {H : HashFn} {ds : List Bytes} {a r : Nat} (hr : 1 < r) (h : a + r ≤ ds.length) :
    subHash H ds a r =
      nodeSum H (subHash H ds a (split r)).val (subHash H ds (a + split r) (r - split r)).val := by
  have := split_spec hr
  unfold subHash
  rw [mth_split H (by rw [rng_length h]; exact hr), rng_length h, rng_take (by omega), rng_drop]

theorem split_pow {r c : Nat} (h1 : 2 ^ c < r) (h2 : r ≤ 2 ^ (c + 1)) : split r = 2 ^ c := by
  have := Nat.two_pow_pos c
  rw [split_eq (by omega), ceilLog2_eq h1 h2, Nat.add_sub_cancel]

theorem subHash_pow {H : HashFn} {ds : List Bytes} {a r c : Nat} (h1 : 2 ^ c < r)
    (h2 : r ≤ 2 ^ (c + 1)) (h : a + r ≤ ds.length) :
    subHash H ds a r =
      nodeSum H (subHash H ds a (2 ^ c)).val (subHash H ds (a + 2 ^ c) (r - 2 ^ c)).val := by
  have := Nat.two_pow_pos c
  rw [subHash_split (by omega) h, split_pow h1 h2]

theorem auditPath_split (H : HashFn) (m : Nat) {D : List Bytes} (h : 1 < D.length) :
    auditPath H m D = if m < split D.length
      then auditPath H m (D.take (split D.length)) ++ [mth H (D.drop (split D.length))]
      else auditPath H (m - split D.length) (D.drop (split D.length)) ++
        [mth H (D.take (split D.length))] := by
  match D, h with
  | d :: d' :: ds, _ => rw [auditPath]

theorem auditPath_short (H : HashFn) (m : Nat) {D : List Bytes} (h : D.length ≤ 1) :
    auditPath H m D = [] := by
  match D, h with
  | [], _ => rw [auditPath]
  | [d], _ => rw [auditPath]

/-! ### Shape -/

/-- Ranges that occur as subtrees of the tree over `n` leaves. -/
structure TreeRange (n a r : Nat) : Prop where
  pos : 0 < r
  le : a + r ≤ n
  aligned : ∃ k, a = k * 2 ^ ceilLog2 r
  full : a + r = n ∨ r = 2 ^ ceilLog2 r

theorem TreeRange.root {n : Nat} (h : 0 < n) : TreeRange n 0 n :=
  ⟨h, by omega, ⟨0, by simp⟩, Or.inl (by omega)⟩

theorem TreeRange.children {n a r : Nat} (h : TreeRange n a r) (hr : 1 < r) :
    TreeRange n a (split r) ∧ TreeRange n (a + split r) (r - split r) := by
  obtain ⟨h0, hle, ⟨k, hk⟩, hfull⟩ := h
  obtain ⟨c, hc⟩ : ∃ c, ceilLog2 r = c + 1 := by
    have := ceilLog2_zero_iff r
    exact ⟨ceilLog2 r - 1, by omega⟩
  have h1 := (lt_ceilLog2_iff r c).1 (by omega)
  have h2 := (ceilLog2_le_iff r (c + 1)).1 (by omega)
  have hp := Nat.two_pow_pos c
  rw [split_pow h1 h2]
  rw [hc] at hk hfull
  have e2 : (2 : Nat) ^ (c + 1) = 2 * 2 ^ c := by ring
  constructor
  · refine ⟨hp, by omega, ⟨2 * k, ?_⟩, Or.inr ?_⟩
    · rw [ceilLog2_two_pow, hk, e2]; ring
    · rw [ceilLog2_two_pow]
  · have hcr : ceilLog2 (r - 2 ^ c) ≤ c := (ceilLog2_le_iff _ _).2 (by omega)
    refine ⟨by omega, by omega, ?_, ?_⟩
    · obtain ⟨e, he⟩ := Nat.exists_eq_add_of_le hcr
      refine ⟨(2 * k + 1) * 2 ^ e, ?_⟩
      rw [hk, e2]
      have : (2 : Nat) ^ c = 2 ^ e * 2 ^ ceilLog2 (r - 2 ^ c) := by
        rw [← Nat.pow_add, Nat.add_comm, ← he]
      rw [mul_assoc, ← this]; ring
    · rcases hfull with hf | hf
      · left; omega
      · right
        have : r - 2 ^ c = 2 ^ c := by omega
        rw [this, ceilLog2_two_pow]

/-- The siblings on a path are subtrees, and their hashes are the audit path. -/
theorem shapePath_sides {H : HashFn} {ds : List Bytes} {n : Nat} (hn : n = ds.length) {a r i : Nat} (s : Nat × Nat)
    (h : TreeRange n a r) (h1 : a ≤ i) (h2 : i < a + r) :
    ∃ l, (shapePath a r i s).map Prod.snd = s :: l ∧ (∀ x ∈ l, TreeRange n x.1 x.2) ∧
      (l.map fun x => subHash H ds x.1 x.2).reverse = auditPath H (i - a) (rng ds a r) := by
  induction r using Nat.strongRecOn generalizing a s with
  | _ r ih =>
    have hlen : (rng ds a r).length = r := rng_length (by have := h.le; omega)
    rw [shapePath]
    by_cases hr : 1 < r
    · have hs := split_spec hr
      have hch := h.children hr
      have hsp := hch.1.pos
      rw [dif_pos hr]
      simp only [List.map_cons]
      rw [auditPath_split H _ (by omega), hlen]
      by_cases hi : i < a + split r
      · rw [if_pos hi, if_pos (by omega)]
        obtain ⟨l, e1, e2, e3⟩ := ih (split r) (by omega) (a + split r, r - split r) hch.1 h1 hi
        refine ⟨(a + split r, r - split r) :: l, by rw [e1], ?_, ?_⟩
        · intro x hx
          rcases List.mem_cons.1 hx with rfl | hx
          · exact hch.2
          · exact e2 x hx
        · simp only [List.map_cons, List.reverse_cons, e3]
          rw [rng_take (by omega), rng_drop]; rfl
      · rw [if_neg hi, if_neg (by omega)]
        obtain ⟨l, e1, e2, e3⟩ := ih (r - split r) (by omega) (a, split r) hch.2 (by omega) (by omega)
        refine ⟨(a, split r) :: l, by rw [e1], ?_, ?_⟩
        · intro x hx
          rcases List.mem_cons.1 hx with rfl | hx
          · exact hch.1
          · exact e2 x hx
        · simp only [List.map_cons, List.reverse_cons, e3]
          rw [rng_take (by omega), rng_drop, show i - (a + split r) = i - a - split r by omega]
          rfl
    · rw [dif_neg hr]
      exact ⟨[], rfl, by simp, by rw [auditPath_short H _ (by omega)]; rfl⟩

end FuelMerkle
