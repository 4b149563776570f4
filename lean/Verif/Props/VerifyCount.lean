import Verif.Props.Verify

/-
Property C66: what an accepted proof says when the claimed number of leaves is not the one of
the tree. C06 is about the right number; here the claimed index and count are arbitrary.
-/
namespace FuelMerkle.Props
open FuelMerkle.Binary FuelMerkle.Spec FuelMerkle.Verify
variable {E : Type}

set_option maxRecDepth 100000

/-! ### C66 -/

/-- Hashing upwards ends with the hash of one of the messages. -/
theorem climb_is_hash (H : HashFn) (l : List (Bool × Bytes32)) : ∀ m : Bytes,
    ∃ y ∈ m :: climbMsgs H (H m) l, H y = climb H (H m) l := by
  induction l with
  | nil => intro m; exact ⟨m, by simp, rfl⟩
  | cons a l ih =>
    intro m
    obtain ⟨b, x⟩ := a
    obtain ⟨y, hy, e⟩ := ih (stepMsg (H m) b x)
    refine ⟨y, List.mem_cons_of_mem _ hy, e⟩

/-- The data of an accepted proof is always a leaf of the tree, whatever index and number of
leaves are claimed: the leaf to which the claimed directions lead in the real tree. Otherwise
a message hashed by the tree collides with one hashed by the verifier. -/
theorem C66_membership_any_count (p : Profile) (H : HashFn) (hH : H [] = emptySum) (s : BStore E)
    (ds : List Bytes) (hl : ds.length < 2 ^ 63) (t : Tree E)
    (ht : pushAll p H ds (Tree.new s) = (.ok (), t)) (root : Bytes32) (hr : t.root p H = .ok root)
    (i n : Nat) (hn : n < 2 ^ 63) (d : Bytes) (rest : List Bytes32)
    (hv : verify p H root (H ([0x00] ++ d) :: rest) i n = .ok true) :
    (∃ j : Nat, ds[j]? = some d ∧ leafAt (sidesOf i n rest.length).reverse ds.length = some j) ∨
      Collide H (mthMsgs H ds) (([0x00] ++ d) ::
        climbMsgs H (H ([0x00] ++ d)) ((sidesOf i n rest.length).zip rest)) := by
  obtain ⟨b, hb, hiff⟩ := verify_eq p H root (H ([0x00] ++ d)) rest (i := i) (n := n) hn
  have hbt : b = true := by rw [hb] at hv; exact Except.ok.inj hv
  obtain ⟨hi, hlen, hcl⟩ := hiff.1 hbt
  obtain ⟨h1, _, _⟩ := pushAll_ok_inv p H ds (Inv.new H s) (by simp; omega) ht
  rw [List.nil_append] at h1
  have hsl : (sidesOf i n rest.length).length = rest.length := by simp [sidesOf]; omega
  by_cases h0 : ds = []
  · right
    rw [root_spec p H ds (by omega) t h1.peaks, if_pos h0] at hr
    have hr := Except.ok.inj hr
    obtain ⟨y, hy, e⟩ := climb_is_hash H ((sidesOf i n rest.length).zip rest) ([0x00] ++ d)
    refine ⟨[], by simp [h0, mthMsgs], y, hy, ?_, ?_⟩
    · rintro rfl
      rcases List.mem_cons.1 hy with h | h
      · simp at h
      · clear e hcl
        revert h
        generalize H ([0x00] ++ d) = x
        generalize (sidesOf i n rest.length).zip rest = l
        induction l generalizing x with
        | nil => simp [climbMsgs]
        | cons a l ih =>
          intro h
          obtain ⟨b, z⟩ := a
          rcases List.mem_cons.1 h with h | h
          · obtain ⟨_, e⟩ := stepMsg_head x z b
            rw [e] at h; simp at h
          · exact ih _ h
    · rw [e, hcl, ← hr, hH]
  · rw [root_spec p H ds (by omega) t h1.peaks, if_neg h0] at hr
    have hr := Except.ok.inj hr
    rw [← hr] at hcl
    have := climb_sound H d ((sidesOf i n rest.length).zip rest).reverse ds h0
      (by rw [List.reverse_reverse]; exact hcl)
    rw [List.reverse_reverse] at this
    rcases this with hc | ⟨j, hj, hd⟩
    · exact Or.inr hc
    · left
      rw [List.map_reverse, List.map_fst_zip (by omega)] at hj
      exact ⟨j, hd, hj⟩

/-- `verify` looks at the claimed index and number of leaves only through the directions they
give: claims with the same directions are accepted with the same proofs and roots. -/
theorem C66_only_directions (p : Profile) (H : HashFn) (root first : Bytes32) (rest : List Bytes32)
    (i n i' n' : Nat) (hn : n < 2 ^ 63) (hn' : n' < 2 ^ 63) (hi : i < n) (hi' : i' < n')
    (hl : (forcedSides i n).length ≤ rest.length) (hl' : (forcedSides i' n').length ≤ rest.length)
    (h : sidesOf i n rest.length = sidesOf i' n' rest.length) :
    verify p H root (first :: rest) i n = verify p H root (first :: rest) i' n' := by
  obtain ⟨b, hb, hiff⟩ := verify_eq p H root first rest (i := i) (n := n) hn
  obtain ⟨b', hb', hiff'⟩ := verify_eq p H root first rest (i := i') (n := n') hn'
  rw [hb, hb']
  congr 1
  rw [Bool.eq_iff_iff, hiff, hiff', h]
  simp [hi, hi', hl, hl']

/-- The directions forced for the last leaf all have the sibling on the left, and there are as
many as `n` has factors of two. -/
theorem forcedSides_last {n : Nat} (h0 : 0 < n) (hn : n < 2 ^ 63) :
    ∃ m, forcedSides (n - 1) n = List.replicate m true ∧ 2 ^ m ∣ n := by
  have hb := blockHeight_complete (i := n - 1) (n := n) (by omega) 64
  generalize hm : blockHeight (n - 1) n 64 = m at hb
  have hp := Nat.two_pow_pos m
  have hlt := Nat.lt_mul_div_succ (n - 1) hp
  have he : ((n - 1) / 2 ^ m + 1) * 2 ^ m = n := by
    rw [Nat.mul_comm] at hlt; omega
  refine ⟨m, ?_, ⟨(n - 1) / 2 ^ m + 1, by rw [Nat.mul_comm]; exact he.symm⟩⟩
  unfold forcedSides
  rw [hm]
  dsimp only
  rw [if_pos he, List.append_nil, lowBits]
  rw [List.eq_replicate_iff]
  refine ⟨by simp, ?_⟩
  intro b hbm
  simp only [List.mem_map, List.mem_range] at hbm
  obtain ⟨j, hj, rfl⟩ := hbm
  have hd : 2 ^ (j + 1) ∣ n := by
    rw [← he]
    exact Dvd.dvd.mul_left (Nat.pow_dvd_pow 2 hj) _
  obtain ⟨c, hc⟩ := hd
  have hj2 := Nat.two_pow_pos j
  have : (n - 1) / 2 ^ j = 2 * c - 1 := by
    have hcp : 0 < c := by
      rcases Nat.eq_zero_or_pos c with h | h
      · subst h; omega
      · exact h
    have e1 : n = 2 ^ j * (2 * c) := by rw [hc]; ring
    apply Nat.div_eq_of_lt_le
    · have : (2 * c - 1) * 2 ^ j + 2 ^ j = 2 ^ j * (2 * c) := by
        obtain ⟨k, hk⟩ : ∃ k, 2 * c = k + 1 := ⟨2 * c - 1, by omega⟩
        rw [hk]; simp; ring
      omega
    · have : (2 * c - 1 + 1) * 2 ^ j = 2 ^ j * (2 * c) := by
        rw [show 2 * c - 1 + 1 = 2 * c by omega]; ring
      omega
  rw [this]
  simp
  have hcp : 0 < c := by
    rcases Nat.eq_zero_or_pos c with h | h
    · subst h; omega
    · exact h
  omega

/-- Claiming the last leaf of `n` leaves and the last leaf of `n'` leaves is the same to
`verify`, once the proof set has a sibling for every factor of two of `n` and of `n'`. -/
theorem C66_last_leaf_same (p : Profile) (H : HashFn) (root first : Bytes32) (rest : List Bytes32)
    (n n' : Nat) (h0 : 0 < n) (h0' : 0 < n') (hn : n < 2 ^ 63) (hn' : n' < 2 ^ 63)
    (hl : ∀ v, 2 ^ v ∣ n → v ≤ rest.length) (hl' : ∀ v, 2 ^ v ∣ n' → v ≤ rest.length) :
    verify p H root (first :: rest) (n - 1) n = verify p H root (first :: rest) (n' - 1) n' := by
  obtain ⟨m, e, hd⟩ := forcedSides_last h0 hn
  obtain ⟨m', e', hd'⟩ := forcedSides_last h0' hn'
  have a := hl m hd
  have a' := hl' m' hd'
  refine C66_only_directions p H root first rest _ _ _ _ hn hn' (by omega) (by omega)
    (by simp [e, a]) (by simp [e', a']) ?_
  unfold sidesOf
  rw [e, e']
  simp only [List.length_replicate, List.replicate_append_replicate]
  congr 1
  omega

/-- The proof of the last leaf of any tree is accepted, against the same root, as a proof for
the last leaf of every odd number of leaves. The root does not determine the number of leaves
and `verify` does not check the length of the proof, so the count has to come from elsewhere. -/
theorem C66_last_leaf_any_odd_count (p : Profile) (H : HashFn) (s : BStore E) (hs : s.Reliable)
    (ds : List Bytes) (h0 : ds ≠ []) (hl : ds.length < p.leafLimit) (n : Nat) (hodd : n % 2 = 1)
    (hn : n < 2 ^ 63) :
    ∃ t t' root set, pushAll p H ds (Tree.new s) = (.ok (), t) ∧ t.root p H = .ok root ∧
      prove p H (ds.length - 1) t = (.ok (root, set), t') ∧
      verify p H root set (n - 1) n = .ok true := by
  have hlim := p.leafLimit_le
  have hpos : 0 < ds.length := List.length_pos_iff.2 h0
  obtain ⟨t, t', root, set, h1, h2, h3, h4⟩ := C05_generated_proofs_verify p H s hs ds hl
    (ds.length - 1) (by omega)
  refine ⟨t, t', root, set, h1, h2, h3, ?_⟩
  cases set with
  | nil =>
    exfalso
    unfold verify at h4
    rw [if_neg (by omega)] at h4
    cases h4
  | cons first rest =>
    obtain ⟨b, hb, hiff⟩ := verify_eq p H root first rest (i := ds.length - 1) (n := ds.length)
      (by omega)
    have hbt : b = true := by rw [hb] at h4; exact Except.ok.inj h4
    obtain ⟨_, hlen, hc⟩ := hiff.1 hbt
    obtain ⟨b', hb', hiff'⟩ := verify_eq p H root first rest (i := n - 1) (n := n) hn
    rw [hb']
    congr 1
    obtain ⟨m, e, hd⟩ := forcedSides_last hpos (by omega)
    obtain ⟨m', e', hd'⟩ := forcedSides_last (n := n) (by omega) hn
    have hm' : m' = 0 := by
      rcases Nat.eq_zero_or_pos m' with h | h
      · exact h
      · have : 2 ∣ n := Nat.dvd_trans (Nat.pow_dvd_pow 2 h) hd'
        omega
    refine hiff'.2 ⟨by omega, by simp [e', hm'], ?_⟩
    rw [← hc]
    unfold sidesOf
    rw [e, e', hm']
    rw [e] at hlen
    simp only [List.length_replicate] at hlen
    simp only [List.length_replicate, List.replicate_append_replicate]
    congr 3
    omega

/-- The hypotheses are met by trees of any size: here the proof of the last of three leaves is
a proof for leaf 6 of 7. -/
example : ∃ t t' root set, pushAll ⟨true, true, .w64⟩ Sha256.sha256 sampleLeaves
      (Tree.new (Store.empty : BStore Unit)) = (.ok (), t) ∧
    t.root ⟨true, true, .w64⟩ Sha256.sha256 = .ok root ∧
    prove ⟨true, true, .w64⟩ Sha256.sha256 (sampleLeaves.length - 1) t = (.ok (root, set), t') ∧
    verify ⟨true, true, .w64⟩ Sha256.sha256 root set 6 7 = .ok true :=
  C66_last_leaf_any_odd_count ⟨true, true, .w64⟩ Sha256.sha256 Store.empty (fun _ => rfl) sampleLeaves
    (by decide) (by decide) 7 (by decide) (by decide)

/-- Directions alone do not fix index and count: leaf 1 of 2 and leaf 2 of 3. -/
example : sidesOf 1 2 1 = sidesOf 2 3 1 := by decide

end FuelMerkle.Props
