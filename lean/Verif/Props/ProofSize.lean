import Verif.Proofs.ProofSize
import Verif.Props.Verify

/-
C79: the length of proofs, and what a check of the length is good for.
-/
namespace FuelMerkle.Props
open FuelMerkle.Binary FuelMerkle.Spec FuelMerkle.Verify
variable {E : Type}

set_option maxRecDepth 100000

/-- Whatever the tree and its storage hold, a proof for leaf `i` of `n` has
`1 + pathLength i n` elements. -/
theorem C79_proof_length (p : Profile) (H : HashFn) (t t' : Tree E) (i : Nat) (hn : t.leavesCount < p.leafLimit)
    (hi : i < t.leavesCount) (root : Bytes32) (set : List Bytes32) (h : prove p H i t = (.ok (root, set), t')) :
    set.length = 1 + pathLength i t.leavesCount := by
  have hlim := p.leafLimit_le
  unfold prove at h
  rw [Exec.get_bind] at h
  obtain ⟨n, -, h⟩ := lift_inv h
  split at h
  · cases h
  · obtain ⟨rp, hrp, h⟩ := lift_inv h
    obtain ⟨lp, hlp, h⟩ := lift_inv h
    obtain ⟨q, t1, h3, h⟩ := bind_inv h
    cases q with
    | none => cases h
    | some q =>
      obtain ⟨items, hitems, h⟩ := lift_inv h
      obtain ⟨⟨_, _⟩, -, h⟩ := lift_inv h
      obtain ⟨_, -, h⟩ := lift_inv h
      obtain ⟨_, s2, h2, h⟩ := bind_inv h
      have c2 := proveSides_length _ _ h2
      cases h
      rw [rootPosition_spec p (by omega)] at hrp
      rw [fromLeafIndex_ok p (by omega)] at hlp
      cases hrp
      cases hlp
      rw [pathList_eq p (ceilLog2_top p hn) (by omega) hi
        (by have := (ceilLog2_le_iff (t.leavesCount + 1) _).1 (Nat.le_refl _); omega)] at hitems
      cases hitems
      have hlen := shapePath_length t.leavesCount 0 i (0, t.leavesCount) hi
      rw [Nat.zero_add] at hlen
      simp only [rangesToPos, List.length_dropLast, List.length_reverse, List.length_map, hlen] at c2
      rw [List.length_cons]
      omega

/-- The length is at most `⌈log₂ n⌉` siblings and the leaf, and so at most 64; the first leaf
reaches the bound, and the last one has a sibling for every one in the binary number `n - 1`. -/
theorem C79_length_bounds (i n : Nat) (hi : i < n) (hn : n < 2 ^ 63) :
    pathLength i n ≤ ceilLog2 n ∧ pathLength i n ≤ 63 ∧ pathLength 0 n = ceilLog2 n ∧ pathLength (n - 1) n = popcount (n - 1) := by
  have h1 := pathLength_le hi
  have h2 := (ceilLog2_le_iff n 63).2 (by omega)
  exact ⟨h1, by omega, pathLength_first (by omega), pathLength_last (by omega)⟩

/-- The audit path of RFC 6962 has that length. -/
theorem C79_audit_path_length (H : HashFn) (ds : List Bytes) (i : Nat) (hi : i < ds.length) :
    (auditPath H i ds).length = pathLength i ds.length := by
  obtain ⟨l, h1, _, h3⟩ := shapePath_sides (H := H) (ds := ds) rfl (0, ds.length) (TreeRange.root (n := ds.length) (by omega))
    (Nat.zero_le i) (by omega)
  rw [Nat.sub_zero, rng_all] at h3
  have h4 := congrArg List.length h1
  have h5 := shapePath_length ds.length 0 i (0, ds.length) hi
  rw [Nat.zero_add] at h5
  rw [List.length_map, h5, List.length_cons] at h4
  rw [← h3, List.length_reverse, List.length_map]
  omega

/-- `verify` does not check the length of the proof set. A client who checks that it has
`1 + pathLength i n` elements needs to know nothing about the first one: an accepted set is then
exactly the one `prove` returns (see C03), or a message hashed by the tree collides with one hashed
by the verifier. -/
theorem C79_length_checked (p : Profile) (H : HashFn) (s : BStore E) (ds : List Bytes) (hn : ds.length < 2 ^ 63) (t : Tree E)
    (ht : pushAll p H ds (Tree.new s) = (.ok (), t)) (root : Bytes32) (hr : t.root p H = .ok root)
    (i : Nat) (first : Bytes32) (rest : List Bytes32) (hlen : rest.length = pathLength i ds.length)
    (hv : verify p H root (first :: rest) i ds.length = .ok true) :
    (∃ d, ds[i]? = some d ∧ first :: rest = H ([0x00] ++ d) :: auditPath H i ds) ∨
      Collide H (mthMsgs H ds) (climbMsgs H first ((sidesOf i ds.length rest.length).zip rest)) := by
  obtain ⟨b, hb, hiff⟩ := verify_eq p H root first rest (i := i) (n := ds.length) (by omega)
  have hbt : b = true := by rw [hb] at hv; exact Except.ok.inj hv
  obtain ⟨hi, hl, hcl⟩ := hiff.1 hbt
  have h0 : ds ≠ [] := by intro h; simp [h] at hi
  obtain ⟨h1, _, _⟩ := pushAll_ok_inv p H ds (Inv.new H s) (by simp; omega) ht
  rw [List.nil_append] at h1
  rw [root_spec p H ds (by omega) t h1.peaks, if_neg h0] at hr
  have hr := Except.ok.inj hr
  rw [← hr] at hcl
  have hsl : (sidesOf i ds.length rest.length).length = rest.length := by simp [sidesOf]; omega
  have := climb_unique H first ((sidesOf i ds.length rest.length).zip rest).reverse ds i
    (by rw [List.map_reverse, List.map_fst_zip (by omega), hlen]; exact leafAt_sidesOf (by omega) hi)
    (by rw [List.reverse_reverse]; exact hcl)
  rw [List.reverse_reverse, List.map_snd_zip (by omega)] at this
  rcases this with hc | ⟨d, hd, hf, hs⟩
  · exact .inr hc
  · exact .inl ⟨d, hd, by rw [hf, hs]⟩

/-- Proofs cannot be varied: an accepted proof set that starts with a leaf hash is, element by
element, the one `prove` returns, or there is a collision. Its length need not be checked. -/
theorem C79_proof_unique (p : Profile) (H : HashFn) (s : BStore E) (ds : List Bytes) (hn : ds.length < 2 ^ 63) (t : Tree E)
    (ht : pushAll p H ds (Tree.new s) = (.ok (), t)) (root : Bytes32) (hr : t.root p H = .ok root)
    (i : Nat) (d : Bytes) (rest : List Bytes32)
    (hv : verify p H root (H ([0x00] ++ d) :: rest) i ds.length = .ok true) :
    (ds[i]? = some d ∧ rest = auditPath H i ds) ∨
      Collide H (mthMsgs H ds) (([0x00] ++ d) ::
        climbMsgs H (H ([0x00] ++ d)) ((sidesOf i ds.length rest.length).zip rest)) := by
  obtain ⟨b, hb, hiff⟩ := verify_eq p H root (H ([0x00] ++ d)) rest (i := i) (n := ds.length) (by omega)
  have hbt : b = true := by rw [hb] at hv; exact Except.ok.inj hv
  obtain ⟨hi, hlen, hcl⟩ := hiff.1 hbt
  have h0 : ds ≠ [] := by intro h; simp [h] at hi
  obtain ⟨h1, _, _⟩ := pushAll_ok_inv p H ds (Inv.new H s) (by simp; omega) ht
  rw [List.nil_append] at h1
  rw [root_spec p H ds (by omega) t h1.peaks, if_neg h0] at hr
  have hr := Except.ok.inj hr
  rw [← hr] at hcl
  have hsl : (sidesOf i ds.length rest.length).length = rest.length := by simp [sidesOf]; omega
  have hs := climb_sound H d ((sidesOf i ds.length rest.length).zip rest).reverse ds h0
    (by rw [List.reverse_reverse]; exact hcl)
  rcases hs with hc | ⟨j, hj, hd⟩
  · rw [List.reverse_reverse] at hc; exact .inr hc
  · have hji : j = i := by
      rw [List.map_reverse, List.map_fst_zip (by omega), sidesOf, List.reverse_append, List.reverse_replicate] at hj
      exact leafAt_sides ds.length i _ j (by omega) hi hj
    subst hji
    have := climb_unique H _ _ ds j hj (by rw [List.reverse_reverse]; exact hcl)
    rw [List.reverse_reverse, List.map_snd_zip (by omega)] at this
    rcases this with hc | ⟨d', _, _, hs⟩
    · exact .inr (collide_mono hc (fun _ h => h) (fun _ h => List.mem_cons_of_mem _ h))
    · exact .inl ⟨hd, hs⟩

/-- The hypotheses are met by the proofs the tree generates. -/
example (p : Profile) (H : HashFn) : ∃ t : Tree Unit, ∃ root first : Bytes32, ∃ rest : List Bytes32, pushAll p H sampleLeaves (Tree.new Store.empty) = (.ok (), t) ∧
    t.root p H = .ok root ∧ rest.length = pathLength 2 sampleLeaves.length ∧ first = H (([0x00] : Bytes) ++ sampleLeaves[2]'(by decide)) ∧
    verify p H root (first :: rest) 2 sampleLeaves.length = .ok true := by
  have hl : sampleLeaves.length < p.leafLimit := p.lt_leafLimit (by decide)
  obtain ⟨t, t', h1, h2, h3⟩ := C03_binary_proof (E := Unit) p H Store.empty (fun _ => rfl) sampleLeaves hl 2 (by decide)
  obtain ⟨u, u', root, set, k1, k2, k3, k4⟩ := C05_generated_proofs_verify (E := Unit) p H Store.empty (fun _ => rfl) sampleLeaves hl 2 (by decide)
  rw [h1] at k1
  cases k1
  rw [h3] at k3
  cases k3
  exact ⟨t, _, _, _, h1, h2, C79_audit_path_length _ _ _ (by decide), rfl, k4⟩

/-- Leaf 4 of 5 has a proof of two elements, leaf 5 of 7 one of four. -/
example : pathLength 4 5 = 1 ∧ pathLength 5 7 = 3 ∧ pathLength 6 7 = 2 := by decide +kernel

end FuelMerkle.Props
