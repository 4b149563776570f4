import Verif.Proofs.Reference
import Verif.Props.Binary
import Verif.Props.Verify

/-
Property C52: the streaming reference tree of the test helpers agrees with the library.
-/
namespace FuelMerkle.Props
open FuelMerkle.Binary FuelMerkle.Spec
variable {E : Type}

/-- Both trees return the same root for every list of leaves (also the empty one), whatever
proof index the reference tree was given. -/
theorem C52_same_root (p : Profile) (H : HashFn) (s : BStore E) (hs : s.Reliable) (ds : List Bytes)
    (hn : ds.length ≤ 2 ^ 63) (i : Nat) :
    ∃ t r root, Binary.pushAll p H ds (Tree.new s) = (.ok (), t) ∧ Reference.build p H i ds = .ok r ∧
      t.root p H = .ok root ∧ r.root p H = .ok root ∧ (ds ≠ [] → root = mth H ds) := by
  obtain ⟨t, h1, h2, _⟩ := pushAll_inv p H ds (Inv.new H s) (by simpa using hn) hs
  rw [List.nil_append] at h2
  obtain ⟨r, g1, g2⟩ := Reference.pushAll_spec p H (i := i) ds (t := ⟨[], 0, i, []⟩) (ds := [])
    ⟨.nil, rfl, rfl⟩ (by simpa using hn)
  rw [List.nil_append] at g2
  exact ⟨t, r, _, h1, g1, root_spec p H ds hn t h2.peaks, Reference.root_spec p H g2 (by omega),
    fun h => if_neg h⟩

/-- Both trees return the same root and the same proof for every leaf of every list: the
leaf hash followed by the RFC 6962 audit path. -/
theorem C52_same_proof (p : Profile) (H : HashFn) (s : BStore E) (hs : s.Reliable) (ds : List Bytes)
    (hn : ds.length < p.leafLimit) (i : Nat) (hi : i < ds.length) :
    ∃ t t' r x, Binary.pushAll p H ds (Tree.new s) = (.ok (), t) ∧ Reference.build p H i ds = .ok r ∧
      prove p H i t = (.ok x, t') ∧ r.prove p H = .ok x ∧
      x = (mth H ds, H ([0x00] ++ ds[i]) :: auditPath H i ds) := by
  have hlim := p.leafLimit_le
  obtain ⟨t, t', h1, _, h3⟩ := C03_binary_proof p H s hs ds hn i hi
  obtain ⟨r, g1, g2⟩ := Reference.pushAll_spec p H (i := i) ds (t := ⟨[], 0, i, []⟩) (ds := [])
    ⟨.nil, rfl, rfl⟩ (by simp; omega)
  rw [List.nil_append] at g2
  exact ⟨t, t', r, _, h1, g1, h3, Reference.prove_spec p H g2 (by omega) hi, rfl⟩

/-- Where they differ: for an index that is not a leaf the library reports
`InvalidProofIndex`, the reference tree returns the root with an empty proof set. -/
theorem C52_missing_index (p : Profile) (H : HashFn) (s : BStore E) (hs : s.Reliable) (ds : List Bytes)
    (hn : ds.length ≤ 2 ^ 63) (i : Nat) (hi : ds.length ≤ i) (hi' : i < 2 ^ 64 - 1) :
    ∃ t r root, Binary.pushAll p H ds (Tree.new s) = (.ok (), t) ∧ Reference.build p H i ds = .ok r ∧
      t.root p H = .ok root ∧ prove p H i t = (.error (.err (.invalidProofIndex i)), t) ∧
      r.prove p H = .ok (root, []) := by
  obtain ⟨t, h1, h2, _⟩ := pushAll_inv p H ds (Inv.new H s) (by simpa using hn) hs
  rw [List.nil_append] at h2
  obtain ⟨r, g1, g2⟩ := Reference.pushAll_spec p H (i := i) ds (t := ⟨[], 0, i, []⟩) (ds := [])
    ⟨.nil, rfl, rfl⟩ (by simpa using hn)
  rw [List.nil_append] at g2
  exact ⟨t, r, _, h1, g1, root_spec p H ds hn t h2.peaks,
    C04_index_rejected p H t i hi' (by rw [h2.count]; exact hi), Reference.prove_missing p H g2 (by omega) hi⟩

/-- The proof index can only be chosen before the first push. -/
theorem C52_proof_index_first (p : Profile) (H : HashFn) (i j : Nat) (ds : List Bytes) (h0 : ds ≠ [])
    (hn : ds.length ≤ 2 ^ 63) :
    ∃ r, Reference.build p H i ds = .ok r ∧ r.setProofIndex j = .error .assertion := by
  obtain ⟨r, g1, g2⟩ := Reference.pushAll_spec p H (i := i) ds (t := ⟨[], 0, i, []⟩) (ds := [])
    ⟨.nil, rfl, rfl⟩ (by simpa using hn)
  rw [List.nil_append] at g2
  refine ⟨r, g1, ?_⟩
  have : r.head ≠ [] := fun h => h0 (g2.1.empty_iff.1 h)
  unfold Reference.Tree.setProofIndex
  cases hr : r.head with
  | nil => exact absurd hr this
  | cons _ _ => rfl

example (p : Profile) : (Store.empty : BStore Unit).Reliable ∧ sampleLeaves.length < p.leafLimit ∧ 1 < sampleLeaves.length ∧
    sampleLeaves.length ≤ 7 ∧ 7 < 2 ^ 64 - 1 ∧ sampleLeaves ≠ [] := ⟨fun _ => rfl, p.lt_leafLimit (by decide), by decide, by decide, by decide, by decide⟩

end FuelMerkle.Props
