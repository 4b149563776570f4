import Verif.Proofs.BinaryRun
import Verif.Proofs.VerifySound
import Verif.Spec.Sha256
import Verif.Props.Binary

/-
Properties C05–C07: audit paths and roots as commitments.

`Spec/Verifier.lean` lists the messages hashed by the tree (`mthMsgs`) and by the verifier
(`climbMsgs`); `Collide H xs ys` says that a message of `xs` and a different message of `ys`
have the same hash. No assumption is made on `H`.
-/
namespace FuelMerkle.Props
open FuelMerkle.Binary FuelMerkle.Spec FuelMerkle.Verify
variable {E : Type}

set_option maxRecDepth 100000

/-! ### C05 -/

/-- What `prove` returns is accepted by `verify` with the same index and the number of
leaves, against the root of the tree. -/
theorem C05_generated_proofs_verify (p : Profile) (H : HashFn) (s : BStore E) (hs : s.Reliable)
    (ds : List Bytes) (hn : ds.length < p.leafLimit) (i : Nat) (hi : i < ds.length) :
    ∃ t t' root set, pushAll p H ds (Tree.new s) = (.ok (), t) ∧ t.root p H = .ok root ∧
      prove p H i t = (.ok (root, set), t') ∧ verify p H root set i ds.length = .ok true := by
  have hlim := p.leafLimit_le
  obtain ⟨t, t', h1, h2, h3⟩ := C03_binary_proof p H s hs ds hn i hi
  refine ⟨t, t', _, _, h1, h2, h3, ?_⟩
  obtain ⟨b, hb, hiff⟩ := verify_eq p H (mth H ds) (H ([0x00] ++ ds[i])) (auditPath H i ds) (i := i)
    (n := ds.length) (by omega)
  obtain ⟨a1, a2⟩ := auditPath_climb H ds.length ds i rfl (by omega) hi
  have : b = true := hiff.2 ⟨hi, a1, a2⟩
  rw [hb, this]

example (p : Profile) : (2 : Nat) < sampleLeaves.length ∧ sampleLeaves.length < p.leafLimit :=
  ⟨by decide, p.lt_leafLimit (by decide)⟩

/-! ### C06 -/

/-- If `verify` accepts a proof set that starts with the leaf hash of `d`, against the root
of the tree over `ds` and its number of leaves, then leaf `i` of the tree is `d`, or a
message hashed by the tree collides with one hashed by the verifier. The rest of the proof
set is arbitrary, of any length. -/
theorem C06_accepted_proofs_sound (p : Profile) (H : HashFn) (s : BStore E)
    (ds : List Bytes) (hn : ds.length < 2 ^ 63) (t : Tree E)
    (ht : pushAll p H ds (Tree.new s) = (.ok (), t)) (root : Bytes32) (hr : t.root p H = .ok root)
    (i : Nat) (d : Bytes) (rest : List Bytes32)
    (hv : verify p H root (H ([0x00] ++ d) :: rest) i ds.length = .ok true) :
    ds[i]? = some d ∨
      Collide H (mthMsgs H ds) (([0x00] ++ d) ::
        climbMsgs H (H ([0x00] ++ d)) ((sidesOf i ds.length rest.length).zip rest)) := by
  obtain ⟨b, hb, hiff⟩ := verify_eq p H root (H ([0x00] ++ d)) rest (i := i) (n := ds.length) hn
  have hbt : b = true := by rw [hb] at hv; exact Except.ok.inj hv
  obtain ⟨hi, hlen, hcl⟩ := hiff.1 hbt
  have h0 : ds ≠ [] := by intro h; simp [h] at hi
  obtain ⟨h1, _, _⟩ := pushAll_ok_inv p H ds (Inv.new H s) (by simp; omega) ht
  rw [List.nil_append] at h1
  rw [root_spec p H ds (by omega) t h1.peaks, if_neg h0] at hr
  have hr := Except.ok.inj hr
  rw [← hr] at hcl
  have hsl : (sidesOf i ds.length rest.length).length = rest.length := by simp [sidesOf]; omega
  have := climb_sound H d ((sidesOf i ds.length rest.length).zip rest).reverse ds h0
    (by rw [List.reverse_reverse]; exact hcl)
  rw [List.reverse_reverse] at this
  rcases this with hc | ⟨j, hj, hd⟩
  · exact Or.inr hc
  · left
    rw [List.map_reverse, List.map_fst_zip (by omega), sidesOf, List.reverse_append,
      List.reverse_replicate] at hj
    rw [← leafAt_sides ds.length i _ j (by omega) hi hj]
    exact hd

/-- The verifier does not check the length of the proof set: for the last leaf of a tree of
five it accepts the one-element set consisting of the root itself. (C06 is not affected: the
first element is then not a leaf hash unless there is a collision.) -/
theorem C06_length_not_checked (p : Profile) (H : HashFn) (root : Bytes32) :
    verify p H root [root] 4 5 = .ok true := by
  obtain ⟨b, hb, hiff⟩ := verify_eq p H root root [] (i := 4) (n := 5) (by decide)
  rw [hb]
  congr 1
  refine hiff.2 ⟨by decide, by decide, ?_⟩
  simp [climb]

/-- The hypotheses of C06 are met: by the generated proofs. -/
example : ∃ t root rest, pushAll ⟨true, true, .w64⟩ Sha256.sha256 sampleLeaves (Tree.new (Store.empty : BStore Unit))
      = (.ok (), t) ∧ t.root ⟨true, true, .w64⟩ Sha256.sha256 = .ok root ∧
    verify ⟨true, true, .w64⟩ Sha256.sha256 root (Sha256.sha256 ([0x00] ++ [2, 3]) :: rest) 1 3 = .ok true := by
  obtain ⟨t, t', h1, h2, h3⟩ := C03_binary_proof ⟨true, true, .w64⟩ Sha256.sha256 (Store.empty : BStore Unit)
    (fun _ => rfl) sampleLeaves (by decide) 1 (by decide)
  obtain ⟨t2, t2', r, set, k1, k2, k3, k4⟩ := C05_generated_proofs_verify ⟨true, true, .w64⟩ Sha256.sha256
    (Store.empty : BStore Unit) (fun _ => rfl) sampleLeaves (by decide) 1 (by decide)
  rw [h1] at k1
  obtain rfl := (Prod.mk.inj k1).2
  rw [h3] at k3
  obtain ⟨rfl, rfl⟩ := Prod.mk.inj (Except.ok.inj (Prod.mk.inj k3).1)
  exact ⟨t, _, _, h1, h2, k4⟩

/-! ### C07 -/

/-- If two leaf lists have the same root then they are equal, or messages hashed for the two
lists collide. For the empty list `H []` has to be the built-in constant, which is the case
for SHA-256 (C02). -/
theorem C07_root_commits (p : Profile) (H : HashFn) (hH : H [] = emptySum) (s s' : BStore E)
    (ds es : List Bytes) (hd : ds.length ≤ 2 ^ 63) (he : es.length ≤ 2 ^ 63) (t t' : Tree E)
    (ht : pushAll p H ds (Tree.new s) = (.ok (), t)) (ht' : pushAll p H es (Tree.new s') = (.ok (), t'))
    (hr : t.root p H = t'.root p H) :
    ds = es ∨ Collide H (mthMsgs H ds) (mthMsgs H es) := by
  obtain ⟨h1, _, _⟩ := pushAll_ok_inv p H ds (Inv.new H s) (by simpa using hd) ht
  obtain ⟨h2, _, _⟩ := pushAll_ok_inv p H es (Inv.new H s') (by simpa using he) ht'
  rw [List.nil_append] at h1 h2
  have key : ∀ D : List Bytes, (if D = [] then emptySum else mth H D) = mth H D := by
    intro D
    split
    · next h => subst h; rw [mth, hH]
    · rfl
  rw [root_spec p H ds hd t h1.peaks, root_spec p H es he t' h2.peaks, key, key] at hr
  exact mth_commits H _ ds es rfl (Except.ok.inj hr)

/-- The same for SHA-256, without hypothesis on the hash function. -/
theorem C07_root_commits_sha256 (p : Profile) (s s' : BStore E)
    (ds es : List Bytes) (hd : ds.length ≤ 2 ^ 63) (he : es.length ≤ 2 ^ 63) (t t' : Tree E)
    (ht : pushAll p Sha256.sha256 ds (Tree.new s) = (.ok (), t))
    (ht' : pushAll p Sha256.sha256 es (Tree.new s') = (.ok (), t'))
    (hr : t.root p Sha256.sha256 = t'.root p Sha256.sha256) :
    ds = es ∨ Collide Sha256.sha256 (mthMsgs Sha256.sha256 ds) (mthMsgs Sha256.sha256 es) :=
  C07_root_commits p _ (by decide +kernel) s s' ds es hd he t t' ht ht' hr

/-- Hypotheses met by two runs over the same leaves with different storages (any lists with
equal roots other than equal lists would be a SHA-256 collision). -/
example : ∃ t t' : Tree Unit,
    pushAll ⟨true, true, .w64⟩ Sha256.sha256 sampleLeaves (Tree.new Store.empty) = (.ok (), t) ∧
    pushAll ⟨true, true, .w64⟩ Sha256.sha256 sampleLeaves (Tree.new (failsAt 100 true)) = (.ok (), t') ∧
    t.root ⟨true, true, .w64⟩ Sha256.sha256 = t'.root ⟨true, true, .w64⟩ Sha256.sha256 := ⟨_, _, rfl, rfl, rfl⟩

/-- Two collision messages are really produced for a hash function that has collisions: with
a constant `H` different lists have equal roots. -/
example : ¬ ([[1]] : List Bytes) = [[2]] ∧ mth (fun _ => emptySum) [[1]] = mth (fun _ => emptySum) [[2]] :=
  ⟨by decide, by rw [mth, mth]⟩

end FuelMerkle.Props
