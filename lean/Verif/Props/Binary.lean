import Verif.Proofs.Profiles
import Verif.Proofs.BinaryRun
import Verif.Spec.Sha256

/-
Properties C01–C04 and C08–C17: the binary Merkle tree and its storage.

`Spec/Rfc6962.lean` defines `mth`, `auditPath` and `peaks`; `Spec/BinaryApi.lean` defines
`pushAll`, the call histories `run`, the list machine `specRun` and the crashing `Client`.
-/
namespace FuelMerkle.Props
open FuelMerkle.Binary FuelMerkle.Spec
variable {E : Type}

set_option maxRecDepth 100000

/-- Three leaves used in the examples. -/
def sampleLeaves : List Bytes := [[1], [2, 3], []]

/-- A storage that fails at call number `n`, keeping or losing that write. -/
def failsAt (n : Nat) (applied : Bool) : BStore Unit :=
  { map := fun _ => none, sched := fun t => if t = n then some ⟨(), applied⟩ else none, clock := 0 }

/-! ### C01 -/

/-- Pushing any nonempty list of at most `2^63` leaves onto a new tree whose storage does
not fail succeeds, and `root()` is then the RFC 6962 Merkle tree hash, for every hash
function, build profile and initial storage contents. -/
theorem C01_binary_root (p : Profile) (H : HashFn) (s : BStore E) (hs : s.Reliable)
    (ds : List Bytes) (hn : ds.length ≤ 2 ^ 63) (h0 : ds ≠ []) :
    ∃ t, pushAll p H ds (Tree.new s) = (.ok (), t) ∧ t.root p H = .ok (mth H ds) := by
  obtain ⟨t, h1, h2, _⟩ := pushAll_inv p H ds (Inv.new H s) (by simpa using hn) hs
  refine ⟨t, h1, ?_⟩
  rw [List.nil_append] at h2
  rw [root_spec p H ds hn t h2.peaks, if_neg h0]

/-- With SHA-256 the same holds for the empty list too. -/
theorem C01_binary_root_sha256 (p : Profile) (s : BStore E) (hs : s.Reliable)
    (ds : List Bytes) (hn : ds.length ≤ 2 ^ 63) :
    ∃ t, pushAll p Sha256.sha256 ds (Tree.new s) = (.ok (), t) ∧
      t.root p Sha256.sha256 = .ok (mth Sha256.sha256 ds) := by
  obtain ⟨t, h1, h2, _⟩ := pushAll_inv p Sha256.sha256 ds (Inv.new _ s) (by simpa using hn) hs
  refine ⟨t, h1, ?_⟩
  rw [List.nil_append] at h2
  rw [root_spec p _ ds hn t h2.peaks]
  by_cases h0 : ds = []
  · subst h0
    rw [if_pos rfl, mth]
    decide +kernel
  · rw [if_neg h0]

example : ((Store.empty : BStore Unit).Reliable) ∧ sampleLeaves.length ≤ 2 ^ 63 ∧ sampleLeaves ≠ [] :=
  ⟨fun _ => rfl, by decide, by decide⟩

/-! ### C02 -/

/-- A tree without leaves reports the constant `empty_sum`, whatever the storage holds,
whether it is new or loaded with count 0; and the constant is SHA-256 of the empty
string. -/
theorem C02_binary_empty_root (p : Profile) (H : HashFn) (s : BStore E) :
    (Tree.new s).root p H = .ok emptySum ∧
    (∃ t, Tree.load p s 0 = (.ok t, s) ∧ t.root p H = .ok emptySum) ∧
    emptySum = Sha256.sha256 [] := by
  have hlim := p.leafLimit_le
  refine ⟨rfl, ?_, by decide +kernel⟩
  refine ⟨{ storage := s, head := [], leavesCount := 0 }, ?_, rfl⟩
  unfold Tree.load build
  simp only []
  rw [Exec.get_bind, peakPositions_spec p (p.lt_leafLimit (show 0 < 2 ^ 62 by decide)), Exec.liftRes_ok_bind, peakRanges_one]
  rfl

/-! ### C03 -/

/-- `prove(i)` on the tree over `ds` returns the root and, as proof set, the leaf hash of
item `i` followed by the RFC 6962 audit path; the root is that of `root()`. -/
theorem C03_binary_proof (p : Profile) (H : HashFn) (s : BStore E) (hs : s.Reliable)
    (ds : List Bytes) (hn : ds.length < p.leafLimit) (i : Nat) (hi : i < ds.length) :
    ∃ t t', pushAll p H ds (Tree.new s) = (.ok (), t) ∧ t.root p H = .ok (mth H ds) ∧
      prove p H i t = (.ok (mth H ds, H ([0x00] ++ ds[i]) :: auditPath H i ds), t') := by
  have hlim := p.leafLimit_le
  obtain ⟨t, h1, h2, h3⟩ := pushAll_inv p H ds (Inv.new H s) (by simp; omega) hs
  rw [List.nil_append] at h2
  obtain ⟨t', _, h4 | ⟨e, he, _⟩⟩ := prove_spec p H ds t h2 hn hi
  · refine ⟨t, t', h1, ?_, h4⟩
    rw [root_spec p H ds (by omega) t h2.peaks, if_neg (by intro h; simp [h] at hi)]
  · exact absurd h3 he.not_reliable

example (p : Profile) : (1 : Nat) < sampleLeaves.length ∧ sampleLeaves.length < p.leafLimit :=
  ⟨by decide, p.lt_leafLimit (by decide)⟩

/-! ### C04 -/

/-- An index `n ≤ i < u64::MAX` is rejected with `InvalidProofIndex(i)` and the tree is
untouched, for every tree state and every storage. (`i = u64::MAX` is the exception, see
`C04_max_index_*`.) -/
theorem C04_index_rejected (p : Profile) (H : HashFn) (t : Tree E) (i : Nat)
    (hi : i < 2 ^ 64 - 1) (hle : t.leavesCount ≤ i) :
    prove p H i t = (.error (.err (.invalidProofIndex i)), t) :=
  prove_out_of_range p H t (by omega) hle

/-- The claim fails at `i = u64::MAX`: with overflow checks `proof_index + 1` panics. -/
theorem C04_max_index_panics (p : Profile) (hp : p.overflowChecks = true) (H : HashFn) (t : Tree E) :
    prove p H (2 ^ 64 - 1) t = (.error (.panic .overflow), t) := by
  unfold prove
  rw [Exec.get_bind]
  have : u64Add p (2 ^ 64 - 1) 1 = .error .overflow := by simp [u64Add, hp]
  rw [this]; rfl

/-- Without overflow checks the range check is passed: after pushing any leaves onto a new
tree over empty storage, `prove(u64::MAX)` reports `LoadError(u64::MAX)` instead of
`InvalidProofIndex(u64::MAX)`. -/
theorem C04_max_index_wraps (p : Profile) (hp : p.overflowChecks = false) (H : HashFn)
    (ds : List Bytes) (hn : ds.length < 2 ^ 63) :
    ∃ t t', pushAll p H ds (Tree.new (Store.empty : BStore E)) = (.ok (), t) ∧
      prove p H (2 ^ 64 - 1) t = (.error (.err (.loadError (2 ^ 64 - 1))), t') := by
  obtain ⟨t, h1, h2, h3⟩ := pushAll_inv p H ds (Inv.new H (Store.empty : BStore E)) (by simp; omega) (fun _ => rfl)
  rw [List.nil_append] at h2
  obtain ⟨_, _, ho⟩ := pushAll_ok_inv p H ds (Inv.new H (Store.empty : BStore E)) (by simp; omega) h1
  have ho := ho (by intro h k _; rfl)
  rw [List.nil_append] at ho
  obtain ⟨t', hs, ⟨_, h4⟩ | ⟨f, hf, _⟩⟩ := onStorage_get (2 ^ 64 - 2) t
  · refine ⟨t, t', h1, ?_⟩
    unfold prove
    rw [Exec.get_bind]
    have : u64Add p (2 ^ 64 - 1) 1 = .ok 0 := by simp [u64Add, hp]
    rw [this, Exec.liftRes_ok_bind, if_neg (by omega), h2.count, rootPosition_spec p (by omega),
      Exec.liftRes_ok_bind]
    have : Position.fromLeafIndex p (2 ^ 64 - 1) = .ok ⟨2 ^ 64 - 2⟩ := by
      simp [Position.fromLeafIndex, u64Mul, hp]
    rw [this, Exec.liftRes_ok_bind]
    simp only [Position.inOrderIndex]
    have hnone : t.storage.map (2 ^ 64 - 2) = none := by
      have := ho 0 (2 ^ 63 - 1) (by simp; omega)
      rwa [ioIndex_zero_left] at this
    rw [Exec.bind_ok h4, hnone]
    rfl
  · rw [h3] at hf; cases hf

example : ∃ t : Tree Unit, t.leavesCount ≤ 5 := ⟨Tree.new Store.empty, by decide⟩

/-! ### C08 -/

/-- After pushing `ds` onto a new tree over empty storage, the record at key
`2^h (2k + 1) - 1` is that key with the Merkle hash of the leaves
`k 2^h, …, (k + 1) 2^h - 1`, for every complete subtree `(k + 1) 2^h ≤ n`; and no other key
has a record. The storage may be one that can fail, as long as the pushes succeeded. -/
theorem C08_storage_contents (p : Profile) (H : HashFn) (s : BStore E) (hs : s.map = fun _ => none)
    (ds : List Bytes) (hn : ds.length ≤ 2 ^ 63) (t : Tree E)
    (ht : pushAll p H ds (Tree.new s) = (.ok (), t)) :
    (∀ h k, (k + 1) * 2 ^ h ≤ ds.length →
      t.storage.map (2 ^ h * (2 * k + 1) - 1) =
        some (2 ^ h * (2 * k + 1) - 1, mth H ((ds.drop (k * 2 ^ h)).take (2 ^ h)))) ∧
    (∀ key, t.storage.map key ≠ none →
      ∃ h k, key = 2 ^ h * (2 * k + 1) - 1 ∧ (k + 1) * 2 ^ h ≤ ds.length) := by
  obtain ⟨h1, _, h3⟩ := pushAll_ok_inv p H ds (Inv.new H s) (by simpa using hn) ht
  rw [List.nil_append] at h1 h3
  have h3 := h3 (by intro h k _; simp [Tree.new, hs])
  constructor
  · intro h k hk
    have e : 2 ^ h * (2 * k + 1) - 1 = ioIndex h k := by have := ioIndex_succ h k; omega
    rw [e, h1.agree h k hk]
    rfl
  · intro key hkey
    obtain ⟨h, k, rfl⟩ := ioIndex_surjective key
    refine ⟨h, k, by have := ioIndex_succ h k; omega, ?_⟩
    rcases Nat.lt_or_ge ds.length ((k + 1) * 2 ^ h) with hlt | hge
    · exact absurd (h3 h k hlt) hkey
    · exact hge

example : ∃ t, pushAll ⟨true, true, .w64⟩ Sha256.sha256 sampleLeaves (Tree.new (Store.empty : BStore Unit)) = (.ok (), t) :=
  let ⟨t, h, _⟩ := C01_binary_root ⟨true, true, .w64⟩ Sha256.sha256 (Store.empty : BStore Unit) (fun _ => rfl)
    sampleLeaves (by decide) (by decide)
  ⟨t, h⟩

/-! ### C09 -/

/-- Loading the storage left by `n` pushes with leaf count `n` gives back the tree itself
(same subtree list, same count, same storage contents), and every later history of calls
gives the same results on both. -/
theorem C09_load_restores (p : Profile) (H : HashFn) (s : BStore E) (hs : s.Reliable)
    (ds : List Bytes) (hn : ds.length < p.leafLimit) (t : Tree E)
    (ht : pushAll p H ds (Tree.new s) = (.ok (), t)) :
    ∃ t' s', Tree.load p t.storage ds.length = (.ok t', s') ∧
      t'.head = t.head ∧ t'.leavesCount = t.leavesCount ∧ t'.storage.map = t.storage.map ∧
      ∀ ops, ds.length + pushCount ops < p.leafLimit → indicesOk ops →
        (run p H ops t').1 = (run p H ops t).1 := by
  have hlim := p.leafLimit_le
  obtain ⟨h1, h2, _⟩ := pushAll_ok_inv p H ds (Inv.new H s) (by simp; omega) ht
  rw [List.nil_append] at h1
  have hr : t.storage.Reliable := by intro x; rw [h2]; exact hs x
  obtain ⟨c, hc, ⟨l, hl, e⟩ | ⟨er, ⟨x, f, _, hf, _⟩, _⟩⟩ :=
    load_agree p t.storage h1.agree hn (Nat.le_refl _)
  · rw [List.take_length] at hl
    have hI : Inv H ds ({ storage := { t.storage with clock := c }, head := l, leavesCount := ds.length } : Tree E) :=
      ⟨rfl, hl, h1.agree⟩
    refine ⟨_, _, e, hl.det h1.peaks, h1.count.symm, rfl, ?_⟩
    intro ops ho hi
    rw [(run_refines p H ops hI ho hi hr).1, (run_refines p H ops h1 ho hi hr).1]
  · rw [hr] at hf; cases hf

/-! ### C10 -/

/-- The storage of an `n`-leaf tree can be loaded at any earlier size `m ≤ n`: every history
of calls on the loaded tree gives the results of the list machine on the first `m` leaves
(in particular the root and all proofs are those of the first `m` leaves). -/
theorem C10_load_prefix (p : Profile) (H : HashFn) (s : BStore E) (hs : s.Reliable)
    (ds : List Bytes) (hn : ds.length ≤ 2 ^ 63) (t : Tree E)
    (ht : pushAll p H ds (Tree.new s) = (.ok (), t)) (m : Nat) (hm : m ≤ ds.length) (hm2 : m < p.leafLimit) :
    ∃ t' s', Tree.load p t.storage m = (.ok t', s') ∧
      ∀ ops, m + pushCount ops < p.leafLimit → indicesOk ops →
        (run p H ops t').1 = (specRun H ops (ds.take m)).1 := by
  have hlim := p.leafLimit_le
  obtain ⟨h1, h2, _⟩ := pushAll_ok_inv p H ds (Inv.new H s) (by simpa using hn) ht
  rw [List.nil_append] at h1
  have hr : t.storage.Reliable := by intro x; rw [h2]; exact hs x
  obtain ⟨c, hc, ⟨l, hl, e⟩ | ⟨er, ⟨x, f, _, hf, _⟩, _⟩⟩ := load_agree p t.storage h1.agree hm2 hm
  · refine ⟨_, _, e, ?_⟩
    intro ops ho hi
    have hlen : (ds.take m).length = m := by rw [List.length_take]; omega
    have hI : Inv H (ds.take m) ({ storage := { t.storage with clock := c }, head := l, leavesCount := m } : Tree E) :=
      ⟨hlen.symm, by rw [hlen]; exact hl, h1.agree.take m⟩
    exact (run_refines p H ops hI (by rw [hlen]; exact ho) hi hr).1
  · rw [hr] at hf; cases hf

/-- In particular: root and proofs of the first `m` leaves. -/
theorem C10_load_prefix_root (p : Profile) (H : HashFn) (s : BStore E) (hs : s.Reliable)
    (ds : List Bytes) (hn : ds.length ≤ 2 ^ 63) (t : Tree E)
    (ht : pushAll p H ds (Tree.new s) = (.ok (), t)) (m : Nat) (hm : m ≤ ds.length) (hm2 : m < p.leafLimit)
    (h0 : 0 < m) :
    ∃ t' s', Tree.load p t.storage m = (.ok t', s') ∧ t'.root p H = .ok (mth H (ds.take m)) ∧
      ∀ i (hi : i < m), (prove p H i t').1 =
        .ok (mth H (ds.take m), H ([0x00] ++ ds[i]) :: auditPath H i (ds.take m)) := by
  have hlim := p.leafLimit_le
  obtain ⟨t', s', h1, h2⟩ := C10_load_prefix p H s hs ds hn t ht m hm hm2
  have hne : ds.take m ≠ [] := by
    intro h
    have := congrArg List.length h
    rw [List.length_take, List.length_nil] at this; omega
  refine ⟨t', s', h1, ?_, ?_⟩
  · have := h2 [.root] (by simpa [pushCount] using hm2) trivial
    simpa [run, step, specRun, specStep, hne] using this
  · intro i hi
    have := h2 [.prove i] (by simpa [pushCount] using hm2) ⟨by omega, trivial⟩
    have hget : (ds.take m)[i]? = some ds[i] := by
      rw [List.getElem?_take_of_lt hi, List.getElem?_eq_getElem]
    simp only [run, step, specRun, specStep, hget] at this
    simpa [leafSum, Prefix.bytes] using this

/-! ### C11 -/

/-- In-order index of the root of a complete subtree given by its first leaf and its size. -/
def peakKey (x : Nat × Nat) : Nat := 2 * x.1 + x.2 - 1

theorem peaks_pow2 (b : Nat) : ∀ a n, ∀ x ∈ peaks b a n, rangeIndex x = peakKey x := by
  induction b with
  | zero => intro a n x hx; simp [peaks] at hx
  | succ b ih =>
    intro a n x hx
    rw [peaks] at hx
    split at hx
    · rcases List.mem_cons.1 hx with rfl | hx
      · simp [rangeIndex, peakKey, ceilLog2_two_pow]
      · exact ih _ _ _ hx
    · exact ih _ _ _ hx

/-- `load` on storage that does not fail, with arbitrary contents: it succeeds iff every
peak of the `n`-leaf tree is present, and otherwise reports the first (leftmost, highest)
missing peak with `LoadError`; it never panics. -/
theorem C11_load_missing (p : Profile) (s : BStore E) (hs : s.Reliable) (n : Nat) (hn : n < p.leafLimit) :
    ((∀ x ∈ peaks 64 0 n, s.map (peakKey x) ≠ none) →
      ∃ t s', Tree.load p s n = (.ok t, s')) ∧
    (∀ pre x post, peaks 64 0 n = pre ++ x :: post → (∀ y ∈ pre, s.map (peakKey y) ≠ none) →
      s.map (peakKey x) = none →
      ∃ s', Tree.load p s n = (.error (.err (.loadError (peakKey x))), s')) := by
  have hlim := p.leafLimit_le
  have hkey : ∀ x ∈ peaks 64 0 n, rangeIndex x = peakKey x := peaks_pow2 64 0 n
  obtain ⟨t', _, hcase⟩ := load_spec p s hn
  rw [peakRanges_eq (by omega)] at hcase
  rcases hcase with ⟨qs, e1, e2⟩ | ⟨pre, x, post, e1, e2, e3, e4⟩ | ⟨e, ⟨x, f, _, hf, _⟩, _⟩
  · refine ⟨fun _ => ⟨_, _, e2⟩, ?_⟩
    intro pre x post h1 h2 h3
    exfalso
    have hx : x ∈ peaks 64 0 n := by rw [h1]; simp
    have : s.map (rangeIndex x) ∈ qs.map some := by
      rw [← e1]; exact List.mem_map.2 ⟨x, hx, rfl⟩
    rw [hkey x hx, h3] at this
    simp at this
  · have hx : x ∈ peaks 64 0 n := by rw [e1]; simp
    refine ⟨?_, ?_⟩
    · intro h
      exact absurd (hkey x hx ▸ e3) (h x hx)
    · intro pre' x' post' h1 h2 h3
      have hx' : x' ∈ peaks 64 0 n := by rw [h1]; simp
      have : x = x' := by
        rw [e1] at h1
        rcases List.append_eq_append_iff.1 h1 with ⟨as, h4, h5⟩ | ⟨as, h4, h5⟩
        · cases as with
          | nil => simp at h5; exact h5.1
          | cons a as =>
            simp at h5
            have hm : x ∈ pre' := by rw [h4, h5.1]; simp
            exact absurd (hkey x hx ▸ e3) (h2 x hm)
        · cases as with
          | nil => simp at h5; exact h5.1.symm
          | cons a as =>
            simp at h5
            have hm : x' ∈ pre := by rw [h4, h5.1]; simp
            exact absurd (hkey x' hx' ▸ h3) (e2 x' hm)
      subst this
      rw [hkey x hx] at e4
      exact ⟨_, e4⟩
  · rw [hs] at hf; cases hf

/-- The supported range is sharp: with overflow checks on, `load` panics for every count
from `2^62` up to `2^63 - 1`, whatever the storage holds (see C22). -/
theorem C11_load_panics_beyond (p : Profile) (hp : p.overflowChecks = true) (s : BStore E) (n : Nat)
    (h1 : 2 ^ 62 ≤ n) (h2 : n < 2 ^ 63) : Tree.load p s n = (.error (.panic .overflow), s) := by
  unfold Tree.load build
  simp only []
  rw [Exec.get_bind]
  have hc : ceilLog2 (n + 1) = 63 := ceilLog2_eq (g := 62) (by omega) (by omega)
  have : peakPositions p n = .error .overflow := by
    unfold peakPositions
    rw [u64Add, if_pos (by omega), Res.ok_bind, u64Sub, if_pos (by omega), Res.ok_bind,
      fromLeafIndex_ok p (by omega), Res.ok_bind, rootPosition_spec p (by omega), Res.ok_bind, hc,
      pathList_panic p hp (by omega) (by omega) (by omega)]
    rfl
  rw [this]
  rfl

example : peaks 64 0 6 = [(0, 4), (4, 2)] ∧ [(0, 4), (4, 2)].map peakKey = [3, 9] := by decide

/-! ### C12 -/

/-- If a push fails at any of its storage writes (the failing write applied or lost), the
storage left behind, once it works again, can be loaded at the old leaf count, and the
loaded tree behaves in every later history as the tree over the old leaves. -/
theorem C12_interrupted_push (p : Profile) (H : HashFn) (s : BStore E)
    (ds : List Bytes) (hn : ds.length < p.leafLimit) (t t' : Tree E) (d : Bytes) (e : Fail (Error E))
    (ht : pushAll p H ds (Tree.new s) = (.ok (), t)) (hf : push p H d t = (.error e, t')) :
    ∃ t'' s'', Tree.load p (healed t'.storage) ds.length = (.ok t'', s'') ∧
      ∀ ops, ds.length + pushCount ops < p.leafLimit → indicesOk ops →
        (run p H ops t'').1 = (specRun H ops ds).1 := by
  have hlim := p.leafLimit_le
  obtain ⟨h1, _, _⟩ := pushAll_ok_inv p H ds (Inv.new H s) (by simp; omega) ht
  rw [List.nil_append] at h1
  obtain ⟨_, _, ha, _⟩ := push_error_inv p H h1 (by omega) hf
  obtain ⟨c, hc, ⟨l, hl, e⟩ | ⟨er, ⟨x, f, _, hf, _⟩, _⟩⟩ :=
    load_agree p (healed t'.storage) ha hn (Nat.le_refl _)
  · rw [List.take_length] at hl
    refine ⟨_, _, e, ?_⟩
    intro ops ho hi
    exact (run_refines p H ops (t := ⟨⟨t'.storage.map, fun _ => none, c⟩, l, ds.length⟩)
      ⟨rfl, hl, ha⟩ ho hi (fun _ => rfl)).1
  · cases hf

/-- A push that fails reports the storage's error and never panics. -/
theorem C12_push_error_is_storage_error (p : Profile) (H : HashFn) (s : BStore E)
    (ds : List Bytes) (hn : ds.length < 2 ^ 63) (t t' : Tree E) (d : Bytes) (e : Fail (Error E))
    (ht : pushAll p H ds (Tree.new s) = (.ok (), t)) (hf : push p H d t = (.error e, t')) :
    ∃ x, e = .err (.storageError x) := by
  obtain ⟨h1, _, _⟩ := pushAll_ok_inv p H ds (Inv.new H s) (by simp; omega) ht
  rw [List.nil_append] at h1
  obtain ⟨⟨_, f, _, _, hx⟩, _⟩ := push_error_inv p H h1 hn hf
  exact ⟨f.err, hx⟩

/-- The second push of two fails at its second write: hypotheses of C12 are met. -/
example : ∃ t t' e, pushAll ⟨true, true, .w64⟩ Sha256.sha256 [[1]] (Tree.new (failsAt 2 true)) = (.ok (), t) ∧
    push ⟨true, true, .w64⟩ Sha256.sha256 [2] t = (.error e, t') := ⟨_, _, _, rfl, rfl⟩

/-! ### C13 -/

/-- The naive expectation that a failed push leaves the open tree unchanged is false: there is a tree (one leaf) and a failing push (storage error at the second
write of the push) after which the open tree reports the empty root and still claims one
leaf; this holds in every build profile. -/
theorem C13_failed_push_changes_root (p : Profile) (applied : Bool) :
    ∃ t t' : Tree Unit, pushAll p Sha256.sha256 [[1]] (Tree.new (failsAt 2 applied)) = (.ok (), t) ∧
      push p Sha256.sha256 [2] t = (.error (.err (.storageError ())), t') ∧
      t'.leavesCount = 1 ∧ t'.root p Sha256.sha256 = .ok emptySum ∧
      t'.root p Sha256.sha256 ≠ t.root p Sha256.sha256 := by
  have hp := debug_stricter p
  have h1 : ∃ t t' : Tree Unit, pushAll ⟨true, true, .w64⟩ Sha256.sha256 [[1]] (Tree.new (failsAt 2 applied)) = (.ok (), t) ∧
      push ⟨true, true, .w64⟩ Sha256.sha256 [2] t = (.error (.err (.storageError ())), t') ∧
      t'.leavesCount = 1 ∧ t'.root ⟨true, true, .w64⟩ Sha256.sha256 = .ok emptySum ∧
      t.root ⟨true, true, .w64⟩ Sha256.sha256 = .ok (Sha256.sha256 [0, 1]) := by
    cases applied <;> exact ⟨_, _, rfl, rfl, rfl, rfl, rfl⟩
  obtain ⟨t, t', e1, e2, e3, e4, e5⟩ := h1
  refine ⟨t, t', (pushAll_safe hp _ _).transfer e1 (by simp), (push_safe hp _ _).transfer e2 (by simp), e3, (root_safe hp _ _).eq_ok e4, ?_⟩
  rw [(root_safe hp _ _).eq_ok e4, (root_safe hp _ _).eq_ok e5]
  intro h
  injection h with h
  revert h
  decide +kernel

/-- The exact behaviour: a failed push keeps the leaf count; if it failed at its first write
(the leaf record) the tree is unchanged, otherwise the open tree has lost its subtree list
and reports the root of the empty tree. -/
theorem C13_failed_push (p : Profile) (H : HashFn) (s : BStore E)
    (ds : List Bytes) (hn : ds.length < 2 ^ 63) (t t' : Tree E) (d : Bytes) (e : Fail (Error E))
    (ht : pushAll p H ds (Tree.new s) = (.ok (), t)) (hf : push p H d t = (.error e, t')) :
    t'.leavesCount = t.leavesCount ∧
      ((t'.storage.clock = t.storage.clock + 1 ∧ t'.head = t.head ∧ t'.root p H = t.root p H) ∨
       (t.storage.clock + 1 < t'.storage.clock ∧ t'.root p H = .ok emptySum)) := by
  obtain ⟨h1, _, _⟩ := pushAll_ok_inv p H ds (Inv.new H s) (by simp; omega) ht
  rw [List.nil_append] at h1
  obtain ⟨_, h2, _, ⟨h3, h4⟩ | ⟨h3, h4⟩⟩ := push_error_inv p H h1 hn hf
  · exact ⟨h2.trans h1.count.symm, Or.inl ⟨h4, h3, by unfold Tree.root; rw [h3]⟩⟩
  · exact ⟨h2.trans h1.count.symm, Or.inr ⟨h4, by unfold Tree.root; rw [h3]; rfl⟩⟩

/-! ### C14 -/

/-- `prove` changes nothing but the number of storage calls made, for every tree state,
index and fault schedule; `root` takes the tree by shared reference and does not touch
storage at all (it is a function of the tree in the model). -/
theorem C14_prove_pure (p : Profile) (H : HashFn) (i : Nat) (t : Tree E) :
    let t' := (prove p H i t).2
    t'.head = t.head ∧ t'.leavesCount = t.leavesCount ∧ t'.storage.map = t.storage.map ∧
      t'.root p H = t.root p H := by
  have h := prove_readOnly p H i t
  exact ⟨h.head, h.count, h.map, by unfold Tree.root; rw [h.head]⟩

/-- Remove the observations from a history. -/
def pushesOnly (ops : List Op) : List Op := ops.filter fun op => match op with | .push _ => true | _ => false

/-- Inserting observations anywhere in a history changes no later observation. -/
theorem C14_observations_invisible (p : Profile) (H : HashFn) (s : BStore E) (hs : s.Reliable)
    (ops after : List Op) (hn : pushCount ops + pushCount after < p.leafLimit) (h1 : indicesOk ops)
    (h2 : indicesOk after) :
    (run p H after (run p H ops (Tree.new s)).2).1 =
      (run p H after (run p H (pushesOnly ops) (Tree.new s)).2).1 := by
  have hlim := p.leafLimit_le
  have hrel : ∀ (ops : List Op) (ds : List Bytes) (t : Tree E), Inv H ds t → t.storage.Reliable →
      ds.length + pushCount ops < p.leafLimit → indicesOk ops → (run p H ops t).2.storage.Reliable := by
    intro ops
    induction ops with
    | nil => intro ds t _ hr _ _; exact hr
    | cons op ops ih =>
      intro ds t hI hr hn hi
      cases op with
      | push d =>
        simp only [pushCount] at hn
        obtain ⟨t1, e1, e2, e3⟩ := push_inv p H d hI (by omega) hr
        simp only [run, step, e1]
        exact ih _ _ e2 e3 (by simp; omega) hi
      | root => exact ih _ _ hI hr hn hi
      | prove i =>
        have hro := prove_readOnly p H i t
        simp only [run, step]
        exact ih ds _ (hI.same hro) (by intro x; rw [hro.sched]; exact hr x) hn hi.2
  have hspec : ∀ (ops : List Op) (ds : List Bytes),
      (specRun (E := E) H (pushesOnly ops) ds).2 = (specRun (E := E) H ops ds).2 := by
    intro ops
    induction ops with
    | nil => intro ds; rfl
    | cons op ops ih => intro ds; cases op <;> exact ih _
  have hcount : ∀ ops, pushCount (pushesOnly ops) = pushCount ops := by
    intro ops
    induction ops with
    | nil => rfl
    | cons op ops ih =>
      cases op with
      | push d => simp only [pushesOnly, List.filter_cons, if_true, pushCount] at ih ⊢; rw [ih]
      | root => exact ih
      | prove i => exact ih
  have hidx : indicesOk (pushesOnly ops) := by
    clear h1 hn
    induction ops with
    | nil => trivial
    | cons op ops ih => cases op <;> exact ih
  have hlen : ∀ (ops : List Op) (ds : List Bytes),
      (specRun (E := E) H ops ds).2.length = ds.length + pushCount ops := by
    intro ops
    induction ops with
    | nil => intro ds; rfl
    | cons op ops ih =>
      intro ds
      cases op with
      | push d =>
        simp only [specRun, specStep, pushCount, ih, List.length_append, List.length_singleton]
        omega
      | root => exact ih ds
      | prove i => exact ih ds
  have hI0 := Inv.new (E := E) H s
  have a1 := run_refines p H ops hI0 (by simp; omega) h1 hs
  have a2 := run_refines p H (pushesOnly ops) hI0 (by rw [hcount]; simp; omega) hidx hs
  rw [hspec] at a2
  have b := hlen ops []
  rw [(run_refines p H after a1.2 (by rw [b]; simp; omega) h2
      (hrel _ _ _ hI0 hs (by simp; omega) h1)).1,
    (run_refines p H after a2.2 (by rw [b]; simp; omega) h2
      (hrel _ _ _ hI0 hs (by rw [hcount]; simp; omega) hidx)).1]

example : indicesOk [.push [1], .root, .prove 0, .push [2], .prove 7] :=
  ⟨by decide, by decide, trivial⟩

/-! ### C15 -/

/-- Records are immutable: every record present in the storage after pushing `ds` onto a new
tree over empty storage is still there, with the same value, after any further pushes. -/
theorem C15_records_immutable (p : Profile) (H : HashFn) (s : BStore E) (hs : s.map = fun _ => none)
    (ds es : List Bytes) (hn : ds.length + es.length ≤ 2 ^ 63) (t t' : Tree E)
    (ht : pushAll p H ds (Tree.new s) = (.ok (), t)) (ht' : pushAll p H es t = (.ok (), t'))
    (key : Nat) (v : Prim) (hv : t.storage.map key = some v) : t'.storage.map key = some v := by
  obtain ⟨h1, _, h3⟩ := pushAll_ok_inv p H ds (Inv.new H s) (by simp; omega) ht
  rw [List.nil_append] at h1 h3
  have h3 := h3 (by intro h k _; simp [Tree.new, hs])
  obtain ⟨h4, _, _⟩ := pushAll_ok_inv p H es h1 (by omega) ht'
  obtain ⟨h, k, rfl⟩ := ioIndex_surjective key
  rcases Nat.lt_or_ge ds.length ((k + 1) * 2 ^ h) with hlt | hge
  · rw [h3 h k hlt] at hv; cases hv
  · rw [h4.agree h k (by rw [List.length_append]; omega), nodeAt_append hge, ← h1.agree h k hge, hv]

/-- Also across failed pushes, crashes and reloads: the records of the complete subtrees of
the acknowledged leaves never change, whatever happens later. -/
theorem C15_records_immutable_crash (p : Profile) (H : HashFn) (s : BStore E)
    (evs evs' : List Event) (hn : ((Client.start s).run p H (evs ++ evs')).acked.length < p.leafLimit)
    (h k : Nat) (hk : (k + 1) * 2 ^ h ≤ ((Client.start s).run p H evs).acked.length) :
    ((Client.start s).run p H (evs ++ evs')).storage.map (2 ^ h * (2 * k + 1) - 1) =
      ((Client.start s).run p H evs).storage.map (2 ^ h * (2 * k + 1) - 1) ∧
    ((Client.start s).run p H evs).storage.map (2 ^ h * (2 * k + 1) - 1) ≠ none := by
  have hlim := p.leafLimit_le
  have hrun : ∀ (evs evs' : List Event) (c : Client E),
      c.run p H (evs ++ evs') = (c.run p H evs).run p H evs' := by
    intro evs
    induction evs with
    | nil => intro evs' c; rfl
    | cons ev evs ih => intro evs' c; exact ih evs' _
  have hpre : ∀ (evs : List Event) (c : Client E), ∃ l, (c.run p H evs).acked = c.acked ++ l := by
    intro evs
    induction evs with
    | nil => intro c; exact ⟨[], by simp [Client.run]⟩
    | cons ev evs ih =>
      intro c
      obtain ⟨l, hl⟩ := ih (c.step p H ev)
      have : ∃ l', (c.step p H ev).acked = c.acked ++ l' := by
        unfold Client.step
        split
        · split
          · exact ⟨_, rfl⟩
          · exact ⟨[], by simp⟩
        · exact ⟨[], by simp⟩
        · exact ⟨[], by simp⟩
        · split <;> exact ⟨[], by simp⟩
      obtain ⟨l', hl'⟩ := this
      exact ⟨l' ++ l, by simp only [Client.run]; rw [hl, hl', List.append_assoc]⟩
  have e : 2 ^ h * (2 * k + 1) - 1 = ioIndex h k := by have := ioIndex_succ h k; omega
  rw [hrun] at hn ⊢
  have hmono := Client.run_mono p H evs' ((Client.start s).run p H evs)
  have a1 := (ClientInv.start H s).run p evs (by omega)
  have a2 := a1.run p evs' hn
  obtain ⟨l, hl⟩ := hpre evs' ((Client.start s).run p H evs)
  rw [e, a1.agree h k hk, a2.agree h k (by omega), hl, nodeAt_append hk]
  exact ⟨rfl, by simp⟩

/-! ### C16 -/

/-- `n` pushes onto a new tree over empty storage make exactly `2 n - popcount n` storage
calls, all of them writes, and exactly that many distinct keys have a record afterwards. -/
theorem C16_storage_growth (p : Profile) (H : HashFn) (s : BStore E) (hs : s.map = fun _ => none)
    (ds : List Bytes) (hn : ds.length ≤ 2 ^ 63) (t : Tree E)
    (ht : pushAll p H ds (Tree.new s) = (.ok (), t)) :
    t.storage.clock - s.clock = 2 * ds.length - popcount ds.length ∧
    ∃ keys : List Nat, keys.Nodup ∧ (∀ key, key ∈ keys ↔ t.storage.map key ≠ none) ∧
      keys.length = 2 * ds.length - popcount ds.length := by
  have hc := pushAll_clock p H ds (Inv.new H s) (by simpa using hn) ht
  obtain ⟨h1, _, h3⟩ := pushAll_ok_inv p H ds (Inv.new H s) (by simpa using hn) ht
  rw [List.nil_append] at h1 h3
  have h3 := h3 (by intro h k _; simp [Tree.new, hs])
  obtain ⟨l, l1, l2, l3⟩ := keys_exist ds.length
  have hp := popcount_le ds.length
  have hp0 : popcount 0 = 0 := by rw [popcount]; simp
  constructor
  · simp [Tree.new, hp0] at hc
    omega
  · refine ⟨l, l1, ?_, by omega⟩
    intro key
    obtain ⟨h, k, rfl⟩ := ioIndex_surjective key
    rw [l2]
    constructor
    · intro hle; rw [h1.agree h k hle]; simp
    · intro hne
      rcases Nat.lt_or_ge ds.length ((k + 1) * 2 ^ h) with hlt | hge
      · exact absurd (h3 h k hlt) hne
      · exact hge

example : popcount 7 = 3 ∧ 2 * 7 - popcount 7 = 11 := by decide +kernel

/-! ### C17 -/

/-- Whatever pushes, storage failures (at any call, with the failing write applied or lost),
crashes and re-openings have happened, in any order: if the client holds an open tree, that
tree has the root of exactly the acknowledged leaves and, when storage works, behaves in
every later history as the tree over the acknowledged leaves. -/
theorem C17_acknowledged_survive (p : Profile) (H : HashFn) (s : BStore E) (evs : List Event)
    (c : Client E) (hc : c = (Client.start s).run p H evs) (hn : c.acked.length < p.leafLimit)
    (t : Tree E) (ht : c.tree = some t) :
    t.root p H = .ok (if c.acked = [] then emptySum else mth H c.acked) ∧
    t.leavesCount = c.acked.length ∧
    ∀ ops, c.acked.length + pushCount ops < p.leafLimit → indicesOk ops →
      (run p H ops { t with storage := healed t.storage }).1 = (specRun H ops c.acked).1 := by
  have hlim := p.leafLimit_le
  subst hc
  obtain ⟨hI, _⟩ := ((ClientInv.start H s).run p evs hn).tree t ht
  refine ⟨root_spec p H _ (by omega) t hI.peaks, hI.count, ?_⟩
  intro ops ho hi
  exact (run_refines p H ops (t := { t with storage := healed t.storage })
    ⟨hI.count, hI.peaks, hI.agree⟩ ho hi (by intro _; rfl)).1

/-- And if the client holds no open tree, then re-opening succeeds as soon as storage works
again, with the same guarantee. -/
theorem C17_reopen_succeeds (p : Profile) (H : HashFn) (s : BStore E) (evs : List Event)
    (c : Client E) (hc : c = (Client.start s).run p H evs) (hn : c.acked.length < p.leafLimit) :
    ∃ t s', Tree.load p (healed c.storage) c.acked.length = (.ok t, s') ∧
      ∀ ops, c.acked.length + pushCount ops < p.leafLimit → indicesOk ops →
        (run p H ops t).1 = (specRun H ops c.acked).1 := by
  have hlim := p.leafLimit_le
  subst hc
  have hI := (ClientInv.start H s).run p evs hn
  obtain ⟨x, hx, ⟨l, hl, e⟩ | ⟨er, ⟨_, f, _, hf, _⟩, _⟩⟩ :=
    load_agree p (healed ((Client.start s).run p H evs).storage) hI.agree hn (Nat.le_refl _)
  · refine ⟨_, _, e, ?_⟩
    intro ops ho hi
    rw [List.take_length] at hl
    exact (run_refines p H ops
      (t := ⟨⟨((Client.start s).run p H evs).storage.map, fun _ => none, x⟩, l, _⟩)
      ⟨rfl, hl, hI.agree⟩ ho hi (fun _ => rfl)).1
  · cases hf

/-- A history with a torn write, a reload and further pushes: two leaves acknowledged. -/
example : ((Client.start (failsAt 2 true)).run ⟨true, true, .w64⟩ Sha256.sha256
    [.push [1], .push [2], .reopen, .push [3], .crash, .reopen]).acked = [[1], [3]] := by
  decide +kernel

end FuelMerkle.Props
