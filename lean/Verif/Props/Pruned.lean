import Verif.Proofs.Pruned
import Verif.Proofs.Counts
import Verif.Props.Binary

/-
Property C111: a binary tree can be continued on a storage from which everything but the records of
its largest complete subtrees has been removed.
-/
namespace FuelMerkle.Props
open FuelMerkle.Binary FuelMerkle.Spec

variable {E : Type}

/-- **C111**. On a storage that has the records of the largest complete subtrees of the leaves `ds`,
whatever else it has or lacks: `load` succeeds, pushes succeed, the root is that of all leaves, every
leaf pushed since can be proved, with the proof that a complete storage gives; a proof of an older leaf
whose record was removed is refused with `LoadError` and the index of the leaf; and the storage again
has the records needed to remove everything else and go on. -/
theorem C111_pruned (p : Profile) (H : HashFn) (s : BStore E) (hs : s.Reliable) (ds es : List Bytes)
    (hn : (ds ++ es).length < p.leafLimit) (hp : HasPeaks H ds s.map) :
    ∃ t s1 u, Tree.load p s ds.length = (.ok t, s1) ∧ pushAll p H es t = (.ok (), u) ∧
      u.root p H = .ok (if ds ++ es = [] then emptySum else mth H (ds ++ es)) ∧
      (∀ i (hi : i < (ds ++ es).length), ds.length ≤ i → ∃ u',
        prove p H i u = (.ok (mth H (ds ++ es), H ([0x00] ++ (ds ++ es)[i]) :: auditPath H i (ds ++ es)), u')) ∧
      (∀ i, i < ds.length → s.map (2 * i) = none → ∃ u', prove p H i u = (.error (.err (.loadError i)), u')) ∧
      HasPeaks H (ds ++ es) u.storage.map := by
  have hlim := p.leafLimit_le
  have hl : (ds ++ es).length = ds.length + es.length := List.length_append
  obtain ⟨t, s1, h1, h2, h3⟩ | ⟨e, s1, ⟨x, f, _, hf, _⟩, _⟩ := load_hasPeaks p (H := H) (ds := ds) (s := s) (by omega) hp
  · obtain ⟨u, k1, k2, k3⟩ := pushAll_pinv p H es h2 (by omega) (fun c => by rw [h3]; exact hs c)
    refine ⟨t, s1, u, h1, k1, root_spec p H _ (by omega) u k2.peaks, fun i hi hle => ?_, fun i hi hm => ?_, k2.kept.hasPeaks k2.le (by omega)⟩
    · obtain ⟨u', _, h | ⟨e, he, _⟩⟩ := prove_needed p H (ds ++ es) u k2.count k2.peaks hn hi
        (fun h k hk hik => k2.kept h k hk (by omega))
      · exact ⟨u', h⟩
      · exact absurd k3 he.not_reliable
    · obtain ⟨u', h | ⟨e, he, _⟩⟩ := prove_missing p H (ds ++ es) u k2.count hn (i := i) (by omega) (by
        rw [k2.old 0 i (by simp; omega), show ioIndex 0 i = 2 * i by simp [ioIndex]]
        exact hm)
      · exact ⟨u', h⟩
      · exact absurd k3 he.not_reliable
  · rw [hs] at hf; cases hf

/-- **C111**. If storage calls may fail: `load` succeeds or returns the storage's error; as long as the
later pushes succeed, the root, the proofs and the records to keep are as above, except that a proof may
also fail with the storage's error. -/
theorem C111_failing (p : Profile) (H : HashFn) (s : BStore E) (ds es : List Bytes)
    (hn : (ds ++ es).length < p.leafLimit) (hp : HasPeaks H ds s.map) :
    (∃ e s1, Tree.load p s ds.length = (.error (.err (.storageError e)), s1) ∧ ∃ x f, s.sched x = some f ∧ f.err = e) ∨
    ∃ t s1, Tree.load p s ds.length = (.ok t, s1) ∧ ∀ u, pushAll p H es t = (.ok (), u) →
      u.root p H = .ok (if ds ++ es = [] then emptySum else mth H (ds ++ es)) ∧
      (∀ i (hi : i < (ds ++ es).length), ds.length ≤ i → ∃ u',
        prove p H i u = (.ok (mth H (ds ++ es), H ([0x00] ++ (ds ++ es)[i]) :: auditPath H i (ds ++ es)), u') ∨
        ∃ e, prove p H i u = (.error (.err (.storageError e)), u') ∧ ∃ x f, s.sched x = some f ∧ f.err = e) ∧
      (∀ i, i < ds.length → s.map (2 * i) = none → ∃ u', prove p H i u = (.error (.err (.loadError i)), u') ∨
        ∃ e, prove p H i u = (.error (.err (.storageError e)), u') ∧ ∃ x f, s.sched x = some f ∧ f.err = e) ∧
      HasPeaks H (ds ++ es) u.storage.map := by
  have hlim := p.leafLimit_le
  have hl : (ds ++ es).length = ds.length + es.length := List.length_append
  obtain ⟨t, s1, h1, h2, h3⟩ | ⟨e, s1, ⟨x, f, _, hf⟩, h1⟩ := load_hasPeaks p (H := H) (ds := ds) (s := s) (by omega) hp
  · refine .inr ⟨t, s1, h1, fun u hu => ?_⟩
    obtain ⟨k2, k3⟩ := pushAll_ok_pinv p H es h2 (by omega) hu
    have hsch : u.storage.sched = s.sched := k3.trans h3
    have hft : ∀ e, Faulted u e → ∃ x f, s.sched x = some f ∧ f.err = e := by
      rintro e ⟨x, f, _, h4, h5⟩
      exact ⟨x, f, by rw [← hsch]; exact h4, h5⟩
    refine ⟨root_spec p H _ (by omega) u k2.peaks, fun i hi hle => ?_, fun i hi hm => ?_, k2.kept.hasPeaks k2.le (by omega)⟩
    · obtain ⟨u', _, h | ⟨e, he, h⟩⟩ := prove_needed p H (ds ++ es) u k2.count k2.peaks hn hi
        (fun h k hk hik => k2.kept h k hk (by omega))
      · exact ⟨u', .inl h⟩
      · exact ⟨u', .inr ⟨e, h, hft e he⟩⟩
    · obtain ⟨u', h | ⟨e, he, h⟩⟩ := prove_missing p H (ds ++ es) u k2.count hn (i := i) (by omega) (by
        rw [k2.old 0 i (by simp; omega), show ioIndex 0 i = 2 * i by simp [ioIndex]]
        exact hm)
      · exact ⟨u', .inl h⟩
      · exact ⟨u', .inr ⟨e, h, hft e he⟩⟩
  · exact .inl ⟨e, s1, h1, x, f, hf⟩

/-- **C111**. The records to keep: after acknowledged pushes on any storage, also a failing one, they are
there; there are as many as ones among the binary digits of the number of leaves. -/
theorem C111_what_to_keep (p : Profile) (H : HashFn) (s : BStore E) (ds : List Bytes) (hn : ds.length ≤ 2 ^ 63) (t : Tree E)
    (ht : pushAll p H ds (Tree.new s) = (.ok (), t)) :
    HasPeaks H ds t.storage.map ∧ (peaks 64 0 ds.length).length = popcount ds.length := by
  obtain ⟨h1, _, _⟩ := pushAll_ok_inv p H ds (Inv.new H s) (by simpa using hn) ht
  rw [List.nil_append] at h1
  exact ⟨(h1.agree.kept 0).hasPeaks (Nat.zero_le _) (by omega), by rw [peaks_length, Nat.mod_eq_of_lt (by omega)]⟩

/-- Hypotheses met: seven leaves, the storage has the three records and nothing else. -/
example (H : HashFn) : ∃ (s : BStore Unit) (ds : List Bytes), s.Reliable ∧ ds.length = 7 ∧ HasPeaks H ds s.map ∧
    (∀ k, s.map k ≠ none ↔ k = 3 ∨ k = 9 ∨ k = 12) := by
  let ds : List Bytes := [[1], [2], [3], [4], [5], [6], [7]]
  refine ⟨⟨fun k => if k = 3 then some (3, mth H (stretch ds (0, 4))) else if k = 9 then some (9, mth H (stretch ds (4, 2))) else
    if k = 12 then some (12, mth H (stretch ds (6, 1))) else none, fun _ => none, 0⟩, ds, fun _ => rfl, rfl, ?_, ?_⟩
  · have hpk : peaks 64 0 ds.length = [(0, 4), (4, 2), (6, 1)] := by decide +kernel
    intro x hx
    rw [hpk] at hx
    simp only [List.mem_cons, List.not_mem_nil, or_false] at hx
    rcases hx with rfl | rfl | rfl <;> rfl
  · intro k
    simp only
    split
    · simp [*]
    · split
      · simp [*]
      · split <;> simp [*]

end FuelMerkle.Props
