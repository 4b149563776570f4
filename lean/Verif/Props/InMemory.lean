import Verif.Spec.InMemoryApi
import Verif.Props.Binary
import Verif.Props.SparseRoot

/-
Property C53: the in-memory trees.
-/
namespace FuelMerkle
namespace Props
open Spec

theorem empty_reliable {K V : Type} (s : Store K V Empty) : s.Reliable := by
  intro n
  cases h : s.sched n with
  | none => rfl
  | some f => exact f.err.elim

theorem discard_ok {σ ε α : Type} (a : α) (s : σ) : discard ((.ok a, s) : Except (Fail ε) α × σ) = .ok s := rfl

theorem inMemory_pushAll (p : Profile) (H : HashFn) : ∀ (ds : List Bytes) (t t' : Binary.Tree Empty),
    Binary.pushAll p H ds t = (.ok (), t') → Binary.InMemory.pushAll p H t ds = .ok t' := by
  intro ds
  induction ds with
  | nil => intro t t' h; cases h; rfl
  | cons d ds ih =>
    intro t t' h
    rw [Binary.pushAll, Exec.bind_apply] at h
    rw [Binary.InMemory.pushAll, Binary.InMemory.push]
    rcases hp : Binary.push p H d t with ⟨r, t1⟩
    rw [hp] at h
    cases r with
    | error e => cases h
    | ok a => exact ih t1 t' h

theorem inMemory_runAll (p : Profile) (H : HashFn) : ∀ (ops : List Sparse.Op) (t t' : Sparse.Tree Empty),
    Sparse.runAll p H ops t = (.ok (), t') → Sparse.InMemory.runAll p H t ops = .ok t' := by
  intro ops
  induction ops with
  | nil => intro t t' h; cases h; rfl
  | cons op ops ih =>
    intro t t' h
    rw [Sparse.runAll, Exec.bind_apply] at h
    have hop : Sparse.InMemory.op p H t op = discard (op.run p H t) := by cases op <;> rfl
    rw [Sparse.InMemory.runAll, hop]
    rcases hp : op.run p H t with ⟨r, t1⟩
    rw [hp] at h
    cases r with
    | error e => cases h
    | ok a => exact ih t1 t' h

/-- **C53**, binary. Pushing any list of at most `2^63` leaves: the pushes of the generic tree, whose
results the wrapper discards, all return `Ok`, the wrapper is in the same state, and its root is the
RFC 6962 root (the constant `empty_sum` for no leaves). -/
theorem C53_binary_in_memory (p : Profile) (H : HashFn) (ds : List Bytes) (hn : ds.length ≤ 2 ^ 63) :
    ∃ t, Binary.pushAll p H ds (Binary.Tree.new Store.empty) = (.ok (), t) ∧
      Binary.InMemory.pushAll p H Binary.InMemory.new ds = .ok t ∧
      Binary.InMemory.root p H t = .ok (if ds = [] then Binary.emptySum else mth H ds) := by
  by_cases h0 : ds = []
  · subst h0
    exact ⟨_, rfl, rfl, (C02_binary_empty_root p H Store.empty).1⟩
  · obtain ⟨t, h1, h2⟩ := C01_binary_root p H (Store.empty : Binary.BStore Empty) (fun _ => rfl) ds hn h0
    exact ⟨t, h1, inMemory_pushAll p H ds _ _ h1, by rw [if_neg h0]; exact h2⟩

/-- **C53**, binary proofs. `prove(i)` of the wrapper is `Some` with the root and the audit path for
every `i < n`, and `None` for every other index below `u64::MAX` (where it panics with overflow
checks, see `C04_max_index_panics`). -/
theorem C53_binary_in_memory_prove (p : Profile) (H : HashFn) (ds : List Bytes) (hn : ds.length < p.leafLimit) :
    ∃ t, Binary.InMemory.pushAll p H Binary.InMemory.new ds = .ok t ∧
      (∀ i (hi : i < ds.length), Binary.InMemory.prove p H t i = .ok (some (mth H ds, H ([0x00] ++ ds[i]) :: auditPath H i ds))) ∧
      (∀ i, ds.length ≤ i → i < 2 ^ 64 - 1 → Binary.InMemory.prove p H t i = .ok none) := by
  have hlim := p.leafLimit_le
  obtain ⟨t, h1, h2, _⟩ := C53_binary_in_memory p H ds (by omega)
  refine ⟨t, h2, fun i hi => ?_, fun i hle hi => ?_⟩
  · obtain ⟨t1, t', e1, _, e3⟩ := C03_binary_proof p H (Store.empty : Binary.BStore Empty) (fun _ => rfl) ds hn i hi
    rw [h1] at e1
    obtain rfl : t = t1 := by injection e1
    unfold Binary.InMemory.prove
    rw [e3]
  · have hc : t.leavesCount = ds.length := by
      obtain ⟨t1, e1, e2, _⟩ := Binary.pushAll_inv p H ds (Binary.Inv.new H (Store.empty : Binary.BStore Empty)) (by simp; omega) (fun _ => rfl)
      rw [h1] at e1
      obtain rfl : t = t1 := by injection e1
      simpa using e2.count
    unfold Binary.InMemory.prove
    rw [C04_index_rejected p H t i hi (by omega)]

/-- **C53**, sparse. After any history the wrapper is in the state of the generic tree, whose calls,
discarded by the wrapper, all return `Ok`. -/
theorem C53_sparse_in_memory (p : Profile) (H : HashFn) (ops : List Sparse.Op) (hi : Sparse.IdealFor H ops) :
    ∃ t, Sparse.runAll p H ops (Sparse.Tree.new Store.empty) = (.ok (), t) ∧
      Sparse.InMemory.runAll p H Sparse.InMemory.new ops = .ok t ∧
      Sparse.InMemory.root H t = Sparse.rootOf H (Sparse.stateOf ops).kv := by
  obtain ⟨t, h1, h2⟩ := C28_root_of_history p H ops hi (Store.empty : Sparse.SpStore Empty) (fun _ => rfl) (fun _ => rfl)
  exact ⟨t, h1, inMemory_runAll p H ops _ _ h1, h2⟩

/-- **C53**. The wrappers pass on the results of the generic trees: `push`, `update`, `delete` drop an
`Ok` or `Err` and keep the state; `prove` turns an `Err` into `None`; from every state. -/
theorem C53_pass_through (p : Profile) (H : HashFn) (b : Binary.InMemory.T) (s : Sparse.InMemory.T) (d : Bytes) (k : Bytes32) (i : Nat) :
    (∀ r b', Binary.push p H d b = (r, b') → (∀ q, r ≠ .error (.panic q)) → Binary.InMemory.push p H b d = .ok b') ∧
    (∀ r s', Sparse.update p H k d s = (r, s') → (∀ q, r ≠ .error (.panic q)) → Sparse.InMemory.update p H s k d = .ok s') ∧
    (∀ r s', Sparse.delete p H k s = (r, s') → (∀ q, r ≠ .error (.panic q)) → Sparse.InMemory.delete p H s k = .ok s') ∧
    (∀ x b', Binary.prove p H i b = (.ok x, b') → Binary.InMemory.prove p H b i = .ok (some x)) ∧
    (∀ e b', Binary.prove p H i b = (.error (.err e), b') → Binary.InMemory.prove p H b i = .ok none) := by
  refine ⟨?_, ?_, ?_, ?_, ?_⟩
  · intro r b' h hq
    unfold Binary.InMemory.push discard
    rw [h]
    rcases r with (_ | q) | _
    · rfl
    · exact absurd rfl (hq q)
    · rfl
  · intro r b' h hq
    unfold Sparse.InMemory.update discard
    rw [h]
    rcases r with (_ | q) | _
    · rfl
    · exact absurd rfl (hq q)
    · rfl
  · intro r b' h hq
    unfold Sparse.InMemory.delete discard
    rw [h]
    rcases r with (_ | q) | _
    · rfl
    · exact absurd rfl (hq q)
    · rfl
  · intro x b' h; unfold Binary.InMemory.prove; rw [h]
  · intro x b' h; unfold Binary.InMemory.prove; rw [h]

example (p : Profile) : Sparse.IdealFor Sha256.sha256 cleanOps ∧ sampleLeaves.length < p.leafLimit :=
  ⟨cleanOps_ideal, p.lt_leafLimit (by decide)⟩

end Props
end FuelMerkle
