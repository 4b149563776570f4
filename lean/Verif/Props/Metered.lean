import Verif.Proofs.Metered
import Verif.Props.Faults
import Verif.Props.SparseCounts
import Verif.Tests.ToyHash

/-
Property C104: what the calls hash. `Model/Metered.lean` has the calls with a record of the messages
hashed.
-/
namespace FuelMerkle
namespace Props
open Spec
variable {E : Type}

/-- **C104**. The binary tree with the record of messages does what the binary tree does. -/
theorem C104_binary_same (p : Profile) (H : HashFn) (t : Binary.Tree E) (l : List Bytes) :
    (∀ d, (Binary.Metered.push p H d ⟨t, l⟩).1 = (Binary.push p H d t).1 ∧
      (Binary.Metered.push p H d ⟨t, l⟩).2.inner = (Binary.push p H d t).2) ∧
    (∀ i, (Binary.Metered.prove p H i ⟨t, l⟩).1 = (Binary.prove p H i t).1 ∧
      (Binary.Metered.prove p H i ⟨t, l⟩).2.inner = (Binary.prove p H i t).2) ∧
    (∀ r, (Binary.Metered.root p H ⟨t, l⟩).1 = .ok r ↔ t.root p H = .ok r) ∧
    (∀ q, (Binary.Metered.root p H ⟨t, l⟩).1 = .error (.panic q) ↔ t.root p H = .error q) ∧
    (Binary.Metered.root p H ⟨t, l⟩).2.inner = t := by
  obtain ⟨h1, h2⟩ := Binary.Metered.root_erases p H ⟨t, l⟩
  refine ⟨fun d => Binary.Metered.push_erases p H d ⟨t, l⟩, fun i => Binary.Metered.prove_erases p H i ⟨t, l⟩, ?_, ?_, ?_⟩
  · intro r
    rw [h1]
    rcases hr : t.root p H with e | a <;> simp [Exec.liftRes, hr]
  · intro r
    rw [h1]
    rcases hr : t.root p H with e | a <;> simp [Exec.liftRes, hr]
  · rw [h2]
    rcases hr : t.root p H with e | a <;> simp [Exec.liftRes, hr]

/-- **C104**. The same of the sum tree. -/
theorem C104_sum_same (p : Profile) (H : HashFn) (t : Sum.Tree E) (l : List Bytes) :
    (∀ fee d, (Sum.Metered.push p H fee d ⟨t, l⟩).1 = (Sum.push p H fee d t).1 ∧
      (Sum.Metered.push p H fee d ⟨t, l⟩).2.inner = (Sum.push p H fee d t).2) ∧
    (Sum.Metered.root p H ⟨t, l⟩).1 = (Sum.root p H t).1 ∧ (Sum.Metered.root p H ⟨t, l⟩).2.inner = (Sum.root p H t).2 :=
  ⟨fun fee d => Sum.Metered.push_erases p H fee d ⟨t, l⟩, Sum.Metered.root_erases p H ⟨t, l⟩⟩

/-- **C104**. The same of the sparse tree. -/
theorem C104_sparse_same (p : Profile) (H : HashFn) (t : Sparse.Tree E) (l : List Bytes) :
    (∀ k d, (Sparse.Metered.update p H k d ⟨t, l⟩).1 = (Sparse.update p H k d t).1 ∧
      (Sparse.Metered.update p H k d ⟨t, l⟩).2.inner = (Sparse.update p H k d t).2) ∧
    (∀ k, (Sparse.Metered.delete p H k ⟨t, l⟩).1 = (Sparse.delete p H k t).1 ∧
      (Sparse.Metered.delete p H k ⟨t, l⟩).2.inner = (Sparse.delete p H k t).2) ∧
    (Sparse.Metered.root H ⟨t, l⟩).1 = .ok (t.root H) ∧ (Sparse.Metered.root H ⟨t, l⟩).2.inner = t :=
  ⟨fun k d => Sparse.Metered.update_erases p H k d ⟨t, l⟩, fun k => Sparse.Metered.delete_erases p H k ⟨t, l⟩,
    Sparse.Metered.root_erases H ⟨t, l⟩⟩

theorem paid_messages {σ ε α : Type} {calls : σ → Nat} {x : Exec (Metered σ) (Fail ε) α} {y : Exec σ (Fail ε) α} (h : Paid calls 0 0 x)
    (he : Erases x y) (t : σ) (hr : Returns y t) : (messages x t).length + calls t = calls (y t).2 := by
  obtain ⟨l, h1, h2, h3⟩ := h ⟨t, []⟩
  obtain ⟨e1, e2⟩ := he ⟨t, []⟩
  unfold messages
  rw [h1, ← e2]
  rcases hy : (y t).1 with e | a
  · cases e with
    | panic q => exact absurd hy (hr q)
    | err e => simpa using h3 e (by rw [e1]; exact hy)
  · simpa using h2 a (by rw [e1]; exact hy)

/-- **C104**. A push of any binary or sum tree, and `root` of any sum tree, on any storage, also if it
fails: unless it panics, it hashes exactly one message for every write it makes. -/
theorem C104_one_per_write (p : Profile) (H : HashFn) :
    (∀ (t : Binary.Tree E) (d : Bytes), Returns (Binary.push p H d) t →
      (messages (Binary.Metered.push p H d) t).length + t.storage.clock = (Binary.push p H d t).2.storage.clock) ∧
    (∀ (t : Sum.Tree E) (fee : Nat) (d : Bytes), Returns (Sum.push p H fee d) t →
      (messages (Sum.Metered.push p H fee d) t).length + t.storage.clock = (Sum.push p H fee d t).2.storage.clock) ∧
    (∀ t : Sum.Tree E, Returns (Sum.root p H) t →
      (messages (Sum.Metered.root p H) t).length + t.storage.clock = (Sum.root p H t).2.storage.clock) :=
  ⟨fun t d hr => paid_messages (Binary.Metered.push_paid p H d) (Binary.Metered.push_erases p H d) t hr,
    fun t fee d hr => paid_messages (Sum.Metered.push_paid p H fee d) (Sum.Metered.push_erases p H fee d) t hr,
    fun t hr => paid_messages (Sum.Metered.root_paid p H) (Sum.Metered.root_erases p H) t hr⟩

theorem returns_of_ok {σ ε α : Type} {x : Exec σ (Fail ε) α} {t t' : σ} {a : α} (h : x t = (.ok a, t')) : Returns x t := fun p hp => by
  rw [h] at hp
  cases hp

/-- **C104**. A binary tree of `n` leaves. The push of leaf number `n + 1` hashes `c + 1` messages,
where `2^c` is the highest power of two that divides `n + 1`; `root`, and every proof, hash one
message less than `n` has ones in binary. -/
theorem C104_binary_cost (p : Profile) (H : HashFn) (s : Binary.BStore E) (ds : List Bytes) (hn : ds.length < 2 ^ 63) (t : Binary.Tree E)
    (ht : Binary.pushAll p H ds (Binary.Tree.new s) = (.ok (), t)) :
    (∀ d t', Binary.push p H d t = (.ok (), t') →
      ∃ c, 2 ^ c ∣ ds.length + 1 ∧ ¬ 2 ^ (c + 1) ∣ ds.length + 1 ∧ (messages (Binary.Metered.push p H d) t).length = c + 1) ∧
    (∀ r, t.root p H = .ok r → (messages (Binary.Metered.root p H) t).length = popcount ds.length - 1) ∧
    (∀ i r t', Binary.prove p H i t = (.ok r, t') → (messages (Binary.Metered.prove p H i) t).length = popcount ds.length - 1) := by
  obtain ⟨h1, _⟩ := Binary.pushAll_ok_inv p H ds (Binary.Inv.new H s) (by simp; omega) ht
  rw [List.nil_append] at h1
  have hl := h1.peaks.length
  refine ⟨fun d t' h => ?_, fun r h => ?_, fun i r t' h => ?_⟩
  · obtain ⟨c, c1, c2, c3⟩ := C65_push_writes p H s ds d hn t t' ht h
    have := (C104_one_per_write p H).1 t d (returns_of_ok h)
    rw [h] at this
    exact ⟨c, c1, c2, by simp only at this; omega⟩
  · obtain ⟨l, e1, -, e3⟩ := Binary.Metered.root_hashed p H ⟨t, []⟩
    unfold messages
    rw [e1, List.nil_append, e3 r (((C104_binary_same p H t []).2.2.1 r).2 h), hl]
  · obtain ⟨l, e1, -, e3⟩ := Binary.Metered.prove_hashed p H i ⟨t, []⟩
    unfold messages
    rw [e1, List.nil_append, e3 r (by rw [((C104_binary_same p H t []).2.1 i).1, h]), hl]

theorem paid_pushAll (p : Profile) (H : HashFn) : ∀ ds : List Bytes,
    Paid (fun t : Binary.Tree E => t.storage.clock) 0 0 (Binary.Metered.pushAll p H ds : Binary.Metered.TreeM E Unit) := by
  intro ds
  induction ds with
  | nil => exact .pure 0 _
  | cons d ds ih => exact .bind (m := 0) (Binary.Metered.push_paid p H d) fun _ => ih

theorem erases_pushAll (p : Profile) (H : HashFn) : ∀ ds : List Bytes,
    Erases (Binary.Metered.pushAll p H ds : Binary.Metered.TreeM E Unit) (Binary.pushAll p H ds) := by
  intro ds
  induction ds with
  | nil => exact .pure _
  | cons d ds ih => exact .bind (Binary.Metered.push_erases p H d) fun _ => ih

/-- **C104**. Building a binary tree of `n` leaves hashes `2 n` messages less the number of ones of
`n` in binary: every complete subtree once. -/
theorem C104_binary_total (p : Profile) (H : HashFn) (s : Binary.BStore E) (ds : List Bytes) (hn : ds.length ≤ 2 ^ 63) (t : Binary.Tree E)
    (ht : Binary.pushAll p H ds (Binary.Tree.new s) = (.ok (), t)) :
    (messages (Binary.Metered.pushAll p H ds) (Binary.Tree.new s)).length = 2 * ds.length - popcount ds.length := by
  have h := paid_messages (paid_pushAll p H ds) (erases_pushAll p H ds) (Binary.Tree.new s) (returns_of_ok ht)
  have hc := Binary.pushAll_clock p H ds (Binary.Inv.new H s) (by simpa using hn) ht
  rw [ht] at h
  have h0 : popcount 0 = 0 := by rw [popcount]; rfl
  simp only [List.length_nil, Nat.zero_add, h0] at hc h
  omega

/-- **C104**. The sum tree of `n` leaves: the push of leaf number `n + 1` hashes `c + 1` messages,
`2^c` the highest power of two that divides `n + 1`; every `root` hashes one message less than `n` has
ones in binary. -/
theorem C104_sum_cost (p : Profile) (H : HashFn) (s : Sum.SStore E) (ds : List Item) (hn : ds.length + 1 < 2 ^ 64)
    (hf : ∀ y ∈ ds, y.1 < 2 ^ 64) (t : Sum.Tree E) (ht : Sum.pushAll p H ds (Sum.Tree.new s) = (.ok (), t)) :
    (∀ fee d t', fee < 2 ^ 64 → Sum.push p H fee d t = (.ok (), t') →
      ∃ c, 2 ^ c ∣ ds.length + 1 ∧ ¬ 2 ^ (c + 1) ∣ ds.length + 1 ∧ (messages (Sum.Metered.push p H fee d) t).length = c + 1) ∧
    (∀ r t', Sum.root p H t = (.ok r, t') → (messages (Sum.Metered.root p H) t).length = popcount ds.length - 1) := by
  refine ⟨fun fee d t' hfee h => ?_, fun r t' h => ?_⟩
  · obtain ⟨c, c1, c2, c3⟩ := C65_sum_push_writes p H s ds (fee, d) hn
      (fun y hy => (List.mem_append.1 hy).elim (hf y) fun hy => by cases List.mem_singleton.1 hy; exact hfee) t t' ht h
    have := (C104_one_per_write p H).2.1 t fee d (returns_of_ok h)
    rw [h] at this
    exact ⟨c, c1, c2, by simp only at this; omega⟩
  · have h1 := C65_sum_root_writes p H s ds (by omega) hf t t' r ht h
    have := (C104_one_per_write p H).2.2 t (returns_of_ok h)
    rw [h] at this
    simp only at this
    omega

theorem within_messages {σ ε α : Type} {calls : σ → Nat} {o : Nat} {x : Exec (Metered σ) (Fail ε) α} {y : Exec σ (Fail ε) α}
    (h : Within calls 0 o x) (he : Erases x y) (t : σ) : (messages x t).length + 3 * calls t ≤ 3 * calls (y t).2 + o := by
  obtain ⟨l, h1, h2, h3⟩ := h ⟨t, []⟩
  obtain ⟨e1, e2⟩ := he ⟨t, []⟩
  unfold messages
  rw [h1, ← e2]
  rcases hy : (x ⟨t, []⟩).1 with e | a
  · have := h3 e hy
    simp only [List.nil_append] at this ⊢
    omega
  · have := h2 a hy
    simp only [List.nil_append] at this ⊢
    omega

theorem few_messages {σ ε α : Type} {n : Nat} {x : Exec (Metered σ) ε α} (h : Few n x) (t : σ) : (messages x t).length ≤ n := by
  obtain ⟨l, h1, h2⟩ := h ⟨t, []⟩
  unfold messages
  rw [h1]
  exact h2

/-- **C104**. Any sparse tree on any storage, whatever it holds and whichever calls fail: an update
with data hashes at most three messages for each of its storage calls, and at most 773 in all; a delete
at most three for each of its storage calls and one for the root, and at most 1026 in all; `root` hashes
at most one. -/
theorem C104_sparse_cost (p : Profile) (H : HashFn) (t : Sparse.Tree E) :
    (∀ k d, d ≠ [] →
      (messages (Sparse.Metered.update p H k d) t).length + 3 * t.storage.clock ≤ 3 * (Sparse.update p H k d t).2.storage.clock ∧
      (messages (Sparse.Metered.update p H k d) t).length ≤ 773) ∧
    (∀ k, (messages (Sparse.Metered.delete p H k) t).length + 3 * t.storage.clock ≤ 3 * (Sparse.delete p H k t).2.storage.clock + 1 ∧
      (messages (Sparse.Metered.delete p H k) t).length ≤ 1026) ∧
    (messages (Sparse.Metered.root H) t).length ≤ 1 :=
  ⟨fun k d hd => ⟨within_messages (Sparse.Metered.update_within p H k d hd) (Sparse.Metered.update_erases p H k d) t,
      few_messages (Sparse.Metered.update_few p H k d hd) t⟩,
    fun k => ⟨within_messages (Sparse.Metered.delete_within p H k) (Sparse.Metered.delete_erases p H k) t,
      few_messages (Sparse.Metered.delete_few p H k) t⟩,
    few_messages (Sparse.Metered.quiet_few _ fun _ => Sparse.Metered.hash_few H _) t⟩

theorem needs_messages {σ ε α : Type} {P : Bytes → Prop} {H H' : HashFn} {x x' : Exec (Metered σ) ε α} {y y' : Exec σ ε α}
    (h : Needs P H H' x x') (he : Erases x y) (he' : Erases x' y') (t : σ) :
    (∀ m ∈ messages x t, P m) ∧ ((∀ m ∈ messages x t, H m = H' m) → y t = y' t) := by
  obtain ⟨l, h1, h2, h3⟩ := h ⟨t, []⟩
  obtain ⟨e1, e2⟩ := he ⟨t, []⟩
  obtain ⟨f1, f2⟩ := he' ⟨t, []⟩
  unfold messages
  rw [h1, List.nil_append]
  refine ⟨h2, fun hm => ?_⟩
  have := h3 hm
  exact Prod.ext (by rw [← e1, ← f1, this]) (by rw [← e2, ← f2, this])

/-- **C104**. Every message hashed is one of these: for a push the leaf's data after the byte 0, or the
byte 1 and two digests (with the fees in a sum tree); `root` and proofs only messages of inner nodes; in
a sparse tree the data as it is, once, and otherwise the byte 0 or 1 and 64 bytes. -/
theorem C104_kinds (p : Profile) (H : HashFn) (b : Binary.Tree E) (u : Sum.Tree E) (s : Sparse.Tree E) :
    (∀ d, ∀ m ∈ messages (Binary.Metered.push p H d) b, m = 0 :: d ∨ Pair 1 m) ∧
    (∀ m ∈ messages (Binary.Metered.root p H) b, Pair 1 m) ∧
    (∀ i, ∀ m ∈ messages (Binary.Metered.prove p H i) b, Pair 1 m) ∧
    (∀ fee d, ∀ m ∈ messages (Sum.Metered.push p H fee d) u, m = 0 :: (u64ToBeBytes fee ++ d) ∨ FeePair m) ∧
    (∀ m ∈ messages (Sum.Metered.root p H) u, FeePair m) ∧
    (∀ k d, ∀ m ∈ messages (Sparse.Metered.update p H k d) s, m = d ∨ Pair 0 m ∨ Pair 1 m) ∧
    (∀ k, ∀ m ∈ messages (Sparse.Metered.delete p H k) s, Pair 0 m ∨ Pair 1 m) ∧
    (∀ m ∈ messages (Sparse.Metered.root H) s, Pair 0 m ∨ Pair 1 m) :=
  ⟨fun d => (needs_messages (Binary.Metered.push_needs p H H d) (Binary.Metered.push_erases p H d) (Binary.Metered.push_erases p H d) b).1,
    (needs_messages (Binary.Metered.root_needs p H H) (Binary.Metered.root_erases p H) (Binary.Metered.root_erases p H) b).1,
    fun i => (needs_messages (Binary.Metered.prove_needs p H H i) (Binary.Metered.prove_erases p H i) (Binary.Metered.prove_erases p H i) b).1,
    fun fee d => (needs_messages (Sum.Metered.push_needs p H H fee d) (Sum.Metered.push_erases p H fee d) (Sum.Metered.push_erases p H fee d) u).1,
    (needs_messages (Sum.Metered.root_needs p H H) (Sum.Metered.root_erases p H) (Sum.Metered.root_erases p H) u).1,
    fun k d => (needs_messages (Sparse.Metered.update_needs p H H k d) (Sparse.Metered.update_erases p H k d) (Sparse.Metered.update_erases p H k d) s).1,
    fun k => (needs_messages (Sparse.Metered.delete_needs p H H k) (Sparse.Metered.delete_erases p H k) (Sparse.Metered.delete_erases p H k) s).1,
    (needs_messages (Sparse.Metered.root_needs H H) (Sparse.Metered.root_erases H) (Sparse.Metered.root_erases H) s).1⟩

/-- **C104**. The record is complete: a call does the same with every other hash function that agrees
on the messages of the record, on any tree and any storage. -/
theorem C104_nothing_else (p : Profile) (H H' : HashFn) (b : Binary.Tree E) (u : Sum.Tree E) (s : Sparse.Tree E) :
    (∀ d, (∀ m ∈ messages (Binary.Metered.push p H d) b, H m = H' m) → Binary.push p H d b = Binary.push p H' d b) ∧
    ((∀ m ∈ messages (Binary.Metered.root p H) b, H m = H' m) → b.root p H = b.root p H') ∧
    (∀ i, (∀ m ∈ messages (Binary.Metered.prove p H i) b, H m = H' m) → Binary.prove p H i b = Binary.prove p H' i b) ∧
    (∀ fee d, (∀ m ∈ messages (Sum.Metered.push p H fee d) u, H m = H' m) → Sum.push p H fee d u = Sum.push p H' fee d u) ∧
    ((∀ m ∈ messages (Sum.Metered.root p H) u, H m = H' m) → Sum.root p H u = Sum.root p H' u) ∧
    (∀ k d, (∀ m ∈ messages (Sparse.Metered.update p H k d) s, H m = H' m) → Sparse.update p H k d s = Sparse.update p H' k d s) ∧
    (∀ k, (∀ m ∈ messages (Sparse.Metered.delete p H k) s, H m = H' m) → Sparse.delete p H k s = Sparse.delete p H' k s) ∧
    ((∀ m ∈ messages (Sparse.Metered.root H) s, H m = H' m) → s.root H = s.root H') := by
  refine ⟨fun d => (needs_messages (Binary.Metered.push_needs p H H' d) (Binary.Metered.push_erases p H d) (Binary.Metered.push_erases p H' d) b).2,
    fun h => ?_,
    fun i => (needs_messages (Binary.Metered.prove_needs p H H' i) (Binary.Metered.prove_erases p H i) (Binary.Metered.prove_erases p H' i) b).2,
    fun fee d => (needs_messages (Sum.Metered.push_needs p H H' fee d) (Sum.Metered.push_erases p H fee d) (Sum.Metered.push_erases p H' fee d) u).2,
    (needs_messages (Sum.Metered.root_needs p H H') (Sum.Metered.root_erases p H) (Sum.Metered.root_erases p H') u).2,
    fun k d => (needs_messages (Sparse.Metered.update_needs p H H' k d) (Sparse.Metered.update_erases p H k d) (Sparse.Metered.update_erases p H' k d) s).2,
    fun k => (needs_messages (Sparse.Metered.delete_needs p H H' k) (Sparse.Metered.delete_erases p H k) (Sparse.Metered.delete_erases p H' k) s).2,
    fun h => ?_⟩
  · have := (needs_messages (Binary.Metered.root_needs p H H') (Binary.Metered.root_erases p H) (Binary.Metered.root_erases p H') b).2 h
    revert this
    cases b.root p H <;> cases b.root p H' <;> simp [Exec.liftRes]
  · have := (needs_messages (Sparse.Metered.root_needs H H') (Sparse.Metered.root_erases H) (Sparse.Metered.root_erases H') s).2 h
    simpa using this

/-- **C104**. The verifier, on every input: the record changes nothing; it is complete; an accepted
proof costs one message for each element of the proof set but the first, a refused one no more; only
messages of inner nodes are hashed. -/
theorem C104_verify (p : Profile) (H : HashFn) (root : Bytes32) (proofSet : List Bytes32) (i n : Nat) :
    ((∀ r, (Verify.Metered.verify p H root proofSet i n ⟨(), []⟩).1 = .ok r ↔ Verify.verify p H root proofSet i n = .ok r) ∧
      ∀ q, (Verify.Metered.verify p H root proofSet i n ⟨(), []⟩).1 = .error (.panic q) ↔ Verify.verify p H root proofSet i n = .error q) ∧
    (∀ H' : HashFn, (∀ m ∈ messages (Verify.Metered.verify p H root proofSet i n) (), H m = H' m) →
      Verify.verify p H root proofSet i n = Verify.verify p H' root proofSet i n) ∧
    (messages (Verify.Metered.verify p H root proofSet i n) ()).length ≤ proofSet.length - 1 ∧
    (Verify.verify p H root proofSet i n = .ok true →
      (messages (Verify.Metered.verify p H root proofSet i n) ()).length + 1 = proofSet.length) ∧
    ∀ m ∈ messages (Verify.Metered.verify p H root proofSet i n) (), Pair 1 m := by
  have he := fun H : HashFn => Verify.Metered.verify_erases p H root proofSet i n
  have h1 : ∀ r, (Verify.Metered.verify p H root proofSet i n ⟨(), []⟩).1 = .ok r ↔ Verify.verify p H root proofSet i n = .ok r := fun r => by
    rw [(he H ⟨(), []⟩).1]
    cases Verify.verify p H root proofSet i n <;> simp [Exec.liftRes]
  have hn := fun H' : HashFn => needs_messages (Verify.Metered.verify_needs p H H' root proofSet i n) (he H) (he H') ()
  have hu : (messages (Verify.Metered.verify p H root proofSet i n) ()).length ≤ proofSet.length - 1 ∧
      (Verify.verify p H root proofSet i n = .ok true →
        (messages (Verify.Metered.verify p H root proofSet i n) ()).length + 1 = proofSet.length) := by
    cases proofSet with
    | nil =>
      have : Verify.Metered.verify p H root [] i n = pure false := by
        unfold Verify.Metered.verify
        split <;> rfl
      have h2 : Verify.verify p H root [] i n = .ok false := by
        unfold Verify.verify
        split <;> rfl
      rw [this, h2]
      exact ⟨Nat.le_refl _, fun h => by cases h⟩
    | cons first others =>
      obtain ⟨l, e1, e2, e3⟩ := Verify.Metered.verify_uses p H root first others i n ⟨(), []⟩
      unfold messages
      rw [e1, List.nil_append]
      refine ⟨by simp only [List.length_cons]; omega, fun h => ?_⟩
      have := e3 true ((h1 true).2 h) rfl
      simp only [List.length_cons]
      omega
  refine ⟨⟨h1, fun q => ?_⟩, fun H' h => ?_, hu.1, hu.2, (hn H).1⟩
  · rw [(he H ⟨(), []⟩).1]
    cases Verify.verify p H root proofSet i n <;> simp [Exec.liftRes]
  · have := (hn H').2 h
    revert this
    cases Verify.verify p H root proofSet i n <;> cases Verify.verify p H' root proofSet i n <;> simp [Exec.liftRes]

/-! ### Concrete cases -/

namespace Metered

-- three leaves, then a fourth
example : (messages (Binary.Metered.pushAll ⟨true, true, .w64⟩ Tests.toyHash [[1], [2], [3]]) (Binary.Tree.new (brokenAt 100))).length = 4 ∧
    (Binary.pushAll ⟨true, true, .w64⟩ Tests.toyHash [[1], [2], [3]] (Binary.Tree.new (brokenAt 100))).1 = .ok () ∧
    (messages (Binary.Metered.push ⟨true, true, .w64⟩ Tests.toyHash [4])
      (Binary.pushAll ⟨true, true, .w64⟩ Tests.toyHash [[1], [2], [3]] (Binary.Tree.new (brokenAt 100))).2).length = 3 ∧
    (messages (Binary.Metered.root ⟨true, true, .w64⟩ Tests.toyHash)
      (Binary.pushAll ⟨true, true, .w64⟩ Tests.toyHash [[1], [2], [3]] (Binary.Tree.new (brokenAt 100))).2).length = 1 ∧
    (messages (Binary.Metered.prove ⟨true, true, .w64⟩ Tests.toyHash 2)
      (Binary.pushAll ⟨true, true, .w64⟩ Tests.toyHash [[1], [2], [3]] (Binary.Tree.new (brokenAt 100))).2).length = 1 := by
  decide +kernel

-- the fourth push makes three storage calls, the second of which fails: two messages
example : (messages (Binary.Metered.push ⟨true, true, .w64⟩ Tests.toyHash [4])
      (Binary.pushAll ⟨true, true, .w64⟩ Tests.toyHash [[1], [2], [3]] (Binary.Tree.new (brokenAt 5))).2).length = 2 ∧
    (Binary.push ⟨true, true, .w64⟩ Tests.toyHash [4]
      (Binary.pushAll ⟨true, true, .w64⟩ Tests.toyHash [[1], [2], [3]] (Binary.Tree.new (brokenAt 5))).2).1 =
      .error (.err (.storageError "down")) := by
  decide +kernel

-- checking a proof of two elements hashes one message, one of a wrong length none
example : (messages (Verify.Metered.verify ⟨true, true, .w64⟩ Tests.toyHash Sparse.zeroSum [Sparse.zeroSum, Sparse.zeroSum] 2 3) ()).length = 1 ∧
    (messages (Verify.Metered.verify ⟨true, true, .w64⟩ Tests.toyHash Sparse.zeroSum [Sparse.zeroSum] 0 2) ()).length = 0 := by
  decide +kernel

/-- A sparse tree after some updates. -/
def grown (ops : List (UInt8 × Bytes)) : Sparse.Tree String :=
  ops.foldl (fun t o => (Sparse.update ⟨true, true, .w64⟩ Tests.toyHash (bitKey o.1) o.2 t).2) (Sparse.Tree.new (brokenAt 100))

-- the lengths of the messages of the first update, of a third one, and of a removal
example : (messages (Sparse.Metered.update ⟨true, true, .w64⟩ Tests.toyHash (bitKey 0x00) [1, 2, 3]) (grown [])).map List.length = [3, 65] ∧
    (messages (Sparse.Metered.update ⟨true, true, .w64⟩ Tests.toyHash (bitKey 0x40) [3]) (grown [(0x00, [1]), (0x80, [2])])).map List.length =
      [1, 65, 65, 65, 65, 65, 65, 65] ∧
    (messages (Sparse.Metered.delete ⟨true, true, .w64⟩ Tests.toyHash (bitKey 0x80)) (grown [(0x00, [1]), (0x80, [2])])).map List.length =
      [65, 65, 65] := by
  decide +kernel

-- a sum tree: the leaf, then the leaf and a node
example : (messages (Sum.Metered.push ⟨true, true, .w64⟩ Tests.toyHash 7 [3]) (Sum.Tree.new (brokenAt 100))).map List.length = [10] ∧
    (messages (Sum.Metered.push ⟨true, true, .w64⟩ Tests.toyHash 7 [3])
      (Sum.push ⟨true, true, .w64⟩ Tests.toyHash 7 [3] (Sum.Tree.new (brokenAt 100))).2).map List.length = [10, 81] := by
  decide +kernel

end Metered
end Props
end FuelMerkle
