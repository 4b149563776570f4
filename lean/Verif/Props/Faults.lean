import Verif.Spec.Faults
import Verif.Proofs.Faults
import Verif.Proofs.Counts
import Verif.Props.Sum
import Verif.Tests.ToyHash

/-
Properties C64 and C65: failures of the storage and numbers of storage calls, for the binary and the
sum tree.
-/
namespace FuelMerkle
namespace Props
open Spec
variable {E : Type}

/-! ### C64 -/

/-- **C64**. One call on any binary tree with any storage. Either all storage calls it makes succeed,
and the result and the tree afterwards are those on storage that never fails; or its last storage
call, and only this, fails, and the call returns `StorageError` with the error of the storage. -/
theorem C64_binary_call (p : Profile) (H : HashFn) (op : Binary.Op) (t t' : Binary.Tree E) (o : Binary.Out E)
    (h : Binary.step p H op t = (o, t')) :
    (Calm t.storage.sched t.storage.clock t'.storage.clock ∧ Binary.step p H op t.healed = (o, t'.healed)) ∨
    ∃ e, LastFails t.storage.sched t.storage.clock t'.storage.clock e ∧ o.failure = some (.err (.storageError e)) ∧
      t'.storage.clock ≤ (Binary.step p H op t.healed).2.storage.clock := by
  cases op with
  | push d =>
    have := (Binary.push_failFast (E := E) p H d).out t
    simp only [Binary.step] at h ⊢
    rcases hp : Binary.push p H d t with ⟨r, t1⟩
    rw [hp] at this h
    cases h
    rcases this with ⟨h1, h2⟩ | ⟨e, h1, h2, h3⟩
    · refine .inl ⟨h1, ?_⟩
      rw [show t.healed = (Binary.world E).heal t from rfl, h2]; rfl
    · refine .inr ⟨e, h1, ?_, h3⟩
      simp only at h2; rw [h2]; rfl
  | root =>
    cases h
    exact .inl ⟨Calm.nil, rfl⟩
  | prove i =>
    have := (Binary.prove_failFast (E := E) p H i).out t
    simp only [Binary.step] at h ⊢
    rcases hp : Binary.prove p H i t with ⟨r, t1⟩
    rw [hp] at this h
    cases h
    rcases this with ⟨h1, h2⟩ | ⟨e, h1, h2, h3⟩
    · refine .inl ⟨h1, ?_⟩
      rw [show t.healed = (Binary.world E).heal t from rfl, h2]; rfl
    · refine .inr ⟨e, h1, ?_, h3⟩
      simp only at h2; rw [h2]; rfl

/-- **C64**. Loading a binary tree. -/
theorem C64_binary_load (p : Profile) (s s' : Binary.BStore E) (n : Nat) (r : Except (Fail (Binary.Error E)) (Binary.Tree E))
    (h : Binary.Tree.load p s n = (r, s')) :
    (Calm s.sched s.clock s'.clock ∧ Binary.Tree.load p (Binary.healed s) n = (r.map Binary.Tree.healed, Binary.healed s')) ∨
    ∃ e, LastFails s.sched s.clock s'.clock e ∧ r = .error (.err (.storageError e)) ∧
      s'.clock ≤ (Binary.Tree.load p (Binary.healed s) n).2.clock := by
  have hf := (Binary.build_failFast (E := E) p).out ⟨s, [], n⟩
  unfold Binary.Tree.load at h ⊢
  simp only at h ⊢
  have hh : (Binary.world E).heal ⟨s, [], n⟩ = ⟨Binary.healed s, [], n⟩ := rfl
  rw [hh] at hf
  rcases hb : Binary.build p (⟨s, [], n⟩ : Binary.Tree E) with ⟨x, t⟩
  rw [hb] at hf h
  rcases hf with ⟨h1, h2⟩ | ⟨e, h1, h2, h3⟩
  · left
    cases x <;> cases h <;> refine ⟨h1, ?_⟩ <;> rw [h2] <;> rfl
  · right
    simp only at h2
    subst h2
    cases h
    refine ⟨e, h1, rfl, ?_⟩
    rcases hb' : Binary.build p (⟨Binary.healed s, [], n⟩ : Binary.Tree E) with ⟨x', t'⟩
    rw [hb'] at h3
    cases x' <;> exact h3

/-- **C64**. One call on any sum tree with any storage. -/
theorem C64_sum_call (p : Profile) (H : HashFn) (op : Sum.Op) (t t' : Sum.Tree E) (o : Sum.Out E)
    (h : Sum.step p H op t = (o, t')) :
    (Calm t.storage.sched t.storage.clock t'.storage.clock ∧ Sum.step p H op t.healed = (o, t'.healed)) ∨
    ∃ e, LastFails t.storage.sched t.storage.clock t'.storage.clock e ∧ o.failure = some (.err e) ∧
      t'.storage.clock ≤ (Sum.step p H op t.healed).2.storage.clock := by
  cases op with
  | push f d =>
    have := (Sum.push_failFast (E := E) p H f d).out t
    simp only [Sum.step] at h ⊢
    rcases hp : Sum.push p H f d t with ⟨r, t1⟩
    rw [hp] at this h
    cases h
    rcases this with ⟨h1, h2⟩ | ⟨e, h1, h2, h3⟩
    · refine .inl ⟨h1, ?_⟩
      rw [show t.healed = (Sum.world E).heal t from rfl, h2]; rfl
    · refine .inr ⟨e, h1, ?_, h3⟩
      simp only at h2; rw [h2]; rfl
  | root =>
    have := (Sum.root_failFast (E := E) p H).out t
    simp only [Sum.step] at h ⊢
    rcases hp : Sum.root p H t with ⟨r, t1⟩
    rw [hp] at this h
    cases h
    rcases this with ⟨h1, h2⟩ | ⟨e, h1, h2, h3⟩
    · refine .inl ⟨h1, ?_⟩
      rw [show t.healed = (Sum.world E).heal t from rfl, h2]; rfl
    · refine .inr ⟨e, h1, ?_, h3⟩
      simp only at h2; rw [h2]; rfl

/-- **C64**. A binary tree made by pushes over storage that may fail at any later calls: the next
call, whatever it is, returns what the list of leaves says, or the error of its last storage call.
In particular a proof never fails with `LoadError` and nothing panics. -/
theorem C64_binary_reachable (p : Profile) (H : HashFn) (s : Binary.BStore E) (ds : List Bytes) (op : Binary.Op)
    (hn : ds.length + Binary.pushCount [op] < p.leafLimit) (hi : Binary.indicesOk [op]) (t t' : Binary.Tree E) (o : Binary.Out E)
    (ht : Binary.pushAll p H ds (Binary.Tree.new s) = (.ok (), t)) (h : Binary.step p H op t = (o, t')) :
    (Calm s.sched t.storage.clock t'.storage.clock ∧ o = (Binary.specStep H op ds).1) ∨
    ∃ e, LastFails s.sched t.storage.clock t'.storage.clock e ∧ o.failure = some (.err (.storageError e)) := by
  have hlim := p.leafLimit_le
  obtain ⟨h1, h2, _⟩ := Binary.pushAll_ok_inv p H ds (Binary.Inv.new H s) (by simp; omega) ht
  rw [List.nil_append] at h1
  have hs : t.storage.sched = s.sched := h2
  have hin : Binary.Inv H ds t.healed := ⟨h1.count, h1.peaks, h1.agree⟩
  have hr := (Binary.run_refines p H [op] hin hn hi (fun _ => rfl)).1
  rw [← hs]
  rcases C64_binary_call p H op t t' o h with ⟨c, e⟩ | ⟨e, c, ho, _⟩
  · refine .inl ⟨c, ?_⟩
    simp only [Binary.run, Binary.specRun, e, List.cons.injEq, and_true] at hr
    exact hr
  · exact .inr ⟨e, c, ho⟩

/-! ### C65 -/

/-- **C65**. A successful `prove`, on any tree, reads the storage as many times as its proof has
entries. -/
theorem C65_prove_reads (p : Profile) (H : HashFn) (i : Nat) (t t' : Binary.Tree E) (root : Bytes32) (proof : List Bytes32)
    (h : Binary.prove p H i t = (.ok (root, proof), t')) : t'.storage.clock = t.storage.clock + proof.length :=
  Binary.prove_clock p H i h

/-- **C65**. A successful `load` of `n` leaves from any storage reads it as many times as `n` has
ones in binary. -/
theorem C65_load_reads (p : Profile) (s s' : Binary.BStore E) (n : Nat) (hn : n < p.leafLimit) (t : Binary.Tree E)
    (h : Binary.Tree.load p s n = (.ok t, s')) : t.storage = s' ∧ s'.clock = s.clock + popcount n :=
  Binary.load_clock p s s' n hn t h

/-- **C65**. The push that makes `n` leaves writes `c + 1` records, where `2^c` is the highest power
of two that divides `n`. -/
theorem C65_push_writes (p : Profile) (H : HashFn) (s : Binary.BStore E) (ds : List Bytes) (d : Bytes) (hn : ds.length < 2 ^ 63)
    (t t' : Binary.Tree E) (ht : Binary.pushAll p H ds (Binary.Tree.new s) = (.ok (), t)) (h : Binary.push p H d t = (.ok (), t')) :
    ∃ c, 2 ^ c ∣ ds.length + 1 ∧ ¬ 2 ^ (c + 1) ∣ ds.length + 1 ∧ t'.storage.clock = t.storage.clock + (c + 1) := by
  obtain ⟨h1, _⟩ := Binary.pushAll_ok_inv p H ds (Binary.Inv.new H s) (by simp; omega) ht
  rw [List.nil_append] at h1
  obtain ⟨_, _, _, c, k, e, hc⟩ := Binary.push_ok_inv p H h1 hn h
  refine ⟨c, ⟨2 * k + 1, by rw [e, Nat.mul_comm]⟩, ?_, hc⟩
  rintro ⟨q, hq⟩
  rw [e, Nat.pow_succ, Nat.mul_assoc, Nat.mul_comm] at hq
  have := Nat.eq_of_mul_eq_mul_left (Nat.two_pow_pos c) hq
  omega

theorem sum_heads (p : Profile) (H : HashFn) (s : Sum.SStore E) (ds : List Item) (hn : ds.length < 2 ^ 64)
    (hf : ∀ y ∈ ds, y.1 < 2 ^ 64) (t : Sum.Tree E) (ht : Sum.pushAll p H ds (Sum.Tree.new s) = (.ok (), t)) :
    t.head.length = popcount ds.length := by
  obtain ⟨r, t', q1, _, _, q4⟩ := SumTree.pushAll_spec p H ds ds [] (Sum.Tree.new s) .nil ⟨[], by simp⟩ hn hf
  rw [ht] at q1
  cases q1
  rcases q4 with ⟨_, q4⟩ | ⟨e, q4, _⟩
  · rw [List.nil_append] at q4
    exact q4.length
  · cases q4

theorem sum_pushAll_append (p : Profile) (H : HashFn) (x : Item) : ∀ (ds : List Item) (t t1 t2 : Sum.Tree E),
    Sum.pushAll p H ds t = (.ok (), t1) → Sum.push p H x.1 x.2 t1 = (.ok (), t2) → Sum.pushAll p H (ds ++ [x]) t = (.ok (), t2)
  | [], t, t1, t2, h1, h2 => by
    cases h1
    rw [List.nil_append, Sum.pushAll, Exec.bind_ok h2]
    rfl
  | y :: ds, t, t1, t2, h1, h2 => by
    rw [Sum.pushAll] at h1
    obtain ⟨_, t3, h3, h1⟩ := Binary.bind_inv h1
    rw [List.cons_append, Sum.pushAll, Exec.bind_ok h3]
    exact sum_pushAll_append p H x ds t3 t1 t2 h1 h2

/-- **C65**. The same for the sum tree. -/
theorem C65_sum_push_writes (p : Profile) (H : HashFn) (s : Sum.SStore E) (ds : List Item) (x : Item) (hn : ds.length + 1 < 2 ^ 64)
    (hf : ∀ y ∈ ds ++ [x], y.1 < 2 ^ 64) (t t' : Sum.Tree E)
    (ht : Sum.pushAll p H ds (Sum.Tree.new s) = (.ok (), t)) (h : Sum.push p H x.1 x.2 t = (.ok (), t')) :
    ∃ c, 2 ^ c ∣ ds.length + 1 ∧ ¬ 2 ^ (c + 1) ∣ ds.length + 1 ∧ t'.storage.clock = t.storage.clock + (c + 1) := by
  have h1 := sum_heads p H s ds (by omega) (fun y hy => hf y (by simp [hy])) t ht
  have h2 := sum_heads p H s (ds ++ [x]) (by simpa using hn) hf t' (sum_pushAll_append p H x ds _ _ _ ht h)
  have h3 := Sum.push_clock p H x.1 x.2 h
  rw [List.length_append, List.length_singleton] at h2
  obtain ⟨c, k, e⟩ := Binary.exists_odd_mul (ds.length + 1) (by omega)
  have e1 := Binary.popcount_odd_mul c k
  have e2 := Binary.popcount_pred c k
  rw [← e] at e1 e2
  rw [Nat.add_sub_cancel] at e2
  refine ⟨c, ⟨2 * k + 1, by rw [e, Nat.mul_comm]⟩, ?_, by omega⟩
  rintro ⟨q, hq⟩
  rw [e, Nat.pow_succ, Nat.mul_assoc, Nat.mul_comm] at hq
  have := Nat.eq_of_mul_eq_mul_left (Nat.two_pow_pos c) hq
  omega

/-- **C65**. A successful `root` of a sum tree with `n` leaves writes one record less than `n` has
ones in binary (none for the empty tree). -/
theorem C65_sum_root_writes (p : Profile) (H : HashFn) (s : Sum.SStore E) (ds : List Item) (hn : ds.length < 2 ^ 64)
    (hf : ∀ y ∈ ds, y.1 < 2 ^ 64) (t t' : Sum.Tree E) (r : Nat × Bytes32)
    (ht : Sum.pushAll p H ds (Sum.Tree.new s) = (.ok (), t)) (h : Sum.root p H t = (.ok r, t')) :
    t'.storage.clock = t.storage.clock + (popcount ds.length - 1) := by
  rw [Sum.root_clock p H h, sum_heads p H s ds hn hf t ht]

theorem sum_call_of_head (p : Profile) (H : HashFn) (ds : List Item) (op : Sum.Op) (hn : (ds ++ Sum.pushed [op]).length < 2 ^ 64)
    (hf : ∀ x ∈ ds ++ Sum.pushed [op], x.1 < 2 ^ 64) (hl : p.overflowChecks = true → total (ds ++ Sum.pushed [op]) < 2 ^ 64) (t t' : Sum.Tree E) (o : Sum.Out E)
    (ht : Sum.Head p H (prefixMsgs H (ds ++ Sum.pushed [op])) t.storage.map t.head ds) (h : Sum.step p H op t = (o, t')) :
    (Calm t.storage.sched t.storage.clock t'.storage.clock ∧ o = (Sum.specStep H op ds).1) ∨
    ∃ e, LastFails t.storage.sched t.storage.clock t'.storage.clock e ∧ o.failure = some (.err e) := by
  have hr := (SumTree.run_spec p H (ds ++ Sum.pushed [op]) [op] ds t.healed ht ⟨[], by simp⟩ hn hf hl (fun _ => rfl)).1
  rcases C64_sum_call p H op t t' o h with ⟨c, e⟩ | ⟨e, c, ho, _⟩
  · refine .inl ⟨c, ?_⟩
    simp only [Sum.run, Sum.specRun, e, List.cons.injEq, and_true] at hr
    exact hr
  · exact .inr ⟨e, c, ho⟩

theorem sum_head_of_pushAll (p : Profile) (H : HashFn) (s : Sum.SStore E) (ds more : List Item)
    (hn : (ds ++ more).length < 2 ^ 64) (hf : ∀ x ∈ ds ++ more, x.1 < 2 ^ 64) (t : Sum.Tree E)
    (ht : Sum.pushAll p H ds (Sum.Tree.new s) = (.ok (), t)) :
    Sum.Head p H (prefixMsgs H (ds ++ more)) t.storage.map t.head ds ∧ t.storage.sched = s.sched := by
  obtain ⟨r, t1, q1, q2, _, q4⟩ := SumTree.pushAll_spec p H (ds ++ more) ds [] (Sum.Tree.new s) .nil ⟨more, by simp⟩ hn hf
  rw [ht] at q1
  cases q1
  rcases q4 with ⟨_, q4⟩ | ⟨e, q4, _⟩
  · rw [List.nil_append] at q4
    exact ⟨q4, q2⟩
  · cases q4

/-- **C64**. A sum tree made by pushes over storage that may fail at any later calls, with a total
fee below `2^64`: the next call returns what the list of leaves says, or the error of its last
storage call. -/
theorem C64_sum_reachable (p : Profile) (H : HashFn) (s : Sum.SStore E) (ds : List Item) (op : Sum.Op)
    (hn : (ds ++ Sum.pushed [op]).length < 2 ^ 64) (hf : ∀ x ∈ ds ++ Sum.pushed [op], x.1 < 2 ^ 64)
    (hl : p.overflowChecks = true → total (ds ++ Sum.pushed [op]) < 2 ^ 64) (t t' : Sum.Tree E) (o : Sum.Out E)
    (ht : Sum.pushAll p H ds (Sum.Tree.new s) = (.ok (), t)) (h : Sum.step p H op t = (o, t')) :
    (Calm s.sched t.storage.clock t'.storage.clock ∧ o = (Sum.specStep H op ds).1) ∨
    ∃ e, LastFails s.sched t.storage.clock t'.storage.clock e ∧ o.failure = some (.err e) := by
  obtain ⟨h1, h2⟩ := sum_head_of_pushAll p H s ds (Sum.pushed [op]) hn hf t ht
  rw [← h2]
  exact sum_call_of_head p H ds op hn hf hl t t' o h1 h

theorem sum_roots_of_head (p : Profile) (H : HashFn) (ds : List Item) (hn : ds.length < 2 ^ 64) (hf : ∀ x ∈ ds, x.1 < 2 ^ 64)
    (hl : p.overflowChecks = true → total ds < 2 ^ 64) : ∀ (k : Nat) (t : Sum.Tree E),
    Sum.Head p H (prefixMsgs H ds) t.storage.map t.head ds → ∀ o ∈ (Sum.run p H (List.replicate k .root) t).1,
      o = (Sum.specStep H .root ds).1 ∨ ∃ n f, t.storage.sched n = some f ∧ o.failure = some (.err f.err)
  | 0, _, _, o, ho => by cases ho
  | k + 1, t, ht, o, ho => by
    have happ : ds ++ Sum.pushed [.root] = ds := by simp [Sum.pushed]
    rw [List.replicate_succ, Sum.run] at ho
    rcases hs : Sum.step p H .root t with ⟨o1, t1⟩
    rw [hs] at ho
    simp only [List.mem_cons] at ho
    have h1 := sum_call_of_head p H ds .root (by rw [happ]; exact hn) (by rw [happ]; exact hf) (by rw [happ]; exact hl) t t1 o1 (by rw [happ]; exact ht) hs
    obtain ⟨r, t2, w1, _, w3, _, w5, _⟩ := Sum.root_spec p H _ ds t ht hn (SumTree.mem_prefixMsgs H ds ds [] (by simp))
    have : t2 = t1 := by
      simp only [Sum.step, w1, Prod.mk.injEq] at hs
      exact hs.2
    subst this
    rcases ho with rfl | ho
    · rcases h1 with ⟨_, h1⟩ | ⟨e, ⟨_, ⟨a, h2⟩, _⟩, h3⟩
      · exact .inl h1
      · exact .inr ⟨_, _, h2, h3⟩
    · have := sum_roots_of_head p H ds hn hf hl k t2 w5 o ho
      rw [w3] at this
      exact this

/-- **C64**. Asking a sum tree for its root again and again while the storage fails from time to
time: each answer is the root or an error of the storage, so a root that failed can be asked for
again. -/
theorem C64_sum_root_retry (p : Profile) (H : HashFn) (s : Sum.SStore E) (ds : List Item) (hn : ds.length < 2 ^ 64) (hf : ∀ x ∈ ds, x.1 < 2 ^ 64)
    (hl : p.overflowChecks = true → total ds < 2 ^ 64) (t : Sum.Tree E) (ht : Sum.pushAll p H ds (Sum.Tree.new s) = (.ok (), t)) (k : Nat)
    (o : Sum.Out E) (ho : o ∈ (Sum.run p H (List.replicate k .root) t).1) :
    o = .root (.ok (total ds % 2 ^ 64, if ds = [] then Sum.emptySum else sumHash H ds)) ∨
      ∃ n f, s.sched n = some f ∧ o.failure = some (.err f.err) := by
  obtain ⟨h1, h2⟩ := sum_head_of_pushAll p H s ds [] (by simpa using hn) (by simpa using hf) t ht
  rw [List.append_nil] at h1
  rw [← h2]
  exact sum_roots_of_head p H ds hn hf hl k t h1 o ho

/-! ### Concrete cases -/

/-- Storage whose call number `n` fails. -/
def brokenAt {K V : Type} (n : Nat) : Store K V String := { map := fun _ => none, sched := fun c => if c = n then some ⟨"down", true⟩ else none, clock := 0 }

/-- Four leaves. -/
def fourLeaves : List Bytes := [[1], [2], [3], [4]]

-- three pushes make four storage calls; the fourth push makes three, the second of which fails
example : (Binary.pushAll ⟨true, true, .w64⟩ Tests.toyHash (fourLeaves.take 3) (Binary.Tree.new (brokenAt 5))).1.toOption = some () ∧
    (Binary.pushAll ⟨true, true, .w64⟩ Tests.toyHash (fourLeaves.take 3) (Binary.Tree.new (brokenAt 5))).2.storage.clock = 4 ∧
    (Binary.push ⟨true, true, .w64⟩ Tests.toyHash [4] (Binary.pushAll ⟨true, true, .w64⟩ Tests.toyHash (fourLeaves.take 3) (Binary.Tree.new (brokenAt 5))).2).1.toOption = none ∧
    (Binary.push ⟨true, true, .w64⟩ Tests.toyHash [4] (Binary.pushAll ⟨true, true, .w64⟩ Tests.toyHash (fourLeaves.take 3) (Binary.Tree.new (brokenAt 5))).2).2.storage.clock = 6 := by
  decide +kernel

-- the reads of a proof: one for the leaf and two for the sides
example : (Binary.pushAll ⟨true, true, .w64⟩ Tests.toyHash fourLeaves (Binary.Tree.new (brokenAt 100))).2.storage.clock = 7 ∧
    (Binary.prove ⟨true, true, .w64⟩ Tests.toyHash 2 (Binary.pushAll ⟨true, true, .w64⟩ Tests.toyHash fourLeaves (Binary.Tree.new (brokenAt 100))).2).1.toOption.map (·.2.length) = some 3 ∧
    (Binary.prove ⟨true, true, .w64⟩ Tests.toyHash 2 (Binary.pushAll ⟨true, true, .w64⟩ Tests.toyHash fourLeaves (Binary.Tree.new (brokenAt 100))).2).2.storage.clock = 10 := by
  decide +kernel

-- the third read fails
example : (Binary.prove ⟨true, true, .w64⟩ Tests.toyHash 2 (Binary.pushAll ⟨true, true, .w64⟩ Tests.toyHash fourLeaves (Binary.Tree.new (brokenAt 9))).2).1 =
    .error (.err (.storageError "down")) := by
  decide +kernel

-- loading three leaves reads two records
example : (Binary.Tree.load ⟨true, true, .w64⟩ (Binary.pushAll ⟨true, true, .w64⟩ Tests.toyHash fourLeaves (Binary.Tree.new (brokenAt 100))).2.storage 3).2.clock = 9 := by
  decide +kernel

-- a sum tree with three leaves: four calls for the pushes and one for the root, which fails
example : (Sum.pushAll ⟨true, true, .w64⟩ Tests.toyHash [(1, [1]), (2, [2]), (3, [3])] (Sum.Tree.new (brokenAt 4))).1.toOption = some () ∧
    (Sum.root ⟨true, true, .w64⟩ Tests.toyHash (Sum.pushAll ⟨true, true, .w64⟩ Tests.toyHash [(1, [1]), (2, [2]), (3, [3])] (Sum.Tree.new (brokenAt 4))).2).1 = .error (.err "down") ∧
    ((Sum.root ⟨true, true, .w64⟩ Tests.toyHash (Sum.root ⟨true, true, .w64⟩ Tests.toyHash
      (Sum.pushAll ⟨true, true, .w64⟩ Tests.toyHash [(1, [1]), (2, [2]), (3, [3])] (Sum.Tree.new (brokenAt 4))).2).2).1.toOption.map (·.1)) = some 6 := by
  decide +kernel

end Props
end FuelMerkle
