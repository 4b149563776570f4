import Verif.Proofs.AnyStorageWild
import Verif.Props.AnyStorage

/-
C95: trees on any storage implementation at all.

Nothing is assumed about the implementation (`Backend` in `Model/AnyStorage.lean`): it may forget
what it was given and answer whatever it likes.
-/
namespace FuelMerkle.Props
open FuelMerkle Spec SumTree
variable {S E : Type}

set_option maxRecDepth 100000

/-! ### Binary trees -/

/-- **C95**, binary trees. Whatever the storage implementation does, pushing leaves on any number of trees and
asking for roots gives the replies given on an empty map some of whose writes fail; none of them fails if no
write of the implementation does. -/
theorem C95_binary (B : Backend S Nat Binary.Prim E) (p : Profile) (H : HashFn) (as : List Binary.Action)
    (ha : ∀ a ∈ as, Binary.Any.NoReads a) (s : S) :
    ∃ m : Binary.BStore E, m.map = (fun _ => none) ∧ (WritesWork B → m.Reliable) ∧
      (Binary.Any.Bench.acts B p H as (.start s)).1 = (Binary.Bench.acts p H as (.start m)).1 := by
  obtain ⟨sched, hn, h⟩ := (Binary.Any.acts_noReads B p H as ha (.start s)).elim
  obtain ⟨h1, _⟩ := h (.start ⟨fun _ => none, sched, 0⟩) ⟨rfl, rfl⟩ rfl rfl
  exact ⟨⟨fun _ => none, sched, 0⟩, rfl, fun h => hn h, h1.symm⟩

theorem pushAll_outcome (p : Profile) (H : HashFn) : ∀ (es ds : List Bytes) (t : Binary.Tree E), Binary.Inv H ds t →
    ds.length + es.length ≤ 2 ^ 63 → (Binary.pushAll p H es t).1 = .ok () ∨ ∃ x, (Binary.pushAll p H es t).1 = .error (.err (.storageError x)) := by
  intro es
  induction es with
  | nil => intro ds t _ _; exact .inl rfl
  | cons d es ih =>
    intro ds t ht hn
    simp only [List.length_cons] at hn
    rcases hp : Binary.push p H d t with ⟨e | u, t1⟩
    · right
      obtain ⟨⟨_, f, _, _, hx⟩, _⟩ := Binary.push_error_inv p H ht (by omega) hp
      refine ⟨f.err, ?_⟩
      rw [Binary.pushAll, Exec.bind_error hp, hx]
    · rw [Binary.pushAll, Exec.bind_ok hp]
      exact ih _ t1 (Binary.push_ok_inv p H ht (by omega) hp).1 (by rw [List.length_append, List.length_singleton]; omega)

theorem wild_pushAll (B : Backend S Nat Binary.Prim E) (p : Profile) (H : HashFn) (ds : List Bytes) (hn : ds.length ≤ 2 ^ 63) (s : S) :
    ((∃ t, Binary.Any.pushAll B p H ds (.new s) = (.ok (), t) ∧
        ∃ t' : Binary.Tree E, Binary.Inv H ds t' ∧ Binary.Any.Same t t') ∨
      ∃ x t, Binary.Any.pushAll B p H ds (.new s) = (.error (.err (.storageError x)), t) ∧ ¬ WritesWork B) := by
  obtain ⟨sched, hw, h⟩ := (Binary.Any.covers_pushAll (inserts_unrelated B) p H ds (.new s)).elimExec
  obtain ⟨h1, h2⟩ := h (.new ⟨fun _ => none, sched, 0⟩) ⟨trivial, rfl, rfl⟩ rfl rfl
  have hinv : Binary.Inv H [] (Binary.Tree.new (⟨fun _ => none, sched, 0⟩ : Binary.BStore E)) := Binary.Inv.new H _
  rcases pushAll_outcome p H ds [] _ hinv (by simpa using hn) with ho | ⟨x, ho⟩
  · left
    rw [ho] at h1
    obtain ⟨g1, _⟩ := Binary.pushAll_ok_inv p H ds hinv (by simpa using hn) (Prod.ext ho rfl)
    exact ⟨_, Prod.ext h1.symm rfl, _, g1, h2.2⟩
  · right
    rw [ho] at h1
    refine ⟨x, _, Prod.ext h1.symm rfl, fun hwk => ?_⟩
    obtain ⟨t, g, _⟩ := Binary.pushAll_inv p H ds hinv (by simpa using hn) (hw hwk)
    rw [g] at ho
    cases ho

/-- **C95**, binary roots. Whatever the storage implementation does, pushing leaves succeeds and the root is the
RFC 6962 root of the leaves, or a push reports an error of the implementation. -/
theorem C95_binary_root (B : Backend S Nat Binary.Prim E) (p : Profile) (H : HashFn) (ds : List Bytes) (hn : ds.length ≤ 2 ^ 63)
    (h0 : ds ≠ []) (s : S) :
    (∃ t, Binary.Any.pushAll B p H ds (.new s) = (.ok (), t) ∧ t.root p H = .ok (mth H ds)) ∨
      ∃ x t, Binary.Any.pushAll B p H ds (.new s) = (.error (.err (.storageError x)), t) ∧ ¬ WritesWork B := by
  rcases wild_pushAll B p H ds hn s with ⟨t, h1, t', h2, h3⟩ | h
  · refine .inl ⟨t, h1, ?_⟩
    have := Binary.root_spec p H ds hn t' h2.peaks
    rw [if_neg h0] at this
    rw [← this, Binary.Any.Tree.root, Binary.Tree.root, h3.1]
    rfl
  · exact .inr h

/-- **C95**, binary proofs. Whatever the storage implementation does, `prove` for a pushed leaf either returns the
right root and a proof of the right length, or reports an error of the implementation or a missing record; it
does not panic, and the tree is as before. -/
theorem C95_binary_prove (B : Backend S Nat Binary.Prim E) (p : Profile) (H : HashFn) (ds : List Bytes) (hn : ds.length < p.leafLimit)
    (i : Nat) (hi : i < ds.length) (s : S) (t : Binary.Any.Tree S) (ht : Binary.Any.pushAll B p H ds (.new s) = (.ok (), t)) :
    ∃ r t', Binary.Any.prove B p H i t = (r, t') ∧ t'.head = t.head ∧ t'.leavesCount = t.leavesCount ∧
      ((∃ path, r = .ok (mth H ds, path) ∧ path.length = (auditPath H i ds).length + 1) ∨
        (∃ x, r = .error (.err (.storageError x))) ∨ ∃ k, r = .error (.err (.loadError k))) := by
  have hlim := p.leafLimit_le
  rcases wild_pushAll B p H ds (by omega) s with ⟨t1, h1, t', h2, h3⟩ | ⟨x, t1, h, _⟩
  · rw [ht] at h1
    cases h1
    have hr : Binary.Inv H ds ({ t' with storage := { t'.storage with sched := fun _ => none } } : Binary.Tree E) := ⟨h2.count, h2.peaks, h2.agree⟩
    obtain ⟨t2', hs, hp | ⟨e, he, _⟩⟩ := Binary.prove_spec p H ds _ hr hn hi
    · have h4 : Binary.Any.Same t ({ t' with storage := { t'.storage with sched := fun _ => none } } : Binary.Tree E) := h3
      rcases Binary.Any.tame_prove (B := B) p H i t _ _ _ h4 hp with ⟨⟨r, path⟩, t1, g1, ⟨g2, g3⟩, g4⟩ | ⟨e, t1, g1, g2, g3, g4⟩
      · refine ⟨_, t1, g1, ?_, ?_, .inl ⟨path, by rw [show r = mth H ds from g2], by rw [g3, List.length_cons]⟩⟩
        · rw [← g4.1, hs.head]; exact h3.1
        · rw [← g4.2, hs.count]; exact h3.2
      · refine ⟨_, t1, g1, g2, g3, .inr ?_⟩
        rcases g4 with ⟨f, rfl⟩ | ⟨k, rfl⟩
        · exact .inl ⟨f, rfl⟩
        · exact .inr ⟨k, rfl⟩
    · exact absurd (fun _ => rfl) he.not_reliable
  · rw [ht] at h; cases h

/-! ### Sum trees -/

/-- **C95**, sum trees. They never read: whatever the storage implementation does, all replies are those on an
empty map some of whose writes fail. -/
theorem C95_sum (B : Backend S Bytes32 Sum.Node E) (p : Profile) (H : HashFn) (xs : List (Nat × Sum.Op)) (s : S) :
    ∃ m : Sum.SStore E, m.map = (fun _ => none) ∧ (WritesWork B → m.Reliable) ∧
      (Sum.Any.Desk.run B p H xs (.start s)).1 = (Sum.Desk.run p H xs (.start m)).1 := by
  obtain ⟨sched, hn, h⟩ := (Sum.Any.run_unrelated B p H xs (.start s)).elim
  obtain ⟨h1, _⟩ := h (.start ⟨fun _ => none, sched, 0⟩) rfl rfl rfl
  exact ⟨⟨fun _ => none, sched, 0⟩, rfl, fun h => hn h, h1.symm⟩

/-- **C95**, sum roots. Whatever the storage implementation does, a root reported after successful pushes is the
total fee and the sum-tree hash. -/
theorem C95_sum_root (B : Backend S Bytes32 Sum.Node E) (p : Profile) (H : HashFn) (ds : List Item) (hn : ds.length < 2 ^ 64) (h0 : ds ≠ [])
    (ht : total ds < 2 ^ 64) (s : S) :
    (∃ t, Sum.Any.pushAll B p H ds (.new s) = (.ok (), t) ∧
      ((Sum.Any.root B p H t).1 = .ok (total ds, sumHash H ds) ∨ ∃ x, (Sum.Any.root B p H t).1 = .error (.err x) ∧ ¬ WritesWork B)) ∨
      ∃ x t, Sum.Any.pushAll B p H ds (.new s) = (.error (.err x), t) ∧ ¬ WritesWork B := by
  have hf : ∀ x ∈ ds, x.1 < 2 ^ 64 := by
    intro x hx
    have := item_le_total hx
    omega
  obtain ⟨sched, hw, h⟩ := ((Sum.Any.covers_pushAll (inserts_unrelated B) p H ds (.new s)).bind
    fun _ t _ => Sum.Any.covers_root (inserts_unrelated B) p H t).elimExec
  obtain ⟨h1, _⟩ := h (.new ⟨fun _ => none, sched, 0⟩) ⟨trivial, rfl⟩ rfl rfl
  obtain ⟨sched', hw', h'⟩ := (Sum.Any.covers_pushAll (inserts_unrelated B) p H ds (.new s)).elimExec
  obtain ⟨h1', _⟩ := h' (.new ⟨fun _ => none, sched', 0⟩) ⟨trivial, rfl⟩ rfl rfl
  have hnw : ∀ (sc : Nat → Option (Fault E)) (s' : Sum.SStore E) (e : Fail E), (WritesWork B → ∀ n, sc n = none) → s'.sched = sc →
      Sum.Why p s' ds e → ∃ x, e = .err x ∧ ¬ WritesWork B := by
    rintro sc s' e hsc hs' (⟨c, f, _, h1, h2⟩ | ⟨_, h2, _⟩)
    · refine ⟨f.err, h2, fun hk => ?_⟩
      rw [hs', hsc hk] at h1
      cases h1
    · omega
  rcases hx : Sum.Any.pushAll B p H ds (.new s) with ⟨e | u, t⟩
  · right
    rw [hx] at h1'
    obtain ⟨r, t2, q1, q2, q3, q4⟩ := pushAll_spec p H ds ds [] (Sum.Tree.new (⟨fun _ => none, sched', 0⟩ : Sum.SStore E)) .nil ⟨[], by simp⟩ hn hf
    rw [q1] at h1'
    simp only at h1'
    subst h1'
    rcases q4 with ⟨q4, _⟩ | ⟨e', q4, q5⟩
    · cases q4
    · cases q4
      rw [List.nil_append] at q5
      obtain ⟨x, rfl, hk⟩ := hnw sched' _ _ hw' rfl q5
      exact ⟨x, t, rfl, hk⟩
  · left
    refine ⟨t, rfl, ?_⟩
    rw [Exec.bind_ok hx] at h1
    obtain ⟨r, t2, q1, q2, q3, q4⟩ := pushAll_spec p H ds ds [] (Sum.Tree.new (⟨fun _ => none, sched, 0⟩ : Sum.SStore E)) .nil ⟨[], by simp⟩ hn hf
    rcases q4 with ⟨rfl, q4⟩ | ⟨e, rfl, q5⟩
    · rw [Exec.bind_ok q1] at h1
      obtain ⟨r, t', w1, _, _, _, _, w6⟩ := Sum.root_spec p H _ ds t2 q4 hn (mem_prefixMsgs H ds ds [] (by simp))
      rw [w1] at h1
      rw [← h1]
      rcases w6 with ⟨rfl, _⟩ | ⟨e, rfl, w7⟩
      · left
        rw [if_neg h0, Nat.mod_eq_of_lt ht]
      · right
        obtain ⟨x, rfl, hk⟩ := hnw sched _ _ hw q2 w7
        exact ⟨x, rfl, hk⟩
    · rw [Exec.bind_error q1] at h1
      rw [List.nil_append] at q5
      obtain ⟨x, rfl, hk⟩ := hnw sched _ _ hw rfl q5
      exact .inr ⟨x, h1.symm, hk⟩

/-! ### Sparse trees -/

/-- **C95**, sparse trees. Whatever the storage implementation answers, no call goes on for ever: it makes at most
1026 storage calls. -/
theorem C95_sparse (B : Backend S Bytes32 Sparse.Prim E) (p : Profile) (H : HashFn) (r : Sparse.Any.Request) (c : Sparse.Any.Bench (S × Nat)) :
    (Sparse.Any.Bench.handle B.counted p H r c).2.storage.2 ≤ c.storage.2 + 1026 ∧
      (Sparse.Any.Bench.handle B.counted p H r c).1 ≠ .done (.error (.panic .diverges)) :=
  Sparse.Any.handle_calls (counted_counts B) p r c

/-! ### The hypotheses can be met -/

namespace AnyStorageWild

/-- A storage that remembers nothing and makes up a record at every `get`. -/
def liar : Backend Nat Nat Binary.Prim Unit where
  get k n := (.ok (some (k + n, ⟨List.replicate 32 7, by decide⟩)), n + 1)
  insert _ _ n := (.ok none, n + 1)
  remove _ n := (.ok none, n + 1)

theorem liar_works : WritesWork liar := by
  intro k v s e s' h
  cases h

/-- The liar cannot do anything about the root. -/
example (p : Profile) : ∃ t, Binary.Any.pushAll liar p Sha256.sha256 sampleLeaves (.new 0) = (.ok (), t) ∧
    t.root p Sha256.sha256 = .ok (mth Sha256.sha256 sampleLeaves) := by
  rcases C95_binary_root liar p Sha256.sha256 sampleLeaves (by decide) (by decide) 0 with h | ⟨x, t, _, h⟩
  · exact h
  · exact absurd liar_works h

/-- How a call ended, and how long the proof is. -/
def summary : Binary.Reply Unit → Nat
  | .call (.push (.ok _)) => 0
  | .call (.prove (.ok (_, path))) => 10 + path.length
  | .call (.root _) => 1
  | _ => 2

/-- It can make `prove` return a proof, but not another root. -/
example : (Binary.Any.Bench.acts liar ⟨true, true, .w64⟩ Tests.toyHash
    [.call 0 (.push [1]), .call 1 (.push [2]), .call 0 (.push [3]), .call 0 .root, .call 0 (.prove 1)] (.start 0)).1.map summary =
    [0, 0, 0, 1, 12] := by
  decide +kernel

/-- Actions of the kind `C95_binary` is about. -/
example : ∀ a ∈ [Binary.Action.call 0 (.push [1]), .new 1, .call 1 (.push [2]), .call 0 .root], Binary.Any.NoReads a := by
  simp [Binary.Any.NoReads]

end AnyStorageWild
end FuelMerkle.Props
