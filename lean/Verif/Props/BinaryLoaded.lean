import Verif.Proofs.BinaryLoaded
import Verif.Proofs.BinaryWhole
import Verif.Tests.ToyHash

/-
Property C88: what a binary tree opened from its storage returns, reads and writes, exactly.
-/
namespace FuelMerkle.Props
open FuelMerkle.Spec
open FuelMerkle.Binary
variable {E : Type}

set_option maxRecDepth 100000

/-- **C88**, machine. For every list of leaves and every storage with any pattern of failing calls, in
which no largest complete subtree of the list has a wrong record, `load` fails exactly as the machine does
when it opens the tree, leaving the same storage, or gives a tree which, in every later sequence of calls,
returns exactly what the machine returns and leaves exactly its storage and leaf count. -/
theorem C88_open (p : Profile) (H : HashFn) (ds : List Bytes) (s : BStore E) (hb : Believable H ds s) (hn : ds.length < p.leafLimit) :
    match Machine.open ds s with
    | (.error e, s') => Tree.load p s ds.length = (.error e, s')
    | (.ok c, s') => ∃ t, Tree.load p s ds.length = (.ok t, s') ∧
        ∀ ops, ds.length + pushCount ops < p.leafLimit → indicesOk ops →
          (run p H ops t).1 = (c.run H ops).1 ∧ (run p H ops t).2.storage = (c.run H ops).2.storage ∧
          (run p H ops t).2.leavesCount = (c.run H ops).2.count := by
  have h := load_exact p H ds s hn hb
  rcases hq : Machine.open ds s with ⟨e | c, s'⟩
  · rw [hq] at h; exact h
  · rw [hq] at h
    obtain ⟨hc, t, h1, h2, h3, h4⟩ := h
    refine ⟨t, h1, fun ops ho hi => ?_⟩
    have := (run_exact p H ops t ds (by rw [h3]; exact h4) (by rw [h3]; exact ho) hi).1
    rw [h3, h2, ← hc] at this
    obtain ⟨e1, e2⟩ := Prod.mk.inj this
    exact ⟨e1, Prod.mk.inj e2⟩

/-- Every storage that acknowledged a list of pushes qualifies, for every prefix of the list, whatever it
held before: at once, and also after a further push that failed. -/
theorem C88_pushed (p : Profile) (H : HashFn) (s : BStore E) (ds : List Bytes) (hn : ds.length < p.leafLimit) (t : Tree E)
    (ht : pushAll p H ds (Tree.new s) = (.ok (), t)) (n : Nat) :
    Believable H (ds.take n) t.storage ∧
    ∀ d e t', push p H d t = (.error e, t') → Believable H (ds.take n) t'.storage := by
  have hlim := p.leafLimit_le
  obtain ⟨h1, _, _⟩ := pushAll_ok_inv p H ds (Inv.new H s) (by simp; omega) ht
  rw [List.nil_append] at h1
  have hl : (ds.take n).length < 2 ^ 64 := by rw [List.length_take]; omega
  refine ⟨believable_agree hl (h1.agree.take n), fun d e t' h => ?_⟩
  exact believable_agree hl ((push_error_inv p H h1 (by omega) h).2.2.1.take n)

/-- So does every storage left by the visits of C87, for every prefix of their list. -/
theorem C88_intact (H : HashFn) (ds : List Bytes) (hn : ds.length < 2 ^ 64) (s : BStore E) (hs : Intact H ds s.map) (n : Nat) :
    Believable H (ds.take n) s := by
  refine believable_of H _ s (by rw [List.length_take]; omega) fun h k hk => ?_
  rw [List.length_take] at hk
  have hio : subtreeKey h k = ioIndex h k := by
    have := ioIndex_succ h k
    unfold subtreeKey; omega
  have := hs.right h k (by omega)
  rw [hio] at this
  cases hm : s.map (ioIndex h k) with
  | none => exact .inl rfl
  | some q =>
    right
    rw [this q hm]
    congr 3
    rw [List.drop_take, List.take_take]
    congr 1
    rw [Nat.add_mul, Nat.one_mul] at hk
    omega

/-! ### The hypotheses can be met -/

namespace BinaryLoaded

/-- Three leaves, with the record of leaf 0 lost, another record in place of that of leaf 1, and a storage
whose fourth and eighth call fail. -/
def sampleStore : BStore String where
  map := fun k => if k = 1 then some (1, mth Tests.toyHash [[1], [2]]) else if k = 4 then some (4, mth Tests.toyHash [[3]]) else
    if k = 2 then some (2, ⟨List.replicate 32 9, rfl⟩) else none
  sched := fun c => if c = 3 then some ⟨"slow", false⟩ else if c = 7 then some ⟨"full", false⟩ else none
  clock := 0

theorem sample_believable : Believable Tests.toyHash [[1], [2], [3]] sampleStore := by
  unfold Believable
  decide +kernel

/-- Calls after loading: the first push fails at its first write (call 3), the second works. -/
def sampleOps : List Op := [.root, .prove 0, .push [4], .push [5], .root, .prove 1, .prove 2]

/-- How a call ended: `0` well, `1` with an error, `2` with a panic. -/
def ending : Out String → Nat
  | .push (.ok _) | .root (.ok _) | .prove (.ok _) => 0
  | .push (.error (.err _)) | .prove (.error (.err _)) => 1
  | _ => 2

/-- The tree opens although leaves are lost; the proof of leaf 0 is impossible, a push fails and may be
repeated, and the proof of leaf 1 fails when the storage does. -/
example : (match Machine.open [[1], [2], [3]] sampleStore with
    | (.ok c, _) => ((c.run Tests.toyHash sampleOps).1.map ending, (c.run Tests.toyHash sampleOps).2.leaves, (c.run Tests.toyHash sampleOps).2.count)
    | _ => ([], [], 0)) = ([0, 1, 1, 0, 0, 1, 0], [[1], [2], [3], [5]], 4) := by
  decide +kernel

/-- The same storage has no fourth leaf: opening four leaves needs the record of them all, under key 3. -/
example : (match Machine.open [[1], [2], [3], [4]] sampleStore with
    | (.error (.err (.loadError k)), s) => (k, s.clock)
    | _ => (0, 0)) = (3, 1) := by
  decide +kernel

example (p : Profile) : ∃ t s', Tree.load p sampleStore 3 = (.ok t, s') := by
  have h := C88_open p Tests.toyHash [[1], [2], [3]] sampleStore sample_believable (p.lt_leafLimit (by decide))
  rcases hq : Machine.open [[1], [2], [3]] sampleStore with ⟨e | c, s'⟩
  · exfalso
    have : (match (Machine.open [[1], [2], [3]] sampleStore).1 with | .ok _ => true | .error _ => false) = true := by decide +kernel
    rw [hq] at this
    cases this
  · rw [hq] at h
    obtain ⟨t, h1, _⟩ := h
    exact ⟨t, s', h1⟩

end BinaryLoaded
end FuelMerkle.Props
