import Verif.Proofs.WrongCount
import Verif.Props.Binary

/-
Property C74: opening a binary tree with any leaf count, also a wrong one.
-/
namespace FuelMerkle.Props
open FuelMerkle.Binary FuelMerkle.Spec
variable {E : Type}

set_option maxRecDepth 100000

/-- With overflow checks every leaf count from `2^62` on panics, whatever the storage holds, and
without a storage call. (Below `2^62`: C09 to C11.) -/
theorem C74_checked (p : Profile) (hp : p.overflowChecks = true) (s : BStore E) (n : Nat) (h1 : 2 ^ 62 ≤ n) :
    Tree.load p s n = (.error (.panic .overflow), s) := by
  unfold Tree.load build
  dsimp only
  rw [Exec.get_bind, peakPositions_checked p hp h1]
  rfl

/-- Without overflow checks a leaf count of `2^63` or more is not rejected: whatever the storage
holds, and whether it fails or not, `load` does what it does for the count that is `2^63` smaller
(for `u64::MAX`: for the count 0), and returns that tree labelled with the given count. (Below
`2^63`: C09 to C11.) -/
theorem C74_unchecked (p : Profile) (hp : p.overflowChecks = false) (s : BStore E) (n : Nat) (h1 : 2 ^ 63 ≤ n)
    (h2 : n < 2 ^ 64) :
    let m := if n = 2 ^ 64 - 1 then 0 else n - 2 ^ 63
    Tree.load p s n =
      ((Tree.load p s m).1.map fun t => { t with leavesCount := n }, (Tree.load p s m).2) := by
  intro m
  refine load_counting p s ?_
  by_cases h : n = 2 ^ 64 - 1
  · have : m = 0 := if_pos h
    rw [this, h, peakPositions_max p hp, peakPositions_zero p]
  · have : m = n - 2 ^ 63 := if_neg h
    obtain ⟨M, hM⟩ : ∃ M, M = 2 ^ 63 := ⟨_, rfl⟩
    have e : n = m + M := by omega
    rw [e]
    exact peakPositions_wrap p hp hM (by omega)

/-- `u64::MAX`: the empty tree, from any storage. -/
theorem C74_max (p : Profile) (hp : p.overflowChecks = false) (s : BStore E) :
    Tree.load p s (2 ^ 64 - 1) = (.ok { storage := s, head := [], leavesCount := 2 ^ 64 - 1 }, s) := by
  unfold Tree.load build
  dsimp only
  rw [Exec.get_bind, peakPositions_max p hp]
  rfl

/-- Every `prove` of the sequence is for a leaf that exists when it is called. -/
def provesExist : List Op → Nat → Prop
  | [], _ => True
  | .push _ :: ops, n => provesExist ops (n + 1)
  | .root :: ops, n => provesExist ops n
  | .prove i :: ops, n => i < n ∧ provesExist ops n

theorem run_counting (p : Profile) (hp : p.overflowChecks = false) (H : HashFn) {M : Nat} (hM : M = 2 ^ 63)
    (ops : List Op) : ∀ {ds : List Bytes} {t : Tree E},
    Inv H ds t → ds.length + pushCount ops + 1 < M → provesExist ops ds.length → t.storage.Reliable →
    (run p H ops (t.counting (ds.length + M))).1 = (specRun (E := E) H ops ds).1 ∧
    (run p H ops (t.counting (ds.length + M))).2.leavesCount = ds.length + pushCount ops + M := by
  have hlim : p.leafLimit = 2 ^ 63 := by unfold Profile.leafLimit; rw [hp]; rfl
  induction ops with
  | nil => intro ds t ht _ _ _; exact ⟨rfl, rfl⟩
  | cons op ops ih =>
    intro ds t ht hn hi hr
    cases op with
    | push d =>
      simp only [pushCount] at hn ⊢
      obtain ⟨t1, h1, h2, h3⟩ := push_inv p H d ht (by omega) hr
      have hl : (ds ++ [d]).length = ds.length + 1 := by simp
      obtain ⟨e1, e2⟩ := ih h2 (by rw [hl]; omega) (by rw [hl]; exact hi) h3
      have h4 := push_counting p hp H d t hM ht.count (by omega) t1 h1
      rw [h2.count] at h4
      simp only [run, step, specRun, specStep, h4]
      exact ⟨by rw [e1], by rw [e2, hl]; omega⟩
    | root =>
      simp only [pushCount] at hn ⊢
      obtain ⟨e1, e2⟩ := ih ht hn hi hr
      simp only [run, step, specRun, specStep, root_counting, root_spec p H ds (by omega) t ht.peaks]
      exact ⟨by rw [e1], e2⟩
    | prove i =>
      simp only [pushCount] at hn ⊢
      obtain ⟨hi1, hi⟩ := hi
      obtain ⟨t1, h1, h2 | ⟨e, h2, h3⟩⟩ := prove_spec p H ds t ht (by omega) hi1
      · obtain ⟨e1, e2⟩ := ih (ht.same h1) hn hi (by
          intro x; rw [h1.sched]; exact hr x)
        have h4 := prove_counting p hp H t hM ht.count (by omega) hi1
        rw [h2] at h4
        simp only [run, step, specRun, specStep, h4, List.getElem?_eq_getElem hi1]
        exact ⟨by rw [e1], e2⟩
      · exact absurd hr h2.not_reliable

/-- So a count that is `2^63` too large goes unnoticed: the opened tree answers every sequence of
pushes, roots and proofs of existing leaves as the tree with the right count would, and keeps the
wrong count. -/
theorem C74_unchecked_goes_on (p : Profile) (hp : p.overflowChecks = false) (H : HashFn) (s : BStore E)
    (hs : s.Reliable) (ds : List Bytes) (t : Tree E) (ht : pushAll p H ds (Tree.new s) = (.ok (), t))
    (ops : List Op) (hn : ds.length + pushCount ops + 1 < 2 ^ 63) (hi : provesExist ops ds.length) :
    ∃ t' s', Tree.load p t.storage (ds.length + 2 ^ 63) = (.ok t', s') ∧
      t'.leavesCount = ds.length + 2 ^ 63 ∧
      (run p H ops t').1 = (specRun H ops ds).1 ∧
      (run p H ops t').2.leavesCount = ds.length + pushCount ops + 2 ^ 63 := by
  have hlim : p.leafLimit = 2 ^ 63 := by unfold Profile.leafLimit; rw [hp]; rfl
  obtain ⟨h1, h3, _⟩ := pushAll_ok_inv p H ds (Inv.new H s) (by simp; omega) ht
  rw [List.nil_append] at h1
  have hr : t.storage.Reliable := by intro x; rw [h3]; exact hs x
  obtain ⟨c, hc, ⟨l, hl, hload⟩ | ⟨e, ⟨x, f, _, hf, _⟩, _⟩⟩ :=
    load_agree p t.storage h1.agree (n := ds.length) (by omega) (Nat.le_refl _)
  · obtain ⟨M, hM⟩ : ∃ M, M = 2 ^ 63 := ⟨_, rfl⟩
    rw [← hM] at hn ⊢
    rw [List.take_length] at hl
    have key := load_counting p t.storage (peakPositions_wrap p hp hM (n := ds.length) (by omega))
    rw [hload] at key
    have hinv : Inv H ds ({ storage := { t.storage with clock := c }, head := l, leavesCount := ds.length } : Tree E) :=
      ⟨rfl, hl, h1.agree⟩
    obtain ⟨e1, e2⟩ := run_counting p hp H hM ops hinv hn hi hr
    exact ⟨_, _, key, rfl, e1, e2⟩
  · rw [hr] at hf; cases hf

/-- The operations of the next test. -/
def wrongCountOps : List Op := [.root, .prove 2, .push [9], .root, .prove 3]

-- non-trivial: three leaves, opened as `2^63 + 3`
example : provesExist wrongCountOps 3 ∧ sampleLeaves.length = 3 := by
  simp [wrongCountOps, provesExist, sampleLeaves]

end FuelMerkle.Props
