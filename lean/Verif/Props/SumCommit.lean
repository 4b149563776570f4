import Verif.Props.Sum

/-!
C47 for every pair of roots that are reported at all: also of empty trees, over storage that
fails at times, and in builds without overflow checks after the total fee has wrapped.
-/

namespace FuelMerkle.Props
open FuelMerkle.Spec
namespace SumTree
open FuelMerkle.Sum

variable {E : Type}

/-- What `root()` reports after any pushes, if they and `root()` succeed. -/
theorem reported (p : Profile) (H : HashFn) (s : Sum.SStore E) (D : List Item) (hn : D.length < 2 ^ 64)
    (hf : ∀ x ∈ D, x.1 < 2 ^ 64) (t t' : Sum.Tree E) (r : Nat × Bytes32)
    (ht : Sum.pushAll p H D (Sum.Tree.new s) = (.ok (), t)) (hr : Sum.root p H t = (.ok r, t')) :
    r = (total D % 2 ^ 64, if D = [] then Sum.emptySum else sumHash H D) := by
  obtain ⟨r1, t1, q1, _, _, q4⟩ := pushAll_spec p H D D [] (Sum.Tree.new s) .nil ⟨[], by simp⟩ hn hf
  rw [ht] at q1
  obtain ⟨rfl, rfl⟩ := Prod.mk.inj q1
  rcases q4 with ⟨_, q4⟩ | ⟨e, q4, _⟩
  · obtain ⟨r2, t2, w1, _, _, _, _, w6⟩ := Sum.root_spec p H _ D t q4 hn (mem_prefixMsgs H D D [] (by simp))
    rw [hr] at w1
    obtain ⟨rfl, rfl⟩ := Prod.mk.inj w1
    rcases w6 with ⟨w6, _⟩ | ⟨e, w6, _⟩
    · exact Except.ok.inj w6
    · cases w6
  · cases q4

end SumTree
open SumTree FuelMerkle.Sum

/-- **C47**. Two reported roots with the same digest belong to the same list of (fee, data), or the
hashing of the two lists exhibits a collision. Nothing is asked of the storages (the calls
succeeded) or of the totals (a wrapped total is no way around), the two trees may run in different
builds, and one or both may be empty. -/
theorem C47_reported_roots_commit (p p' : Profile) (H : HashFn) (hH : H [] = Sum.emptySum) (s s' : Sum.SStore E)
    (D D' : List Item) (hn : D.length < 2 ^ 64) (hn' : D'.length < 2 ^ 64) (hf : ∀ x ∈ D, x.1 < 2 ^ 64)
    (hf' : ∀ x ∈ D', x.1 < 2 ^ 64) (t t1 t' t1' : Sum.Tree E) (r r' : Nat × Bytes32)
    (ht : Sum.pushAll p H D (Sum.Tree.new s) = (.ok (), t)) (hr : Sum.root p H t = (.ok r, t1))
    (ht' : Sum.pushAll p' H D' (Sum.Tree.new s') = (.ok (), t')) (hr' : Sum.root p' H t' = (.ok r', t1'))
    (h : r.2 = r'.2) :
    D = D' ∨ Collide H (sumMsgs H D) (sumMsgs H D') := by
  have e := reported p H s D hn hf t t1 r ht hr
  have e' := reported p' H s' D' hn' hf' t' t1' r' ht' hr'
  have hd : ∀ D : List Item, (if D = [] then Sum.emptySum else sumHash H D) = sumHash H D := by
    intro D
    split
    · next h0 => subst h0; rw [sumHash, hH]
    · rfl
  rw [hd] at e e'
  rw [e, e'] at h
  exact C47_sum_root_commits H D D' hf hf' h

theorem C47_reported_roots_commit_sha256 (p p' : Profile) (s s' : Sum.SStore E)
    (D D' : List Item) (hn : D.length < 2 ^ 64) (hn' : D'.length < 2 ^ 64) (hf : ∀ x ∈ D, x.1 < 2 ^ 64)
    (hf' : ∀ x ∈ D', x.1 < 2 ^ 64) (t t1 t' t1' : Sum.Tree E) (r r' : Nat × Bytes32)
    (ht : Sum.pushAll p Sha256.sha256 D (Sum.Tree.new s) = (.ok (), t))
    (hr : Sum.root p Sha256.sha256 t = (.ok r, t1))
    (ht' : Sum.pushAll p' Sha256.sha256 D' (Sum.Tree.new s') = (.ok (), t'))
    (hr' : Sum.root p' Sha256.sha256 t' = (.ok r', t1')) (h : r.2 = r'.2) :
    D = D' ∨ Collide Sha256.sha256 (sumMsgs Sha256.sha256 D) (sumMsgs Sha256.sha256 D') :=
  C47_reported_roots_commit p p' Sha256.sha256 (by decide +kernel) s s' D D' hn hn' hf hf' t t1 t' t1' r r' ht hr
    ht' hr' h

/-- Hypotheses met in a build without overflow checks by fees whose total wraps to zero, over two
storages of which one fails later. -/
example : ∃ (t t1 t' t1' : Sum.Tree Unit) (r r' : Nat × Bytes32),
    Sum.pushAll ⟨false, false, .w64⟩ Sha256.sha256 [(2 ^ 63, []), (2 ^ 63, [1])] (Sum.Tree.new Store.empty) = (.ok (), t) ∧
    Sum.root ⟨false, false, .w64⟩ Sha256.sha256 t = (.ok r, t1) ∧
    Sum.pushAll ⟨false, false, .w64⟩ Sha256.sha256 [(2 ^ 63, []), (2 ^ 63, [1])]
      (Sum.Tree.new ⟨fun _ => none, fun c => if c = 100 then some ⟨(), true⟩ else none, 0⟩) = (.ok (), t') ∧
    Sum.root ⟨false, false, .w64⟩ Sha256.sha256 t' = (.ok r', t1') ∧ r.2 = r'.2 ∧ r.1 = 0 :=
  ⟨_, _, _, _, _, _, rfl, rfl, rfl, rfl, rfl, rfl⟩

end FuelMerkle.Props
