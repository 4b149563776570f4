import Verif.Proofs.BinaryRetry
import Verif.Props.Binary
import Verif.Props.Sum
import Verif.Proofs.Profiles

/-
Property C59: going on with an open tree after a failed push.
-/
namespace FuelMerkle.Props
open FuelMerkle.Binary FuelMerkle.Spec
variable {E : Type}

set_option maxRecDepth 100000

theorem late_of_failed_push (p : Profile) (H : HashFn) (s : BStore E)
    (ds : List Bytes) (hn : ds.length < p.leafLimit) (t t' : Tree E) (d : Bytes) (e : Fail (Error E))
    (ht : pushAll p H ds (Tree.new s) = (.ok (), t)) (hf : push p H d t = (.error e, t'))
    (hc : t.storage.clock + 1 < t'.storage.clock) : Late H ds.length [] t' ∧ ds.length % 2 = 1 := by
  have hlim := p.leafLimit_le
  obtain ⟨h1, _, _⟩ := pushAll_ok_inv p H ds (Inv.new H s) (by simp; omega) ht
  rw [List.nil_append] at h1
  rcases push_spec p H ds d t (by omega) h1.count h1.peaks with
    ⟨t2, c, k, q1, _⟩ | ⟨t2, c, k, f, q1, q2, _, q4, q5, _, _, q8⟩
  · rw [hf] at q1; cases q1
  · rw [hf] at q1
    obtain ⟨_, rfl⟩ := Prod.mk.inj q1
    rw [if_neg (by omega)] at q8
    refine ⟨⟨q2, by rw [q8]; exact .nil, ?_⟩, ?_⟩
    · intro c x k hk
      have := Nat.two_pow_pos x
      have : (k + 1) * 2 ^ x = k * 2 ^ x + 2 ^ x := by ring
      simp at hk
    · obtain ⟨c, rfl⟩ : ∃ c', c = c' + 1 := ⟨c - 1, by omega⟩
      have : (k + 1) * 2 ^ (c + 1) = 2 * ((k + 1) * 2 ^ c) := by ring
      omega

/-- A push that fails after its first storage call loses the tree, silently: whatever is pushed
successfully afterwards (storage may go on failing), `root()` is the root of the later leaves
alone, while the leaf count still includes the earlier ones. -/
theorem C59_restarts_silently (p : Profile) (H : HashFn) (s : BStore E)
    (ds : List Bytes) (t t' t'' : Tree E) (d : Bytes) (e : Fail (Error E)) (es : List Bytes)
    (hn : ds.length + es.length < p.leafLimit)
    (ht : pushAll p H ds (Tree.new s) = (.ok (), t)) (hf : push p H d t = (.error e, t'))
    (hc : t.storage.clock + 1 < t'.storage.clock) (he : pushAll p H es t' = (.ok (), t'')) :
    t''.root p H = .ok (if es = [] then emptySum else mth H es) ∧ t''.leavesCount = ds.length + es.length := by
  obtain ⟨h1, _⟩ := late_of_failed_push p H s ds (by omega) t t' d e ht hf hc
  have h2 := pushAll_late p H ds.length es h1 (by simp; omega) he
  rw [List.nil_append] at h2
  exact ⟨root_late p H h2 (by omega), h2.count⟩

/-- And it damages what was stored: the failing push was made at an odd count `n`, and after two
more successful pushes (the retried leaf and another one, say) the record of the parent of leaves
`n - 1` and `n` is the parent of the two later leaves instead, whatever comes after. -/
theorem C59_overwrites_records (p : Profile) (H : HashFn) (s : BStore E)
    (ds : List Bytes) (t t' t'' : Tree E) (d : Bytes) (e : Fail (Error E)) (d₁ d₂ : Bytes) (es : List Bytes)
    (hn : ds.length + es.length + 2 < p.leafLimit)
    (ht : pushAll p H ds (Tree.new s) = (.ok (), t)) (hf : push p H d t = (.error e, t'))
    (hc : t.storage.clock + 1 < t'.storage.clock) (he : pushAll p H (d₁ :: d₂ :: es) t' = (.ok (), t'')) :
    ds.length % 2 = 1 ∧
    t''.storage.map (2 * ds.length - 1) = some (2 * ds.length - 1, mth H [d₁, d₂]) := by
  obtain ⟨h1, hodd⟩ := late_of_failed_push p H s ds (by omega) t t' d e ht hf hc
  have h2 := pushAll_late p H ds.length _ h1 (by simp; omega) he
  rw [List.nil_append] at h2
  refine ⟨hodd, ?_⟩
  have := h2.held 1 1 0 (by simp) (.inr (Nat.le_refl _))
  have hkey : (lateNode H ds.length (d₁ :: d₂ :: es) 1 0).key = 2 * ds.length - 1 := by
    show ioIndex 1 (ds.length / 2 ^ 1 + 0) = _
    unfold ioIndex
    omega
  rw [hkey] at this
  rw [this]
  show some (ioIndex 1 _, _) = _
  rw [show ioIndex 1 (ds.length / 2 ^ 1 + 0) = 2 * ds.length - 1 from hkey]
  rfl

/-- The history of the next theorem, as a test to be evaluated. -/
def retryStory (p : Profile) (applied : Bool) : Bool :=
  match pushAll p Sha256.sha256 [[1]] (Tree.new (failsAt 2 applied)) with
  | (.error _, _) => false
  | (.ok _, t) =>
    match push p Sha256.sha256 [2] t with
    | (.ok _, _) => false
    | (.error (.panic _), _) => false
    | (.error (.err _), t') =>
      match pushAll p Sha256.sha256 [[2], [3], [4]] t' with
      | (.error _, _) => false
      | (.ok _, _) =>
        match pushAll p Sha256.sha256 [[2], [3]] t' with
        | (.error _, _) => false
        | (.ok _, t'') =>
          match Tree.load p t''.storage 3 with
          | (.error _, _) => false
          | (.ok t₃, _) =>
            match t₃.root p Sha256.sha256, t''.root p Sha256.sha256 with
            | .ok r₃, .ok r => decide (t.storage.clock + 1 < t'.storage.clock) && t''.leavesCount == 3 &&
                r == mth Sha256.sha256 [[2], [3]] && r₃ != mth Sha256.sha256 [[2], [3]] && r₃ != mth Sha256.sha256 [[1], [2], [3]]
            | _, _ => false

theorem retryStory_holds : ∀ applied, retryStory ⟨true, true, .w64⟩ applied = true := by decide +kernel

/-- With SHA-256, in every build profile: one leaf, a push of `[2]` fails at its second write,
the push is retried and succeeds, `[3]` is pushed and succeeds. The open tree then has three
leaves by its own count, but the root of two; opening the storage again at three leaves succeeds
and gives a root that is neither that nor the root of the three leaves. -/
theorem C59_retry_example (p : Profile) (applied : Bool) :
    ∃ (t t' t'' : Tree Unit) (e : Fail (Error Unit)) (t₃ : Tree Unit) (s₃ : BStore Unit) (r₃ : Bytes32),
      pushAll p Sha256.sha256 [[1]] (Tree.new (failsAt 2 applied)) = (.ok (), t) ∧
      push p Sha256.sha256 [2] t = (.error e, t') ∧
      pushAll p Sha256.sha256 [[2], [3]] t' = (.ok (), t'') ∧
      t''.leavesCount = 3 ∧
      t''.root p Sha256.sha256 = .ok (mth Sha256.sha256 [[2], [3]]) ∧
      Tree.load p t''.storage 3 = (.ok t₃, s₃) ∧
      t₃.root p Sha256.sha256 = .ok r₃ ∧
      r₃ ≠ mth Sha256.sha256 [[2], [3]] ∧ r₃ ≠ mth Sha256.sha256 [[1], [2], [3]] := by
  have h := retryStory_holds applied
  unfold retryStory at h
  split at h
  · cases h
  next t e1 =>
  split at h
  · cases h
  · cases h
  next e t' e2 =>
  split at h
  · cases h
  next _ =>
  split at h
  · cases h
  next t'' e3 =>
  split at h
  · cases h
  next t₃ s₃ e4 =>
  split at h
  next r₃ r e5 e6 =>
    simp only [Bool.and_eq_true, decide_eq_true_eq, beq_iff_eq, bne_iff_ne] at h
    obtain ⟨⟨⟨⟨_, h1⟩, h2⟩, h3⟩, h4⟩ := h
    subst h2
    have hp := debug_stricter p
    exact ⟨t, t', t'', _, t₃, s₃, r₃, (pushAll_safe hp _ _).transfer e1 (by simp), (push_safe hp _ _).transfer e2 (by simp),
      (pushAll_safe hp _ _).transfer e3 (by simp), h1, (root_safe hp _ _).eq_ok e6, load_transfer hp e4, (root_safe hp _ _).eq_ok e5, h3, h4⟩
  · cases h

/-- The hypotheses of the general theorems are met by that history. -/
example : ∃ (t t' t'' : Tree Unit) (e : Fail (Error Unit)),
    pushAll ⟨true, true, .w64⟩ Sha256.sha256 [[1]] (Tree.new (failsAt 2 true)) = (.ok (), t) ∧
    push ⟨true, true, .w64⟩ Sha256.sha256 [2] t = (.error e, t') ∧ t.storage.clock + 1 < t'.storage.clock ∧
    pushAll ⟨true, true, .w64⟩ Sha256.sha256 [[2], [3], [4]] t' = (.ok (), t'') := by
  have h := retryStory_holds true
  unfold retryStory at h
  split at h
  · cases h
  next t e1 =>
  split at h
  · cases h
  · cases h
  next e t' e2 =>
  split at h
  · cases h
  next t'' e3 =>
  refine ⟨t, t', t'', _, e1, e2, ?_, e3⟩
  split at h
  · cases h
  split at h
  · cases h
  split at h
  · simp only [Bool.and_eq_true, decide_eq_true_eq] at h
    exact h.1.1.1.1
  · cases h

/-- The sum tree: a push that fails after its leaf record was written leaves exactly a new tree
over the same storage, so any history of later calls behaves as on a new tree. -/
theorem C59_sum_restarts (p : Profile) (H : HashFn) (s : Sum.SStore E) (ds : List Item)
    (hn : ds.length + 1 < 2 ^ 64) (hf : ∀ x ∈ ds, x.1 < 2 ^ 64) (t t' : Sum.Tree E) (fee : Nat) (hfee : fee < 2 ^ 64)
    (d : Bytes) (e : Fail E) (ht : Sum.pushAll p H ds (Sum.Tree.new s) = (.ok (), t))
    (he : Sum.push p H fee d t = (.error e, t')) (hc : t.storage.sched t.storage.clock = none) (ops : List Sum.Op) :
    Sum.run p H ops t' = Sum.run p H ops (Sum.Tree.new t'.storage) := by
  suffices h : t'.head = [] by
    obtain ⟨s', hd⟩ := t'
    subst h
    rfl
  rcases C50_failed_push p H s ds hn hf t t' fee hfee d e ht he with ⟨h, _⟩ | ⟨_, h, _⟩
  · exact absurd hc h
  · exact h

/-- Those hypotheses are met too: the second of two pushes fails at its second write. -/
example : ∃ (t t' : Sum.Tree Unit) (e : Fail Unit),
    Sum.pushAll ⟨true, true, .w64⟩ Sha256.sha256 [(7, [1])] (Sum.Tree.new ⟨fun _ => none,
      fun c => if c = 2 then some ⟨(), true⟩ else none, 0⟩) = (.ok (), t) ∧
    Sum.push ⟨true, true, .w64⟩ Sha256.sha256 8 [2] t = (.error e, t') ∧ t.storage.sched t.storage.clock = none :=
  ⟨_, _, _, rfl, rfl, rfl⟩

end FuelMerkle.Props
