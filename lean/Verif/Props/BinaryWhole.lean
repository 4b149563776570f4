import Verif.Proofs.BinaryWhole
import Verif.Proofs.Profiles
import Verif.Props.Binary
import Verif.Model.Verify

/-
Property C87: a binary tree found in storage is there completely.

`Spec/BinaryWhole.lean` defines `Intact`, `Visit` and `visits`.
-/
namespace FuelMerkle.Props
open FuelMerkle.Binary FuelMerkle.Spec
variable {E : Type}

set_option maxRecDepth 100000

/-- Clients come one after the other, open the tree at any counts (also counts no push was ever
acknowledged for), push the next leaves of one list and stop at the first failure. Whatever the
storage fails and when, and whether failed writes took effect: an intact storage stays intact, and
no record is lost. -/
theorem C87_visits (p : Profile) (H : HashFn) (ds : List Bytes) (hn : ds.length < p.leafLimit) (vs : List Visit)
    (hv : ∀ v ∈ vs, v.count ≤ ds.length) (s : BStore E) (hs : Intact H ds s.map) :
    Intact H ds (visits p H ds vs s).map ∧ ∀ k, s.map k ≠ none → (visits p H ds vs s).map k ≠ none := by
  induction vs generalizing s with
  | nil => exact ⟨hs, fun _ h => h⟩
  | cons v vs ih =>
    rw [intact_iff] at hs
    obtain ⟨a, b, c⟩ := visit_whole p H v s hn (hv v (by simp)) hs.1 hs.2
    obtain ⟨d, e⟩ := ih (fun w hw => hv w (by simp [hw])) _ ((intact_iff _ _ _).2 ⟨a, b⟩)
    exact ⟨d, fun k hk => e k (c k hk)⟩

/-- A storage without records is intact, for every list. -/
theorem C87_empty (H : HashFn) (ds : List Bytes) : Intact H ds (fun _ => none) :=
  ⟨fun _ _ _ _ h => (by cases h), fun _ _ _ h => absurd rfl h⟩

/-- Opening an intact storage that works, at any count: either `LoadError`, or a tree that behaves
in every later history as the tree over the first leaves of the list. -/
theorem C87_load (p : Profile) (H : HashFn) (ds : List Bytes) (s : BStore E) (hr : s.Reliable) (hs : Intact H ds s.map)
    (n : Nat) (hn : n < p.leafLimit) (hle : n ≤ ds.length) :
    (∃ k s', Tree.load p s n = (.error (.err (.loadError k)), s') ∧ s'.map = s.map) ∨
    ∃ t s', Tree.load p s n = (.ok t, s') ∧
      ∀ ops, n + pushCount ops < p.leafLimit → indicesOk ops → (run p H ops t).1 = (specRun H ops (ds.take n)).1 := by
  rw [intact_iff] at hs
  obtain ⟨t', h1, hcase⟩ := load_spec p s hn
  rcases hl : Tree.load p s n with ⟨x | t, s'⟩
  · left
    rcases hcase with ⟨qs, e1, e2⟩ | ⟨pre, y, post, _, _, _, e4⟩ | ⟨e, he, e4⟩
    · rw [e2] at hl; simp at hl
    · rw [e4] at hl
      simp only [Prod.mk.injEq, Except.error.injEq] at hl
      exact ⟨_, s', by rw [← hl.1], by rw [← hl.2]; exact h1.map⟩
    · obtain ⟨c, f, _, hf, _⟩ := he
      rw [hr c] at hf; cases hf
  · right
    obtain ⟨h2, h3, h4⟩ := load_whole p hs.1 hs.2 hn hle hl
    refine ⟨t, s', rfl, fun ops ho hi => (run_refines p H ops h2 ?_ hi ?_).1⟩
    · rw [List.length_take, Nat.min_eq_left hle]; exact ho
    · intro k; rw [h4]; exact hr k

/-- Together: after any visits to an empty storage, once it works again, opening it at any count
gives `LoadError` or the tree over that many leaves of the list. -/
theorem C87_found (p : Profile) (H : HashFn) (ds : List Bytes) (hn : ds.length < p.leafLimit) (vs : List Visit)
    (hv : ∀ v ∈ vs, v.count ≤ ds.length) (s : BStore E) (hs : s.map = fun _ => none) (n : Nat) (hle : n ≤ ds.length) :
    (∃ k s', Tree.load p (healed (visits p H ds vs s)) n = (.error (.err (.loadError k)), s')) ∨
    ∃ t s', Tree.load p (healed (visits p H ds vs s)) n = (.ok t, s') ∧
      ∀ ops, n + pushCount ops < p.leafLimit → indicesOk ops → (run p H ops t).1 = (specRun H ops (ds.take n)).1 := by
  have h := (C87_visits p H ds hn vs hv s (by rw [hs]; exact C87_empty H ds)).1
  rcases C87_load p H ds (healed (visits p H ds vs s)) (fun _ => rfl) h n (by omega) hle with ⟨k, s', h1, _⟩ | h1
  · exact .inl ⟨k, s', h1⟩
  · exact .inr h1

namespace BinaryWhole

/-- Two leaves; the last write of the second push fails, with effect. Later the write of an inner
node fails again, without effect. -/
def twice : BStore Unit :=
  { map := fun _ => none, sched := fun t => if t = 2 then some ⟨(), true⟩ else if t = 5 then some ⟨(), false⟩ else none, clock := 0 }

/-- The storage after a client that tried to push `[1]` and `[2]`. -/
def once (p : Profile) : BStore Unit := visits p Sha256.sha256 [[1], [2]] [⟨0, 2⟩] twice

/-- What the last theorem says, to be evaluated. -/
def mixedStory (p : Profile) : Bool :=
  match pushAll p Sha256.sha256 [[1], [2]] (Tree.new twice) with
  | (.error (.err (.storageError ())), t₁) =>
    match Tree.load p t₁.storage 1 with
    | (.ok t₂, _) =>
      match push p Sha256.sha256 [3] t₂ with
      | (.error (.err (.storageError ())), t₃) =>
        match Tree.load p (healed t₃.storage) 2 with
        | (.ok t, _) =>
          match t.root p Sha256.sha256, prove p Sha256.sha256 1 t with
          | .ok r, (.ok (r', set), _) => t₁.leavesCount == 1 && r == mth Sha256.sha256 [[1], [2]] && r' == r &&
              set == [Sha256.sha256 [0, 3], Sha256.sha256 [0, 1]] &&
              (match Verify.verify p Sha256.sha256 r set 1 2 with | .ok b => !b | .error _ => false)
          | _, _ => false
        | _ => false
      | _ => false
    | _ => false
  | _ => false

theorem mixedStory_holds : ∀ p, mixedStory p = true := by
  rintro ⟨_ | _, _ | _, _ | _⟩ <;> decide +kernel

/-- The claim is not void: after the first client the tree of two leaves, never acknowledged, is
found, and it is the right one. -/
def foundStory : Bool :=
  match Tree.load ⟨true, true, .w64⟩ (healed (once ⟨true, true, .w64⟩)) 2 with
  | (.error _, _) => false
  | (.ok t, _) =>
    match t.root ⟨true, true, .w64⟩ Sha256.sha256 with
    | .ok r => r == mth Sha256.sha256 [[1], [2]]
    | _ => false

example : foundStory = true := by decide +kernel

/-- The hypotheses of the theorems are met. -/
example (p : Profile) : ([[1], [2]] : List Bytes).length < p.leafLimit ∧
    (∀ v ∈ [(⟨0, 2⟩ : Visit), ⟨2, 0⟩, ⟨1, 1⟩], v.count ≤ ([[1], [2]] : List Bytes).length) ∧ twice.map = fun _ => none :=
  ⟨p.lt_leafLimit (by decide), by decide, rfl⟩

example (p : Profile) : Intact Sha256.sha256 [[1], [2]] (healed (once p)).map ∧ (healed (once p)).Reliable :=
  ⟨(C87_visits p _ _ (p.lt_leafLimit (by decide)) _ (by decide) _ (C87_empty _ _)).1, fun _ => rfl⟩

end BinaryWhole

/-- One list for all clients is needed. If the client that comes after an unacknowledged push
pushes another leaf instead, in every build profile: both clients see their push fail, the storage
works again, and opening it at two leaves succeeds with the root of the first client's leaves,
while `prove(1)` returns the second client's leaf, and `verify` rejects that proof. -/
theorem C87_mixed (p : Profile) :
    ∃ (t₁ t₂ t₃ t : Tree Unit) (s₁ s : BStore Unit),
      pushAll p Sha256.sha256 [[1], [2]] (Tree.new BinaryWhole.twice) = (.error (.err (.storageError ())), t₁) ∧ t₁.leavesCount = 1 ∧
      Tree.load p t₁.storage 1 = (.ok t₂, s₁) ∧
      push p Sha256.sha256 [3] t₂ = (.error (.err (.storageError ())), t₃) ∧
      Tree.load p (healed t₃.storage) 2 = (.ok t, s) ∧
      t.root p Sha256.sha256 = .ok (mth Sha256.sha256 [[1], [2]]) ∧
      (prove p Sha256.sha256 1 t).1 = .ok (mth Sha256.sha256 [[1], [2]], [Sha256.sha256 [0, 3], Sha256.sha256 [0, 1]]) ∧
      Verify.verify p Sha256.sha256 (mth Sha256.sha256 [[1], [2]]) [Sha256.sha256 [0, 3], Sha256.sha256 [0, 1]] 1 2 = .ok false := by
  have h := BinaryWhole.mixedStory_holds p
  unfold BinaryWhole.mixedStory at h
  split at h
  next t₁ e1 =>
    split at h
    next t₂ s₁ e2 =>
      split at h
      next t₃ e3 =>
        split at h
        next t s e4 =>
          split at h
          next r r' set s' e5 e6 =>
            simp only [Bool.and_eq_true, beq_iff_eq] at h
            obtain ⟨⟨⟨⟨h0, h1⟩, h2⟩, h3⟩, h4⟩ := h
            subst h2 h3 h1
            refine ⟨t₁, t₂, t₃, t, s₁, s, e1, h0, e2, e3, e4, e5, by rw [e6], ?_⟩
            split at h4
            next b e7 => rw [e7]; cases b <;> simp_all
            · cases h4
          · cases h
        · cases h
      · cases h
    · cases h
  · cases h

end FuelMerkle.Props
