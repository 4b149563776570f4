import Verif.Proofs.AnyStorageAppend
import Verif.Props.AnyStorageStale

/-
C97: binary trees over one list of leaves, on storage that never makes things up, but may forget and go back in time.
-/
namespace FuelMerkle.Props
open FuelMerkle Spec Binary Binary.Any
variable {S E : Type}

set_option maxRecDepth 100000

/-- **C97**. Any number of binary trees over the same list of leaves are on a storage that never makes up a record, but
may fail, lose records, bring back lost and overwritten ones, and answer differently from one call to the next. Trees
are made new, loaded at counts within the list, pushed the next leaf, and asked for roots and proofs, in any order; a
tree on which a push failed is not used until it is made new or loaded. Then no request panics; every root answered is
that of the leaves of the tree; every proof answered is the right one; a `load`, a push and a proof of a leaf the tree
has can fail only with an error of the storage or because a record was not there. And in the end every tree that was
not given up has the root of its leaves. -/
theorem C97_right {B : Backend S Nat Prim E} {seen : S → Nat → Prim → Prop} (p : Profile) (H : HashFn) (L : List Bytes) (s : S) (ws : List Wish)
    (hB : NoInvention B seen) (hL : L.length < p.leafLimit) (hw : ∀ w ∈ ws, w.InRange L) (hs : Trusted H L seen s) :
    (Watch.start s).AllRight B p H L ws ∧
      ∀ i n, ((Watch.start s).after B p H L ws).count i = some n →
        (⟨((Watch.start s).after B p H L ws).bench.storage, ((Watch.start s).after B p H L ws).bench.head i,
          ((Watch.start s).after B p H L ws).bench.count i⟩ : Any.Tree S).root p H = .ok (if n = 0 then emptySum else mth H (L.take n)) := by
  have hl := p.leafLimit_le
  obtain ⟨h1, h2⟩ := allRight hB p hL ws _ hw (good_start hs)
  exact ⟨h1, fun i n hn => (h2.grown i n hn).root p (by omega) _⟩

/-- **C97**, the storage: whatever happened, what can come back for the nodes of the list is right, so the theorem
applies again after all trees are dropped. -/
theorem C97_trusted {B : Backend S Nat Prim E} {seen : S → Nat → Prim → Prop} (p : Profile) (H : HashFn) (L : List Bytes) (s : S) (ws : List Wish)
    (hB : NoInvention B seen) (hL : L.length < p.leafLimit) (hw : ∀ w ∈ ws, w.InRange L) (hs : Trusted H L seen s) :
    Trusted H L seen ((Watch.start s).after B p H L ws).bench.storage :=
  trusted_pure.2 (allRight hB p hL ws _ hw (good_start hs)).2.pure

/-- **C97**, a fresh start: a state in which nothing can come back is a good one. -/
theorem C97_fresh {seen : S → Nat → Prim → Prop} (H : HashFn) (L : List Bytes) (s : S) (hs : ∀ x q, ¬ seen s x q) : Trusted H L seen s :=
  fun _ _ _ q hq => absurd hq (hs _ q)

/-- **C97**, the trees of the program: what was done for the wishes, as calls of the program, has these replies. The
trees are those of `Model/AnyStorage.lean`; the expected counts are not part of the program. -/
theorem C97_replies {B : Backend S Nat Prim E} (p : Profile) (H : HashFn) (L : List Bytes) : ∀ (ws : List Wish) (c : Watch S),
    c.bench.acts B p H ((c.log B p H L ws).map Prod.fst) = ((c.log B p H L ws).map Prod.snd, (c.after B p H L ws).bench)
  | [], c => rfl
  | w :: ws, c => by
    have h := C97_replies (B := B) p H L ws (c.grant B p H L w).2
    unfold Watch.after Watch.log
    cases ha : c.asked L w with
    | none =>
      have hg : c.grant B p H L w = (none, c) := by simp only [Watch.grant, ha]
      rw [hg] at h ⊢
      exact h
    | some a =>
      have hg : c.grant B p H L w = (some (a, (c.bench.act B p H a).1), ⟨(c.bench.act B p H a).2, c.expect a (c.bench.act B p H a).1⟩) := by
        simp only [Watch.grant, ha]
      rw [hg] at h ⊢
      simp only [Option.toList, List.singleton_append, List.map_cons, Any.Bench.acts]
      simp only at h
      rw [h]

namespace AnyStorageAppend
open AnyStorageStale (Moody moody moody_noInvention build)

/-! ### The hypotheses can be met -/

/-- Six leaves. -/
def leaves : List Bytes := [[1], [2, 2], [], [4], [5], [6]]

/-- Two trees: pushes, one of which fails at its last write; the tree is not asked for its root, and loaded, first in
vain; it goes on to the end of the list; proofs, two of which fail, one of an index the tree does not have; the second
tree writes the first leaves again, is made new, and loaded at the end of the list. -/
def sampleWishes : List Wish :=
  [.push 0, .push 0, .push 0, .push 0, .root 0, .load 0 3, .load 0 3, .root 0, .push 0, .prove 0 3, .prove 0 1, .prove 0 1, .push 1, .push 1, .push 0,
    .push 0, .push 0, .prove 1 1, .prove 1 2, .prove 0 5, .new 1, .root 1, .load 1 6, .root 1, .prove 1 4]

/-- The moods of the storage at its calls. -/
def sampleStorage : Moody Nat Prim :=
  ⟨[], [0, 0, 0, 0, 0, 0, 8, 0, 9, 0, 0, 0, 0, 0, 0, 0, 0, 0, 9, 0, 8]⟩

/-- How a wish ended: not asked, an answer, an error of the storage, a missing record, a refused index, a panic. -/
def ending : Option (Action × Reply String) → Nat
  | none => 0
  | some (_, .new) => 1
  | some (_, .load (.ok _)) => 1
  | some (_, .call (.push (.ok _))) => 1
  | some (_, .call (.root (.ok _))) => 1
  | some (_, .call (.prove (.ok _))) => 1
  | some (_, .load (.error (.err (.storageError _)))) => 2
  | some (_, .call (.push (.error (.err (.storageError _))))) => 2
  | some (_, .call (.prove (.error (.err (.storageError _))))) => 2
  | some (_, .load (.error (.err (.loadError _)))) => 3
  | some (_, .call (.prove (.error (.err (.loadError _))))) => 3
  | some (_, .call (.prove (.error (.err (.invalidProofIndex _))))) => 4
  | _ => 5

/-- The endings of all wishes. -/
def endings (L : List Bytes) : List Wish → Watch (Moody Nat Prim) → List Nat
  | [], _ => []
  | w :: ws, c => ending (c.grant moody build Tests.toyHash L w).1 :: endings L ws (c.grant moody build Tests.toyHash L w).2

/-- The hypotheses of the theorems are met. -/
example : NoInvention (moody (K := Nat) (V := Prim)) (fun s k v => (k, v) ∈ s.past) ∧ leaves.length < build.leafLimit ∧
    (∀ w ∈ sampleWishes, w.InRange leaves) ∧ Trusted Tests.toyHash leaves (fun s k v => (k, v) ∈ s.past) sampleStorage := by
  refine ⟨moody_noInvention, by decide, ?_, C97_fresh _ _ _ fun x q h => by cases h⟩
  simp [sampleWishes, Wish.InRange, leaves]

/-- The fourth push fails and the tree is given up: its root is not asked for. The first `load` and two of the proofs
fail too. In the end both trees have all leaves. -/
example : endings leaves sampleWishes (.start sampleStorage) = [1, 1, 1, 2, 0, 3, 1, 1, 1, 1, 3, 2, 1, 1, 1, 1, 0, 1, 4, 1, 1, 1, 1, 1, 1] ∧
    ((Watch.start sampleStorage).after moody build Tests.toyHash leaves (sampleWishes.take 4)).count 0 = none ∧
    ((Watch.start sampleStorage).after moody build Tests.toyHash leaves sampleWishes).count 0 = some 6 ∧
    ((Watch.start sampleStorage).after moody build Tests.toyHash leaves sampleWishes).count 1 = some 6 := by
  decide +kernel

end AnyStorageAppend
end FuelMerkle.Props
