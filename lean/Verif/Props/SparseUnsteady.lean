import Verif.Proofs.SparseUnsteady
import Verif.Props.SparseSessions

/-
C78: sparse trees on storage that loses records or brings back older ones.
-/
namespace FuelMerkle.Props
open FuelMerkle Spec Sparse
variable {E : Type}

set_option maxRecDepth 100000

/-- The hash function behaves on everything that was hashed or used as a key by the calls. -/
def IdealSetting (H : HashFn) (w : Setting E) : Prop := IdealLog H ⟨w.tree.storage, w.acks⟩

/-- **C78**. Between calls the storage may lose any records and bring back any older ones, even a
different age for every key, it may fail in any way during calls, and trees may be opened anew or
loaded at any root reported before. Still every root reported is the root of the map made by the
calls that succeeded on that branch, the open tree has the root of its map, and no call panics. -/
theorem C78_roots_right (p : Profile) (H : HashFn) (w : Setting E) (h : Arises p H w) (hi : IdealSetting H w) :
    w.tree.root H = rootOf H w.kv ∧
      ∀ a ∈ w.acks, a.root = rootOf H a.after ∧ ∀ q, a.event.out ≠ .error (.panic q) := by
  have i := arises_ok p hi.1.env h hi.covered
  obtain ⟨t, hrep⟩ := i.rep
  exact ⟨hrep.root_eq hi.1.env, fun a ha => ⟨(i.acks a ha).root_eq, (i.acks a ha).nopanic⟩⟩

/-- **C78**. Loading a reported root from such a storage gives that root or an error. -/
theorem C78_reopened_root (p : Profile) (H : HashFn) (w : Setting E) (h : Arises p H w) (hi : IdealSetting H w)
    (a : Ack E) (ha : a ∈ w.acks) (hr : a.root ≠ zero32) (t : Tree E) (s : SpStore E)
    (hl : Tree.load w.tree.storage a.root = (.ok t, s)) : t.root H = a.root := by
  have h2 := C78_roots_right p H _ (.reopen w a ha hr t s hl h) hi
  rw [h2.1, ((C78_roots_right p H w h hi).2 a ha).1]

/-- **C78**: the price of a lost record. If the record filed under a key is lost, deleting the key
answers `Ok` and changes nothing, whether or not the tree has the key. -/
theorem C78_lost_record_delete (p : Profile) (H : HashFn) (k : Bytes32) (t : Tree E) (hs : t.storage.Reliable)
    (hk : t.storage.map k = none) :
    ∃ t', delete p H k t = (.ok (), t') ∧ t'.root H = t.root H ∧ t'.storage.map = t.storage.map := by
  by_cases hz : t.root H = zeroSum
  · exact ⟨t, by simp [delete, hz, Exec.get_bind], rfl, rfl⟩
  · refine ⟨{ t with storage := { t.storage with clock := t.storage.clock + 1 } }, ?_, rfl, rfl⟩
    simp only [delete, Exec.get_bind, if_neg hz]
    rw [Exec.bind_ok (show onStorage (Store.get k) t = (.ok none, _) by simp only [onStorage, Store.get_none _ (hs _), hk]; rfl)]
    rfl

/-! A story: two keys are stored; the record under the second key is lost and the key deleted, which
does nothing; the record is back and the key is deleted; the storage is rolled back to a moment when
both keys were there, the root of that moment is loaded and the first key deleted. -/

def lossStore : SpStore Unit := ⟨fun _ => none, fun _ => none, 0⟩
def loss0 : Setting Unit := ⟨fun _ _ => False, [], [], Tree.new lossStore⟩
def loss1 : Setting Unit := (loss0.call ⟨true, true, .w64⟩ Tests.toyHash (.update keyA [1])).call ⟨true, true, .w64⟩ Tests.toyHash (.update keyB [2])
def loss2 : Setting Unit :=
  { loss1 with tree := { loss1.tree with storage := { loss1.tree.storage with map := fun k => if k = keyB then none else loss1.tree.storage.map k } } }
def loss3 : Setting Unit := loss2.call ⟨true, true, .w64⟩ Tests.toyHash (.delete keyB)
def loss4 : Setting Unit := { loss3 with tree := { loss3.tree with storage := loss1.tree.storage } }
def loss5 : Setting Unit := loss4.call ⟨true, true, .w64⟩ Tests.toyHash (.delete keyB)
def loss6 : Setting Unit := { loss5 with tree := { loss5.tree with storage := loss1.tree.storage } }

theorem loss_arises : Arises ⟨true, true, .w64⟩ Tests.toyHash loss6 := by
  have h1 : Arises ⟨true, true, .w64⟩ Tests.toyHash loss1 := .call _ _ (.call _ _ (.start lossStore fun _ => rfl))
  refine .change _ _ (fun k q h => .inl (.inl (.inr h))) (.call _ _ (.change _ _ (fun k q h => .inl (.inr h)) (.call _ _ (.change _ _ (fun k q h => ?_) h1))))
  by_cases hk : k = keyB
  · simp [hk] at h
  · simp [hk] at h; exact .inr h

example : Arises ⟨true, true, .w64⟩ Tests.toyHash loss6 ∧ IdealSetting Tests.toyHash loss6 ∧
    loss6.acks.map (fun a => (a.event.out.toBool, a.after)) =
      [(true, [(keyA, [1])]), (true, [(keyB, [2]), (keyA, [1])]), (true, [(keyB, [2]), (keyA, [1])]), (true, [(keyA, [1])])] :=
  ⟨loss_arises, ⟨⟨by decide +kernel, by decide +kernel, by decide +kernel⟩, noPhantom_of_keys (by decide +kernel)⟩, by decide +kernel⟩

example : (match Tree.load loss6.tree.storage (rootOf Tests.toyHash [(keyB, [2]), (keyA, [1])]) with
      | (.ok t, _) => decide (t.root Tests.toyHash ≠ loss6.tree.root Tests.toyHash)
      | _ => false) = true ∧
    rootOf Tests.toyHash [(keyB, [2]), (keyA, [1])] ∈ loss6.acks.map Ack.root ∧
    rootOf Tests.toyHash [(keyB, [2]), (keyA, [1])] ≠ zero32 := by
  decide +kernel

example : loss2.tree.storage.Reliable ∧ loss2.tree.storage.map keyB = none ∧ (keyB, [2]) ∈ loss2.kv :=
  ⟨fun _ => by rfl, by decide +kernel, by decide +kernel⟩

end FuelMerkle.Props
