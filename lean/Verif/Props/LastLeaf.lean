import Verif.Proofs.LastLeaf
import Verif.Props.Pruned
import Verif.Props.CachedProof

/-
Property C112: the proof of the last leaf is all that is needed to go on with a tree elsewhere.
-/
namespace FuelMerkle.Props
open FuelMerkle.Binary FuelMerkle.Spec FuelMerkle.Verify

variable {E E' : Type}

/-- **C112**. The proof of the last leaf consists of the hash of the leaf and the Merkle hashes of the
largest complete subtrees of the leaves before it, from the right. -/
theorem C112_last_proof (p : Profile) (H : HashFn) (s : BStore E) (ds : List Bytes) (d : Bytes) (hn : (ds ++ [d]).length < p.leafLimit)
    (t t1 : Tree E) (ht : pushAll p H (ds ++ [d]) (Tree.new s) = (.ok (), t)) (root : Bytes32) (set : List Bytes32)
    (hp : prove p H ds.length t = (.ok (root, set), t1)) :
    set = H ([0x00] ++ d) :: ((peaks 64 0 ds.length).map fun x => mth H (stretch ds x)).reverse := by
  have hlim := p.leafLimit_le
  have hl : (ds ++ [d]).length = ds.length + 1 := by simp
  rw [returned_proof p H s _ hn t t1 ht ds.length (by omega) root set hp, auditPath_last_peaks H ds d (by omega)]
  simp

/-- **C112**. A client knows the root of a list of leaves (here: of a tree over `ds` and one more leaf,
somewhere else) and its number of leaves. It is given data and a proof, which the verifier accepts for the
last leaf. It files the elements of the proof, from the last one, under the keys of the largest complete
subtrees of one leaf less; other keys do not matter. Then it can load a tree with one leaf less, push
the data and any further leaves, and gets the roots and proofs of the complete list; or there is a
collision. -/
theorem C112_start (p p' : Profile) (H : HashFn) (s0 : BStore E) (ds : List Bytes) (d : Bytes) (es : List Bytes)
    (hn : (ds ++ d :: es).length < p'.leafLimit) (t0 : Tree E) (ht : pushAll p H (ds ++ [d]) (Tree.new s0) = (.ok (), t0))
    (root : Bytes32) (hr : t0.root p H = .ok root) (d' : Bytes) (rest : List Bytes32)
    (hv : verify p H root (H ([0x00] ++ d') :: rest) ds.length (ds.length + 1) = .ok true)
    (s : BStore E') (hs : s.Reliable)
    (hrec : ∀ (j : Nat) x h, (peaks 64 0 ds.length)[j]? = some x → rest.reverse[j]? = some h → s.map (topKey x) = some (topKey x, h)) :
    (d' = d ∧ ∃ t s1 u, Tree.load p' s ds.length = (.ok t, s1) ∧ pushAll p' H (d' :: es) t = (.ok (), u) ∧
      u.root p' H = .ok (mth H (ds ++ d :: es)) ∧
      ∀ i (hi : i < (ds ++ d :: es).length), ds.length ≤ i → ∃ u',
        prove p' H i u = (.ok (mth H (ds ++ d :: es), H ([0x00] ++ (ds ++ d :: es)[i]) :: auditPath H i (ds ++ d :: es)), u')) ∨
    Collide H (mthMsgs H (ds ++ [d])) (([0x00] ++ d') ::
      climbMsgs H (H ([0x00] ++ d')) ((sidesOf ds.length (ds.length + 1) rest.length).zip rest)) := by
  have hlim := p'.leafLimit_le
  have hl : (ds ++ [d]).length = ds.length + 1 := by simp
  have hl' : (ds ++ d :: es).length = ds.length + (es.length + 1) := by simp
  have hu := C79_proof_unique p H s0 (ds ++ [d]) (by omega) t0 ht root hr ds.length d' rest (by rw [hl]; exact hv)
  rw [hl] at hu
  rcases hu with ⟨h1, h2⟩ | hc
  · have hd : d' = d := by simpa using h1.symm
    subst hd
    refine .inl ⟨rfl, ?_⟩
    have hp : HasPeaks H ds s.map := by
      intro x hx
      obtain ⟨j, hj⟩ := List.getElem?_of_mem hx
      refine hrec j x _ hj ?_
      rw [h2, auditPath_last_peaks H ds d' (by omega), List.reverse_reverse, List.getElem?_map, hj]
      rfl
    obtain ⟨t, s1, u, k1, k2, k3, k4, _, _⟩ := C111_pruned p' H s hs ds (d' :: es) hn hp
    rw [if_neg (by simp)] at k3
    exact ⟨t, s1, u, k1, k2, k3, k4⟩
  · exact .inr hc

/-- Hypotheses met: the root of three leaves, the proof of the third, and a storage with one record. -/
example (p : Profile) (H : HashFn) : ∃ (ds : List Bytes) (d : Bytes) (t0 : Tree Unit) (root : Bytes32) (rest : List Bytes32) (s : BStore Unit),
    ds.length = 2 ∧ pushAll p H (ds ++ [d]) (Tree.new Store.empty) = (.ok (), t0) ∧ t0.root p H = .ok root ∧
    verify p H root (H ([0x00] ++ d) :: rest) ds.length (ds.length + 1) = .ok true ∧ s.Reliable ∧
    (∀ (j : Nat) x h, (peaks 64 0 ds.length)[j]? = some x → rest.reverse[j]? = some h → s.map (topKey x) = some (topKey x, h)) ∧
    ∀ k, k ≠ 1 → s.map k = none := by
  let ds : List Bytes := [[1], [2]]
  obtain ⟨t, t', root, set, h1, h2, h3, h4⟩ := C05_generated_proofs_verify (E := Unit) p H Store.empty (fun _ => rfl) (ds ++ [[3]])
    (p.lt_leafLimit (by decide)) 2 (by decide)
  have hset := C112_last_proof p H Store.empty ds [3] (p.lt_leafLimit (by decide)) t t' h1 root set h3
  have hpk : peaks 64 0 ds.length = [(0, 2)] := by decide +kernel
  rw [hpk] at hset
  subst hset
  refine ⟨ds, [3], t, root, _, ⟨fun k => if k = 1 then some (1, mth H ds) else none, fun _ => none, 0⟩, rfl, h1, h2, h4, fun _ => rfl, ?_, ?_⟩
  · intro j x h hj hh
    rw [hpk] at hj
    match j, hj with
    | 0, hj =>
      obtain rfl := Option.some.inj hj
      obtain rfl := Option.some.inj hh
      rfl
  · intro k hk
    simp only [if_neg hk]

end FuelMerkle.Props
