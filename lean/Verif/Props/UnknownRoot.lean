import Verif.Proofs.UnknownRoot
import Verif.Props.VerifyTotal
import Verif.Props.ProofSize

/-
Property C109: what accepted proofs say about a root of unknown origin. A client has a root that
somebody announced; whether any tree has that root is not known.
-/
namespace FuelMerkle.Props
open FuelMerkle.Binary FuelMerkle.Spec FuelMerkle.Verify

/-- What acceptance means, for every build profile, index and count. -/
theorem accepted (p : Profile) (H : HashFn) (root first : Bytes32) (rest : List Bytes32) (i n : Nat) (hn : n < 2 ^ 64)
    (h : verify p H root (first :: rest) i n = .ok true) :
    i < n ∧ (sidesOf i n rest.length).length = rest.length ∧ climb H first ((sidesOf i n rest.length).zip rest) = root := by
  have main : ∀ q : Profile, q.overflowChecks = false → verify q H root (first :: rest) i n = .ok true →
      i < n ∧ (sidesOf i n rest.length).length = rest.length ∧ climb H first ((sidesOf i n rest.length).zip rest) = root := by
    intro q hq h
    obtain ⟨b, hb, hiff⟩ := C70_unchecked_answers q hq H root first rest i n hn
    rw [h] at hb
    obtain ⟨h1, h2, h3, _⟩ := hiff.1 (Except.ok.inj hb).symm
    exact ⟨h1, by simp [sidesOf]; omega, h3⟩
  cases hp : p.overflowChecks
  · exact main p hp h
  · rcases C70_builds_agree p { p with overflowChecks := false } hp rfl H root (first :: rest) i n hn with he | ⟨b, h1, h2⟩
    · rw [h] at he; cases he
    · rw [h] at h1
      rw [← Except.ok.inj h1] at h2
      exact main _ rfl h2

/-- **C109**. For one root, index and count there are no two accepted proof sets of the same length,
whatever their first elements are, unless two messages the verifier hashes for them collide. The
two checks may run in different builds. -/
theorem C109_same_length (p p' : Profile) (H : HashFn) (root first first' : Bytes32) (rest rest' : List Bytes32) (i n : Nat)
    (hn : n < 2 ^ 64) (hl : rest.length = rest'.length)
    (h : verify p H root (first :: rest) i n = .ok true) (h' : verify p' H root (first' :: rest') i n = .ok true) :
    (first = first' ∧ rest = rest') ∨
      Collide H (climbMsgs H first ((sidesOf i n rest.length).zip rest)) (climbMsgs H first' ((sidesOf i n rest.length).zip rest')) := by
  obtain ⟨_, h1, h2⟩ := accepted p H root first rest i n hn h
  obtain ⟨_, _, h3⟩ := accepted p' H root first' rest' i n hn h'
  rw [← hl] at h3
  exact climb_inj H _ first first' rest rest' h1.symm (by rw [h1, hl]) (h2.trans h3.symm)

/-- **C109**. So a client that insists on the length that belongs to index and count (C79) can be
shown at most one piece of data for an index of an announced root. -/
theorem C109_one_leaf (p p' : Profile) (H : HashFn) (root : Bytes32) (d d' : Bytes) (rest rest' : List Bytes32) (i n : Nat)
    (hn : n < 2 ^ 64) (hl : rest.length = pathLength i n) (hl' : rest'.length = pathLength i n)
    (h : verify p H root (H ([0x00] ++ d) :: rest) i n = .ok true)
    (h' : verify p' H root (H ([0x00] ++ d') :: rest') i n = .ok true) :
    (d = d' ∧ rest = rest') ∨
      Collide H (([0x00] ++ d) :: climbMsgs H (H ([0x00] ++ d)) ((sidesOf i n rest.length).zip rest))
        (([0x00] ++ d') :: climbMsgs H (H ([0x00] ++ d')) ((sidesOf i n rest.length).zip rest')) := by
  rcases C109_same_length p p' H root _ _ rest rest' i n hn (hl.trans hl'.symm) h h' with ⟨h1, h2⟩ | hc
  · by_cases hd : d = d'
    · exact .inl ⟨hd, h2⟩
    · exact .inr ⟨_, List.mem_cons_self, _, List.mem_cons_self, fun he => hd (List.append_cancel_left he), h1⟩
  · exact .inr (collide_mono hc (fun _ h => List.mem_cons_of_mem _ h) (fun _ h => List.mem_cons_of_mem _ h))

/-- **C109**. Without the check of the length this is false, for every hash function and any two
pieces of data: there is a root and there are two accepted proofs for index 0 of 2 with different
data, and with no collision needed. -/
theorem C109_two_leaves (p : Profile) (H : HashFn) (d d' : Bytes) : ∃ (root : Bytes32) (rest rest' : List Bytes32),
    verify p H root (H ([0x00] ++ d) :: rest) 0 2 = .ok true ∧ verify p H root (H ([0x00] ++ d') :: rest') 0 2 = .ok true ∧
    rest.length = pathLength 0 2 ∧ rest'.length = pathLength 0 2 + 1 := by
  let a := H ([0x00] ++ d)
  let b := H (stepMsg (H ([0x00] ++ d')) false zero32)
  have hf : forcedSides 0 2 = [false] := by decide +kernel
  have hp : pathLength 0 2 = 1 := by decide +kernel
  have acc : ∀ root first rest, 1 ≤ rest.length → climb H first ((sidesOf 0 2 rest.length).zip rest) = root →
      verify p H root (first :: rest) 0 2 = .ok true := by
    intro root first rest h1 h2
    obtain ⟨c, hc, hi⟩ := verify_eq p H root first rest (i := 0) (n := 2) (by decide)
    rw [hc, hi.2 ⟨by decide, by rw [hf]; exact h1, h2⟩]
  refine ⟨H (stepMsg a false b), [b], [zero32, a], acc _ _ _ (by simp) ?_, acc _ _ _ (by simp) ?_, by rw [hp]; rfl, by rw [hp]; rfl⟩
  · simp only [sidesOf, hf]; rfl
  · simp only [sidesOf, hf]; rfl

/-- **C109**. If for every index below the announced count a proof with the right length is accepted,
the announced root is the RFC 6962 root of the data shown in the proofs, so there is a tree with that
root; or two messages hashed in checking the proofs collide. -/
theorem C109_all_leaves (p : Profile) (H : HashFn) (root : Bytes32) (ds : List Bytes) (h0 : ds ≠ []) (hn : ds.length < 2 ^ 63)
    (rest : Nat → List Bytes32) (hl : ∀ i, i < ds.length → (rest i).length = pathLength i ds.length)
    (hv : ∀ i d, ds[i]? = some d → verify p H root (H ([0x00] ++ d) :: rest i) i ds.length = .ok true) :
    root = mth H ds ∨ ∃ i j d e, ds[i]? = some d ∧ ds[j]? = some e ∧
      Collide H (climbMsgs H (H ([0x00] ++ d)) ((sidesOf i ds.length (rest i).length).zip (rest i)))
        (climbMsgs H (H ([0x00] ++ e)) ((sidesOf j ds.length (rest j).length).zip (rest j))) := by
  have := climb_all H root ds.length ds (fun i => ((sidesOf i ds.length (rest i).length).zip (rest i)).reverse) rfl h0 (by
    intro i d hi
    obtain ⟨h1, h2, h3⟩ := accepted p H root _ (rest i) i ds.length (by omega) (hv i d hi)
    refine ⟨?_, by rw [List.reverse_reverse]; exact h3⟩
    rw [List.map_reverse, List.map_fst_zip (by omega), hl i h1]
    exact leafAt_sidesOf hn h1)
  simpa only [List.reverse_reverse] using this

/-- **C109**. So one announced root cannot be shown complete for two different lists, of the same or
of different lengths: the two announced counts agree and so does all the data, or there is a collision
between messages hashed in checking the proofs or in computing the roots of the two lists. -/
theorem C109_one_list (p p' : Profile) (H : HashFn) (root : Bytes32) (ds es : List Bytes) (h0 : ds ≠ []) (h0' : es ≠ [])
    (hn : ds.length < 2 ^ 63) (hn' : es.length < 2 ^ 63) (rest rest' : Nat → List Bytes32)
    (hl : ∀ i, i < ds.length → (rest i).length = pathLength i ds.length)
    (hl' : ∀ i, i < es.length → (rest' i).length = pathLength i es.length)
    (hv : ∀ i d, ds[i]? = some d → verify p H root (H ([0x00] ++ d) :: rest i) i ds.length = .ok true)
    (hv' : ∀ i d, es[i]? = some d → verify p' H root (H ([0x00] ++ d) :: rest' i) i es.length = .ok true) :
    ds = es ∨ Collide H (mthMsgs H ds) (mthMsgs H es) ∨
      (∃ i j d e, ds[i]? = some d ∧ ds[j]? = some e ∧
        Collide H (climbMsgs H (H ([0x00] ++ d)) ((sidesOf i ds.length (rest i).length).zip (rest i)))
          (climbMsgs H (H ([0x00] ++ e)) ((sidesOf j ds.length (rest j).length).zip (rest j)))) ∨
      (∃ i j d e, es[i]? = some d ∧ es[j]? = some e ∧
        Collide H (climbMsgs H (H ([0x00] ++ d)) ((sidesOf i es.length (rest' i).length).zip (rest' i)))
          (climbMsgs H (H ([0x00] ++ e)) ((sidesOf j es.length (rest' j).length).zip (rest' j)))) := by
  rcases C109_all_leaves p H root ds h0 hn rest hl hv with h | h
  · rcases C109_all_leaves p' H root es h0' hn' rest' hl' hv' with h' | h'
    · rcases mth_commits H _ ds es rfl (h.symm.trans h') with hh | hh
      · exact .inl hh
      · exact .inr (.inl hh)
    · exact .inr (.inr (.inr h'))
  · exact .inr (.inr (.inl h))

/-- The hypotheses of `C109_all_leaves`, and (twice) of `C109_one_list`, are met by the proofs of a tree. -/
example (p : Profile) (H : HashFn) : ∃ (root : Bytes32) (rest : Nat → List Bytes32),
    (∀ i, i < sampleLeaves.length → (rest i).length = pathLength i sampleLeaves.length) ∧
    ∀ i d, sampleLeaves[i]? = some d → verify p H root (H ([0x00] ++ d) :: rest i) i sampleLeaves.length = .ok true := by
  refine ⟨mth H sampleLeaves, fun i => auditPath H i sampleLeaves, fun i hi => C79_audit_path_length H _ i hi, ?_⟩
  intro i d hi
  obtain ⟨h1, rfl⟩ := List.getElem?_eq_some_iff.1 hi
  have hl : sampleLeaves.length < p.leafLimit := p.lt_leafLimit (by decide)
  obtain ⟨t, t', root, set, h2, h3, h4, h5⟩ := C05_generated_proofs_verify (E := Unit) p H Store.empty (fun _ => rfl) sampleLeaves hl i h1
  obtain ⟨u, u', k2, k3, k4⟩ := C03_binary_proof (E := Unit) p H Store.empty (fun _ => rfl) sampleLeaves hl i h1
  rw [h2] at k2
  obtain rfl := (Prod.mk.inj k2).2
  rw [h4] at k4
  have := Except.ok.inj (Prod.mk.inj k4).1
  rw [Prod.mk.injEq] at this
  rw [this.1, this.2] at h5
  exact h5

/-- Two different accepted proof sets of the right length: with a hash function that maps everything
to one value, `C109_one_leaf` can only report a collision. -/
example (p : Profile) : ∃ (H : HashFn) (root : Bytes32) (d d' : Bytes) (rest rest' : List Bytes32), d ≠ d' ∧
    rest.length = pathLength 0 2 ∧ rest'.length = pathLength 0 2 ∧
    verify p H root (H ([0x00] ++ d) :: rest) 0 2 = .ok true ∧ verify p H root (H ([0x00] ++ d') :: rest') 0 2 = .ok true := by
  obtain ⟨root, rest, _, h1, _, h2, _⟩ := C109_two_leaves p (fun _ => zero32) [1] [2]
  exact ⟨fun _ => zero32, root, [1], [2], rest, rest, by decide, h2, h2, h1, h1⟩

end FuelMerkle.Props
