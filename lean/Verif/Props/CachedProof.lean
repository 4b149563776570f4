import Verif.Proofs.CachedProof
import Verif.Proofs.Reference
import Verif.Props.ProofSize

/-
Property C110: what a proof kept by a client is worth after more leaves have been pushed. The aligned
block of `2 ^ k` leaves around leaf `i` consists of the leaves `i / 2 ^ k * 2 ^ k` to
`(i / 2 ^ k + 1) * 2 ^ k - 1`; it is full in a list of `n` leaves if `(i / 2 ^ k + 1) * 2 ^ k ≤ n`.
-/
namespace FuelMerkle.Props
open FuelMerkle.Binary FuelMerkle.Spec

variable {E E' : Type}

/-- A proof that the library returns consists of the leaf and its audit path. -/
theorem proof_of_inv (p : Profile) (H : HashFn) (ds : List Bytes) (t t1 : Tree E) (h1 : Inv H ds t) (hn : ds.length < p.leafLimit)
    (i : Nat) (hi : i < ds.length) (root : Bytes32) (set : List Bytes32)
    (hp : prove p H i t = (.ok (root, set), t1)) : set = H ([0x00] ++ ds[i]) :: auditPath H i ds := by
  obtain ⟨t', _, h2 | ⟨e, _, h2⟩⟩ := prove_spec p H ds t h1 hn hi
  · rw [hp] at h2
    exact (Prod.mk.inj (Except.ok.inj (Prod.mk.inj h2).1)).2
  · rw [hp] at h2
    cases (Prod.mk.inj h2).1

theorem returned_proof (p : Profile) (H : HashFn) (s : BStore E) (ds : List Bytes) (hn : ds.length < p.leafLimit) (t t1 : Tree E)
    (ht : pushAll p H ds (Tree.new s) = (.ok (), t)) (i : Nat) (hi : i < ds.length) (root : Bytes32) (set : List Bytes32)
    (hp : prove p H i t = (.ok (root, set), t1)) : set = H ([0x00] ++ ds[i]) :: auditPath H i ds := by
  have hlim := p.leafLimit_le
  obtain ⟨h1, _, _⟩ := pushAll_ok_inv p H ds (Inv.new H s) (by simp; omega) ht
  rw [List.nil_append] at h1
  exact proof_of_inv p H ds t t1 h1 hn i hi root set hp

theorem kept_path (H : HashFn) (ds es : List Bytes) (i k : Nat) (hk : (i / 2 ^ k + 1) * 2 ^ k ≤ ds.length) (hi : i < ds.length)
    (hi' : i < (ds ++ es).length) :
    k + 1 ≤ (H ([0x00] ++ ds[i]) :: auditPath H i ds).length ∧
    k + 1 ≤ (H ([0x00] ++ (ds ++ es)[i]) :: auditPath H i (ds ++ es)).length ∧
    (H ([0x00] ++ (ds ++ es)[i]) :: auditPath H i (ds ++ es)).take (k + 1) = (H ([0x00] ++ ds[i]) :: auditPath H i ds).take (k + 1) := by
  have h2 := Nat.two_pow_pos k
  have hl : (ds ++ es).length = ds.length + es.length := List.length_append
  obtain ⟨r1, p1, -⟩ := auditPath_block H k _ ds i rfl hk
  obtain ⟨r2, p2, -⟩ := auditPath_block H k _ (ds ++ es) i rfl (by omega)
  have hk' : i / 2 ^ k * 2 ^ k + 2 ^ k ≤ ds.length := by rw [Nat.add_mul, Nat.one_mul] at hk; exact hk
  have hblk : ((ds ++ es).drop (i / 2 ^ k * 2 ^ k)).take (2 ^ k) = (ds.drop (i / 2 ^ k * 2 ^ k)).take (2 ^ k) := by
    rw [List.drop_append_of_le_length (by omega), List.take_append_of_le_length (by rw [List.length_drop]; omega)]
  have hb : ((ds.drop (i / 2 ^ k * 2 ^ k)).take (2 ^ k)).length = 2 ^ k := by
    rw [List.length_take, List.length_drop]; omega
  have hlen := Reference.auditPath_length H k _ (i % 2 ^ k) hb (by rw [hb]; exact Nat.mod_lt _ h2)
  rw [hblk] at p2
  rw [p1, p2, List.getElem_append_left hi]
  refine ⟨by simp [hlen], by simp [hlen], ?_⟩
  rw [List.take_succ_cons, List.take_succ_cons, List.take_left' hlen, List.take_left' hlen]

/-- **C110**. The beginning of a proof stays as it is when leaves are pushed: if the aligned block of
`2 ^ k` leaves around leaf `i` is full, the first `k + 1` elements of the proof (the leaf and `k`
siblings) are there and are those of every proof of that leaf in a longer list, whatever the leaves
pushed later are; the storages and the builds may be different. -/
theorem C110_kept (p p' : Profile) (H : HashFn) (s : BStore E) (s' : BStore E') (ds es : List Bytes)
    (hn : ds.length < p.leafLimit) (hn' : (ds ++ es).length < p'.leafLimit) (t t1 : Tree E) (u u1 : Tree E')
    (ht : pushAll p H ds (Tree.new s) = (.ok (), t)) (hu : pushAll p' H (ds ++ es) (Tree.new s') = (.ok (), u))
    (i : Nat) (root root' : Bytes32) (set set' : List Bytes32)
    (hp : prove p H i t = (.ok (root, set), t1)) (hp' : prove p' H i u = (.ok (root', set'), u1))
    (k : Nat) (hk : (i / 2 ^ k + 1) * 2 ^ k ≤ ds.length) :
    k + 1 ≤ set.length ∧ k + 1 ≤ set'.length ∧ set'.take (k + 1) = set.take (k + 1) := by
  have h2 := Nat.two_pow_pos k
  have hi : i < ds.length := Nat.lt_of_lt_of_le (by rw [Nat.mul_comm]; exact Nat.lt_mul_div_succ i h2) hk
  have hl : (ds ++ es).length = ds.length + es.length := List.length_append
  have e1 := returned_proof p H s ds hn t t1 ht i hi root set hp
  have e2 := returned_proof p' H s' (ds ++ es) hn' u u1 hu i (by omega) root' set' hp'
  rw [e1, e2]
  exact kept_path H ds es i k hk hi (by omega)

/-- **C110**. The same for one tree in use: prove, push more leaves, prove again. -/
theorem C110_session (p : Profile) (H : HashFn) (s : BStore E) (ds es : List Bytes) (hn : (ds ++ es).length < p.leafLimit)
    (t t1 u u1 : Tree E) (ht : pushAll p H ds (Tree.new s) = (.ok (), t)) (i : Nat) (root root' : Bytes32) (set set' : List Bytes32)
    (hp : prove p H i t = (.ok (root, set), t1)) (hu : pushAll p H es t1 = (.ok (), u))
    (hp' : prove p H i u = (.ok (root', set'), u1)) (k : Nat) (hk : (i / 2 ^ k + 1) * 2 ^ k ≤ ds.length) :
    k + 1 ≤ set.length ∧ k + 1 ≤ set'.length ∧ set'.take (k + 1) = set.take (k + 1) := by
  have hlim := p.leafLimit_le
  have h2 := Nat.two_pow_pos k
  have hi : i < ds.length := Nat.lt_of_lt_of_le (by rw [Nat.mul_comm]; exact Nat.lt_mul_div_succ i h2) hk
  have hl : (ds ++ es).length = ds.length + es.length := List.length_append
  obtain ⟨h1, _, _⟩ := pushAll_ok_inv p H ds (Inv.new H s) (by simp; omega) ht
  rw [List.nil_append] at h1
  obtain ⟨t', hs, hpr⟩ := prove_spec p H ds t h1 (by omega) hi
  have ht1 : t1 = t' := by
    rcases hpr with h | ⟨e, _, h⟩ <;> rw [hp] at h <;> exact (Prod.mk.inj h).2
  subst ht1
  obtain ⟨h3, _, _⟩ := pushAll_ok_inv p H es (h1.same hs) (by omega) hu
  have e1 := proof_of_inv p H ds t t1 h1 (by omega) i hi root set hp
  have e2 := proof_of_inv p H (ds ++ es) u u1 h3 hn i (by omega) root' set' hp'
  rw [e1, e2]
  exact kept_path H ds es i k hk hi (by omega)

/-- **C110**. Beyond the full block nothing can be kept: if the next larger block is not full in the
short list and is full in the long one, the next element of the proof is another one (or there was none), or two
messages hashed for the two lists collide. -/
theorem C110_changed (p p' : Profile) (H : HashFn) (s : BStore E) (s' : BStore E') (ds es : List Bytes)
    (hn : ds.length < p.leafLimit) (hn' : (ds ++ es).length < p'.leafLimit) (t t1 : Tree E) (u u1 : Tree E')
    (ht : pushAll p H ds (Tree.new s) = (.ok (), t)) (hu : pushAll p' H (ds ++ es) (Tree.new s') = (.ok (), u))
    (i : Nat) (root root' : Bytes32) (set set' : List Bytes32)
    (hp : prove p H i t = (.ok (root, set), t1)) (hp' : prove p' H i u = (.ok (root', set'), u1))
    (k : Nat) (hk : (i / 2 ^ k + 1) * 2 ^ k ≤ ds.length) (hshort : ds.length < (i / 2 ^ (k + 1) + 1) * 2 ^ (k + 1))
    (hlong : (i / 2 ^ (k + 1) + 1) * 2 ^ (k + 1) ≤ (ds ++ es).length) :
    (∃ x, set'[k + 1]? = some x ∧ set[k + 1]? ≠ some x) ∨ Collide H (mthMsgs H ds) (mthMsgs H (ds ++ es)) := by
  have h2 := Nat.two_pow_pos k
  have hi : i < ds.length := Nat.lt_of_lt_of_le (by rw [Nat.mul_comm]; exact Nat.lt_mul_div_succ i h2) hk
  have hl : (ds ++ es).length = ds.length + es.length := List.length_append
  have e1 := returned_proof p H s ds hn t t1 ht i hi root set hp
  have e2 := returned_proof p' H s' (ds ++ es) hn' u u1 hu i (by omega) root' set' hp'
  obtain ⟨r1, p1, -, q1⟩ := auditPath_block H k _ ds i rfl hk
  have hkl : (i / 2 ^ k + 1) * 2 ^ k ≤ (ds ++ es).length := by omega
  have hblk : ∀ D : List Bytes, (i / 2 ^ k + 1) * 2 ^ k ≤ D.length →
      (auditPath H (i % 2 ^ k) ((D.drop (i / 2 ^ k * 2 ^ k)).take (2 ^ k))).length = k := by
    intro D hD
    have hb : ((D.drop (i / 2 ^ k * 2 ^ k)).take (2 ^ k)).length = 2 ^ k := by
      rw [Nat.add_mul, Nat.one_mul] at hD
      rw [List.length_take, List.length_drop]; omega
    exact Reference.auditPath_length H k _ (i % 2 ^ k) hb (by rw [hb]; exact Nat.mod_lt _ h2)
  obtain ⟨r2, p2, q2, -⟩ := auditPath_block H k _ (ds ++ es) i rfl hkl
  obtain ⟨Y, y, y1, y2, y3⟩ := q2 hlong
  have g1 : set[k + 1]? = r1[0]? := by
    rw [e1, p1, List.getElem?_cons_succ, List.getElem?_append_right (by rw [hblk ds hk]), hblk ds hk, Nat.sub_self]
  have g2 : set'[k + 1]? = r2[0]? := by
    rw [e2, p2, List.getElem?_cons_succ, List.getElem?_append_right (by rw [hblk _ hkl]), hblk _ hkl, Nat.sub_self]
  rw [g1, g2, y1]
  rcases q1 hshort with rfl | ⟨X, x, x1, x2, x3⟩
  · exact .inl ⟨_, rfl, by simp⟩
  · by_cases he : mth H X = mth H Y
    · rcases mth_commits H _ X Y rfl he with rfl | hc
      · exact absurd y2 x2
      · exact .inr (collide_mono hc x3 y3)
    · refine .inl ⟨_, rfl, ?_⟩
      rw [x1]
      exact fun h => he (Option.some.inj h)

/-- **C110**. In particular the whole proof in a list of `2 ^ k` leaves is the beginning of the proof
in every longer list. -/
theorem C110_perfect (p p' : Profile) (H : HashFn) (s : BStore E) (s' : BStore E') (ds es : List Bytes)
    (hn : ds.length < p.leafLimit) (hn' : (ds ++ es).length < p'.leafLimit) (t t1 : Tree E) (u u1 : Tree E')
    (ht : pushAll p H ds (Tree.new s) = (.ok (), t)) (hu : pushAll p' H (ds ++ es) (Tree.new s') = (.ok (), u))
    (i : Nat) (hi : i < ds.length) (root root' : Bytes32) (set set' : List Bytes32)
    (hp : prove p H i t = (.ok (root, set), t1)) (hp' : prove p' H i u = (.ok (root', set'), u1))
    (k : Nat) (hk : ds.length = 2 ^ k) : ∃ more, set' = set ++ more := by
  have hl : (ds ++ es).length = ds.length + es.length := List.length_append
  have e1 := returned_proof p H s ds hn t t1 ht i hi root set hp
  have hlen : set.length = k + 1 := by rw [e1, List.length_cons, Reference.auditPath_length H k _ i hk hi]
  obtain ⟨_, _, h⟩ := C110_kept p p' H s s' ds es hn hn' t t1 u u1 ht hu i root root' set set' hp hp' k
    (by rw [Nat.div_eq_of_lt (by omega)]; omega)
  rw [List.take_of_length_le (l := set) (by omega)] at h
  exact ⟨set'.drop (k + 1), by rw [← h, List.take_append_drop]⟩

/-- The hypotheses of the three theorems are met: two leaves, then six more; leaf 1. -/
example (p p' : Profile) (H : HashFn) : ∃ (ds es : List Bytes) (t t1 u u1 : Tree Unit) (root root' : Bytes32) (set set' : List Bytes32),
    ds.length < p.leafLimit ∧ (ds ++ es).length < p'.leafLimit ∧
    pushAll p H ds (Tree.new Store.empty) = (.ok (), t) ∧ pushAll p' H (ds ++ es) (Tree.new Store.empty) = (.ok (), u) ∧
    prove p H 1 t = (.ok (root, set), t1) ∧ prove p' H 1 u = (.ok (root', set'), u1) ∧
    (1 / 2 ^ 1 + 1) * 2 ^ 1 ≤ ds.length ∧ ds.length < (1 / 2 ^ 2 + 1) * 2 ^ 2 ∧ (1 / 2 ^ 2 + 1) * 2 ^ 2 ≤ (ds ++ es).length ∧
    ds.length = 2 ^ 1 := by
  let ds : List Bytes := [[1], [2]]
  let es : List Bytes := [[3], [4], [5], [6], [7], [8]]
  obtain ⟨t, t1, h1, _, h2⟩ := C03_binary_proof (E := Unit) p H Store.empty (fun _ => rfl) ds (p.lt_leafLimit (by decide)) 1 (by decide)
  obtain ⟨u, u1, k1, _, k2⟩ := C03_binary_proof (E := Unit) p' H Store.empty (fun _ => rfl) (ds ++ es) (p'.lt_leafLimit (by decide)) 1 (by decide)
  exact ⟨ds, es, t, t1, u, u1, _, _, _, _, p.lt_leafLimit (by decide), p'.lt_leafLimit (by decide), h1, k1, h2, k2,
    by decide, by decide, by decide, by decide⟩

/-- The hypotheses of `C110_session` are met in the same way. -/
example (p : Profile) (H : HashFn) : ∃ (ds es : List Bytes) (t t1 u u1 : Tree Unit) (root root' : Bytes32) (set set' : List Bytes32),
    (ds ++ es).length < p.leafLimit ∧ pushAll p H ds (Tree.new Store.empty) = (.ok (), t) ∧
    prove p H 1 t = (.ok (root, set), t1) ∧ pushAll p H es t1 = (.ok (), u) ∧ prove p H 1 u = (.ok (root', set'), u1) ∧
    (1 / 2 ^ 1 + 1) * 2 ^ 1 ≤ ds.length ∧ es.length = 6 := by
  let ds : List Bytes := [[1], [2]]
  let es : List Bytes := [[3], [4], [5], [6], [7], [8]]
  obtain ⟨t, h1, h2, h3⟩ := pushAll_inv (E := Unit) p H ds (Inv.new H Store.empty) (by decide) (fun _ => rfl)
  rw [List.nil_append] at h2
  obtain ⟨t1, hs, h4 | ⟨e, he, _⟩⟩ := prove_spec p H ds t h2 (p.lt_leafLimit (by decide)) (i := 1) (by decide)
  · have hr : t1.storage.Reliable := by
      intro c
      rw [hs.sched]
      exact h3 c
    obtain ⟨u, k1, k2, k3⟩ := pushAll_inv (E := Unit) p H es (h2.same hs) (by decide) hr
    obtain ⟨u1, _, k4 | ⟨e, he, _⟩⟩ := prove_spec p H (ds ++ es) u k2 (p.lt_leafLimit (by decide)) (i := 1) (by decide)
    · exact ⟨ds, es, t, t1, u, u1, _, _, _, _, p.lt_leafLimit (by decide), h1, h4, k1, k4, by decide, rfl⟩
    · exact absurd k3 he.not_reliable
  · exact absurd h3 he.not_reliable

end FuelMerkle.Props
