import Verif.Proofs.SparseCounts
import Verif.Props.SparseSessions

/-
Property C71: the exact number of storage calls of the sparse tree.
-/
namespace FuelMerkle
namespace Props
open Sparse Spec
variable {E : Type}

/-! ### C71 -/

/-- **C71**. On working storage, starting with nothing in it, a call made after any history makes
exactly the number of storage calls that `Op.calls` computes from the keys in the map. -/
theorem C71_calls_of_one (p : Profile) (H : HashFn) (ops : List Op) (op : Op) (hi : IdealFor H (ops ++ [op])) (s : SpStore E)
    (hs : ∀ k, s.map k = none) (hr : s.Reliable) :
    ∃ t t', runAll p H ops (Tree.new s) = (.ok (), t) ∧ op.run p H t = (.ok (), t') ∧
      t'.storage.clock = t.storage.clock + op.calls (stateOf ops) := by
  have hu : ∀ o ∈ ops ++ [op], o.key ∈ (ops ++ [op]).map Op.key := fun o ho => List.mem_map.2 ⟨o, ho, rfl⟩
  obtain ⟨t2, _, h1, -, -⟩ := history_full p hi s hs hr
  rw [runAll_append] at h1
  obtain ⟨_, t, h2, h3⟩ := sbind_inv h1
  have h4 : op.run p H t = (.ok (), t2) := by
    rw [runAll] at h3
    obtain ⟨_, t3, h5, h6⟩ := sbind_inv h3
    cases h6
    exact h5
  refine ⟨t, t2, h2, h4, ?_⟩
  have c1 := full_clock p hi.1.env (ops ++ [op]) (Full.new s hs hr) hu (fun _ h => h) hi.2 (by rw [runAll_append]; exact h1)
  have hi' := hi.prefix
  have c2 := full_clock p hi'.1.env ops (Full.new s hs hr) (fun o ho => List.mem_map.2 ⟨o, ho, rfl⟩) (fun _ h => h) hi'.2 h2
  have happ : ∀ (l : List Op) (s : State), callsFrom s (l ++ [op]) = callsFrom s l + op.calls (stateFrom s l) := by
    intro l
    induction l with
    | nil => intro s; simp [callsFrom, stateFrom]
    | cons o l ih =>
      intro s
      rw [List.cons_append, callsFrom, callsFrom, ih]
      simp only [stateFrom, List.foldl_cons]
      omega
  rw [happ] at c1
  rw [c1, c2, stateOf]
  omega

/-- **C71**. The storage calls of a whole history. -/
theorem C71_calls_of_history (p : Profile) (H : HashFn) (ops : List Op) (hi : IdealFor H ops) (s : SpStore E)
    (hs : ∀ k, s.map k = none) (hr : s.Reliable) :
    ∃ t, runAll p H ops (Tree.new s) = (.ok (), t) ∧ t.storage.clock = s.clock + callsFrom ⟨[], []⟩ ops := by
  obtain ⟨t, _, h1, -, -⟩ := history_full p hi s hs hr
  exact ⟨t, h1, full_clock p hi.1.env ops (Full.new s hs hr) (fun o ho => List.mem_map.2 ⟨o, ho, rfl⟩) (fun _ h => h) hi.2 h1⟩

example : IdealFor Sha256.sha256 ([.update keyA [1]] ++ [.update keyB [2]]) := cleanOps_ideal.prefix (b := [.update keyA [3], .delete keyB])

theorem pathLen_le {k : Bytes32} {b : Nat} {ks : List Bytes32} (hnd : ks.Nodup)
    (h : ∀ x ∈ ks, x ≠ k → ∃ i < b, keyBit x i ≠ keyBit k i) : pathLen k ks ≤ b := by
  have := pathLenFrom_le (k := k) (b := b) 256 0 hnd (fun x _ i hi => by omega) (fun x hx hne hag => by
    obtain ⟨i, hi, hd⟩ := h x hx hne
    exact hd (hag i hi))
  unfold pathLen
  omega

/-- **C71**. If every other key in the map differs from the key of a call within the first `b`
bits, an update makes at most `2 + 3 * b` storage calls and a removal at most `2 + 4 * b`,
however many keys there are. -/
theorem C71_short_paths (s : State) (hs : (keysOf s.kv).Nodup) (op : Op) (b : Nat)
    (h : ∀ x ∈ keysOf s.kv, x ≠ op.key → ∃ i < b, keyBit x i ≠ keyBit op.key i) :
    op.calls s ≤ 2 + (if op.data = none then 4 else 3) * b := by
  have h1 : pathLen op.key (keysOf s.kv) ≤ b := pathLen_le hs h
  have h2 : pathReads op.key (keysOf s.kv) ≤ 2 * pathLen op.key (keysOf s.kv) := pathReadsFrom_le _ _ _ _
  have herase : ∀ k', (keysOf (s.kv.erase k')).Nodup ∧ ∀ x ∈ keysOf (s.kv.erase k'), x ∈ keysOf s.kv := by
    intro k'
    have hsub : List.Sublist (keysOf (s.kv.erase k')) (keysOf s.kv) := by
      unfold keysOf Entries.erase
      exact (List.filter_sublist).map _
    exact ⟨hs.sublist hsub, fun x hx => hsub.subset hx⟩
  unfold Op.calls
  cases hd : op.data with
  | some d =>
    simp only [reduceCtorEq, if_false]
    have e : (op.onState s).kv = s.kv.put op.key d := by simp only [Op.onState, hd]
    have h3 : pathLen op.key (keysOf (op.onState s).kv) ≤ b := by
      rw [e]
      refine pathLen_le ?_ ?_
      · show (op.key :: keysOf (s.kv.erase op.key)).Nodup
        refine List.nodup_cons.2 ⟨?_, (herase _).1⟩
        intro hc
        simp [keysOf, Entries.erase] at hc
      · intro x hx hne
        rcases List.mem_cons.1 (show x ∈ op.key :: keysOf (s.kv.erase op.key) from hx) with rfl | hx
        · exact absurd rfl hne
        · exact h x ((herase _).2 x hx) hne
    omega
  | none =>
    simp only [if_true]
    split
    · omega
    · split
      · omega
      · have h3 : pathLen op.key (keysOf (op.onState s).kv) ≤ b := by
          simp only [Op.onState, hd]
          split
          · exact h1
          · split
            · exact pathLen_le (herase _).1 fun x hx => h x ((herase _).2 x hx)
            · exact h1
        omega

/-- Keys given by their first byte. -/
def bitKey (b : UInt8) : Bytes32 := ⟨b :: List.replicate 31 0, rfl⟩

/-- The first key costs two writes; a key that differs from it in the first bit two writes and
one inner node; a third one that differs in the second bit reads two nodes and writes two inner
nodes. Removing it reads its record and four nodes, removes three and writes one. A removal
without record is one read, and none on the empty tree. -/
example : [([], Op.update (bitKey 0x00) [1]),
      ([.update (bitKey 0x00) [1]], .update (bitKey 0x80) [1]),
      ([.update (bitKey 0x00) [1], .update (bitKey 0x80) [1]], .update (bitKey 0x40) [1]),
      ([.update (bitKey 0x00) [1], .update (bitKey 0x80) [1], .update (bitKey 0x40) [1]], .delete (bitKey 0x40)),
      ([.update (bitKey 0x00) [1]], .delete (bitKey 0x01)), ([], .delete (bitKey 0x01))].map
      (fun x => x.2.calls (stateOf x.1)) = [2, 3, 6, 9, 1, 0] := by decide +kernel

/-- With a key that differs in the last bit only: all 256 inner nodes are written, and 257 nodes
are read (empty children are not). -/
example : (Op.update (bitKey 0x00) [2]).calls
      (stateOf [.update (bitKey 0x00) [1], .update ⟨List.replicate 31 0 ++ [1], rfl⟩ [1]]) = 2 + 257 + 256 := by decide +kernel

example : (keysOf (stateOf [.update (bitKey 0x00) [1], .update (bitKey 0x80) [1]]).kv).Nodup ∧
    ∀ x ∈ keysOf (stateOf [.update (bitKey 0x00) [1], .update (bitKey 0x80) [1]]).kv, x ≠ (Op.delete (bitKey 0x40)).key →
      ∃ i < 2, keyBit x i ≠ keyBit (Op.delete (bitKey 0x40)).key i := by decide +kernel

end Props
end FuelMerkle
