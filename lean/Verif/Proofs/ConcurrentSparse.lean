import Verif.Spec.ConcurrentSparse
import Verif.Proofs.ReplaySparse
import Verif.Proofs.AnyStorageStale

/-
Processes that share a storage, with sparse trees.
-/
namespace FuelMerkle
variable {S K V E : Type}

theorem Office.turns_append (B : Backend S K V E) (process : Nat → Tape K V E → Tape K V E) : ∀ (is js : List Nat) (o : Office S K V E),
    o.turns B process (is ++ js) = (o.turns B process is).turns B process js
  | [], _, _ => rfl
  | _ :: is, js, _ => Office.turns_append B process is js _

namespace Sparse
open Spec T

/-- What is valid is sound. -/
theorem Valid.sound {H : HashFn} {m : Bytes32 → Option Prim} {maps : List (Entries Bytes)} {keys : List Bytes32}
    (env : Env H (fun a => ∃ kv ∈ maps, a ∈ msgsOf H kv) (· ∈ keys)) (h : Valid H (fun a => ∃ kv ∈ maps, a ∈ msgsOf H kv) (· ∈ keys) m)
    (hn : ∀ kv ∈ maps, (keysOf kv).Nodup ∧ Solid H kv) : Sound H m maps keys := by
  refine ⟨fun kv hkv q hq q' hx => ?_, fun k hk q hx => h.user_rec env hk hx⟩
  obtain ⟨t, w, he⟩ := exists_tree H kv (hn kv hkv).1
  have hin : In H (fun a => ∃ kv ∈ maps, a ∈ msgsOf H kv) t := he.inn w ⟨fun m hm => ⟨kv, hkv, hm⟩, (hn kv hkv).2⟩
  rw [← he.records w] at hq
  obtain ⟨t', d', w', hin', h0, h1, rfl⟩ := records_good w hin q hq
  rw [h1] at hx
  exact h.get env w' hin' h0 hx

namespace Any
variable {B : Backend S Bytes32 Prim E} {seen : S → Bytes32 → Prim → Prop} {H : HashFn}

/-- The record is that of a node or a user key, or in a place no call looks at. -/
def Allowed (H : HashFn) (M : Bytes → Prop) (U : Bytes32 → Prop) (x : Bytes32) (q : Prim) : Prop :=
  Good H M x q ∨ (U x ∧ ∃ v, q = leafPrim x v) ∨ Stray H M U x

theorem pure_allowed {T : Type} {look : T → Bytes32 → Prim → Prop} {M : Bytes → Prop} {U : Bytes32 → Prop} {s : T} :
    Pure H M U look s ↔ ∀ x q, look s x q → Allowed H M U x q :=
  ⟨fun h x q hx => h.one hx x q (by simp), fun h _ hm x q hx => h x q (hm x q hx)⟩

/-- A process that waits does nothing. -/
theorem waits (cut : E) (p : Profile) : ∀ (rs : List Sparse.Request) (c : Watch (Tape Bytes32 Prim E)), c.bench.storage.waiting ≠ none →
    (c.handleAll (tape cut) p H rs).2.bench.storage = c.bench.storage
  | [], _, _ => rfl
  | r :: rs, c, hc => by
    have h1 : (c.handle (tape cut) p H r).2.bench.storage = c.bench.storage :=
      (rep_handle (tape cut) cut p H (r.asked H) c.bench.node).1 c.bench.storage hc
    have h2 := waits cut p rs (c.handle (tape cut) p H r).2 (by rw [h1]; exact hc)
    simp only [Watch.handleAll]
    rw [h2, h1]

/-- Only what has begun matters. -/
theorem begun_storage (cut : E) (p : Profile) : ∀ (rs : List Sparse.Request) (c : Watch (Tape Bytes32 Prim E)),
    (c.handleAll (tape cut) p H (c.begun cut p H rs)).2.bench.storage = (c.handleAll (tape cut) p H rs).2.bench.storage
  | [], _ => rfl
  | r :: rs, c => by
    unfold Watch.begun
    split
    · exact begun_storage cut p rs (c.handle (tape cut) p H r).2
    · rename_i hc
      exact (waits cut p (r :: rs) c hc).symm

theorem begun_sub (cut : E) (p : Profile) : ∀ (rs : List Sparse.Request) (c : Watch (Tape Bytes32 Prim E)), ∀ r ∈ c.begun cut p H rs, r ∈ rs
  | [], _, _, h => by cases h
  | r :: rs, c, x, h => by
    unfold Watch.begun at h
    split at h
    · rcases List.mem_cons.1 h with rfl | h
      · exact List.mem_cons_self
      · exact List.mem_cons_of_mem _ (begun_sub cut p rs _ x h)
    · cases h

theorem worker_eq (cut : E) (p : Profile) (rs : List Sparse.Request) (t : Tape Bytes32 Prim E) :
    worker cut p H (rs.map (Sparse.Request.asked H)) t = ((Watch.start t).handleAll (tape cut) p H rs).2.bench.storage := by
  have key : ∀ (rs : List Sparse.Request) (c : Watch (Tape Bytes32 Prim E)),
      (c.bench.handleAll (tape cut) p H (rs.map (Sparse.Request.asked H))).2.storage = (c.handleAll (tape cut) p H rs).2.bench.storage := by
    intro rs
    induction rs with
    | nil => intro c; rfl
    | cons r rs ih => intro c; exact ih (c.handle (tape cut) p H r).2
  exact key rs (Watch.start t)

end Any
end Sparse
end FuelMerkle
