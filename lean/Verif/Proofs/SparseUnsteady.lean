import Verif.Proofs.SparseSessions
import Verif.Spec.SparseUnsteady

/-
Sparse trees on storage that loses records or brings back older ones: every record ever held is
valid for ever, and that is all the calls need.
-/
namespace FuelMerkle
namespace Sparse
open Spec T
variable {E : Type} {H : HashFn} {M : Bytes → Prop} {U : Bytes32 → Prop}

/-- The invariant: every record ever held is valid, the open tree is that of its map, and all
reported roots are right. -/
structure SettingOk (H : HashFn) (M : Bytes → Prop) (U : Bytes32 → Prop) (w : Setting E) : Prop where
  held : ∀ m : Bytes32 → Option Prim, (∀ k q, m k = some q → w.held k q) → Valid H M U m
  now : ∀ k q, w.tree.storage.map k = some q → w.held k q
  rep : ∃ t, Rep H M U w.tree t w.kv
  acks : ∀ a ∈ w.acks, AckOk H M a

theorem valid_or {w : Bytes32 → Prim → Prop} (h : ∀ m : Bytes32 → Option Prim, (∀ k q, m k = some q → w k q) → Valid H M U m)
    {n : Bytes32 → Option Prim} (hn : Valid H M U n) (m : Bytes32 → Option Prim) (hm : ∀ k q, m k = some q → w k q ∨ n k = some q) :
    Valid H M U m := by
  intro k q hk
  rcases hm k q hk with h1 | h1
  · refine h (fun x => if x = k then some q else none) (fun x y e => ?_) k q (by simp)
    by_cases hx : x = k
    · subst hx; simp at e; subst e; exact h1
    · simp [hx] at e
  · exact hn k q h1

theorem arises_ok (p : Profile) (env : Env H M U) {w : Setting E} (h : Arises p H w) : Covered H M U w.acks → SettingOk H M U w := by
  induction h with
  | start s hs =>
    intro _
    refine ⟨fun m hm k q hk => (hm k q hk).elim, fun k q hk => ?_, ⟨.empty, Rep.new s hs⟩, by simp⟩
    rw [show (Tree.new s).storage.map k = none from hs k] at hk; cases hk
  | call w op h ih =>
    intro hc
    have i := ih hc.left
    obtain ⟨t, hrep⟩ := i.rep
    obtain ⟨c1, c2, c3⟩ := hc _ (List.mem_append.2 (.inr (List.mem_singleton.2 rfl)))
    obtain ⟨t1, s1⟩ := op_step p env op c2 hrep ⟨c1, Event.attempt_solid _ hrep.solid c3⟩
    refine ⟨valid_or i.held s1.rep.valid, fun k q hk => .inr hk, ⟨t1, s1.rep⟩, fun a ha => ?_⟩
    rcases List.mem_append.1 ha with ha | ha
    · exact i.acks a ha
    · rw [List.mem_singleton.1 ha]
      exact ⟨⟨t1, s1.rep.wf, s1.rep.inn, s1.rep.ent, root_toNode env s1.rep.wf s1.rep.inn s1.rep.root⟩, s1.nopanic⟩
  | change w s hs h ih =>
    intro hc
    have i := ih hc
    obtain ⟨t, hrep⟩ := i.rep
    exact ⟨i.held, hs, ⟨t, hrep.wf, hrep.inn, hrep.ent, hrep.root, i.held _ hs⟩, i.acks⟩
  | fresh w h ih =>
    intro hc
    have i := ih hc
    exact ⟨i.held, i.now, ⟨.empty, trivial, In.empty, Ent.empty H, rfl, i.held _ i.now⟩, i.acks⟩
  | reopen w a ha hr t s hl h ih =>
    intro hc
    have i := ih hc
    obtain ⟨t1, w1, hin, he, hroot⟩ := (i.acks a ha).tree
    have h0 : t1 ≠ .empty := by rintro rfl; exact hr hroot
    rw [hroot] at hl
    obtain ⟨h1, h2, h3⟩ := load_valid env (i.held _ i.now) w1 hin h0 hl
    exact ⟨i.held, fun k q hk => i.now k q (by rw [← h2]; exact hk), ⟨t1, w1, hin, he, h1, by rw [h2]; exact i.held _ i.now⟩, i.acks⟩

end Sparse
end FuelMerkle
