import Verif.Model.Storage

/-
Simp lemmas for `Exec`, `Res` and `Store`.
-/
namespace FuelMerkle

namespace Exec
variable {σ ε α β : Type}

theorem bind_apply (x : Exec σ ε α) (f : α → Exec σ ε β) (s : σ) :
    (x >>= f) s = match x s with
      | (.ok a, s') => f a s'
      | (.error e, s') => (.error e, s') := rfl

theorem bind_ok {x : Exec σ ε α} {f : α → Exec σ ε β} {s s' : σ} {a : α}
    (h : x s = (.ok a, s')) : (x >>= f) s = f a s' := by
  rw [bind_apply, h]

theorem bind_error {x : Exec σ ε α} {f : α → Exec σ ε β} {s s' : σ} {e : ε}
    (h : x s = (.error e, s')) : (x >>= f) s = (.error e, s') := by
  rw [bind_apply, h]

@[simp] theorem pure_apply (a : α) (s : σ) : (pure a : Exec σ ε α) s = (.ok a, s) := rfl
@[simp] theorem get_apply (s : σ) : (Exec.get : Exec σ ε σ) s = (.ok s, s) := rfl
@[simp] theorem modify_apply (f : σ → σ) (s : σ) :
    (Exec.modify f : Exec σ ε Unit) s = (.ok (), f s) := rfl
@[simp] theorem throw_apply (e : ε) (s : σ) : (Exec.throw e : Exec σ ε α) s = (.error e, s) := rfl
@[simp] theorem liftRes_ok (a : α) (s : σ) :
    (Exec.liftRes (.ok a) : Exec σ (Fail ε) α) s = (.ok a, s) := rfl
@[simp] theorem liftRes_error (q : Panic) (s : σ) :
    (Exec.liftRes (.error q) : Exec σ (Fail ε) α) s = (.error (.panic q), s) := rfl

@[simp] theorem pure_bind (a : α) (f : α → Exec σ ε β) : (pure a >>= f) = f a := rfl
@[simp] theorem get_bind (f : σ → Exec σ ε β) (s : σ) : (Exec.get >>= f) s = f s s := rfl
@[simp] theorem modify_bind (g : σ → σ) (f : Unit → Exec σ ε β) (s : σ) :
    (Exec.modify g >>= f) s = f () (g s) := rfl
@[simp] theorem throw_bind (e : ε) (f : α → Exec σ ε β) (s : σ) :
    (Exec.throw e >>= f) s = (.error e, s) := rfl
@[simp] theorem liftRes_ok_bind (a : α) (f : α → Exec σ (Fail ε) β) (s : σ) :
    (Exec.liftRes (.ok a) >>= f) s = f a s := rfl
@[simp] theorem liftRes_error_bind (q : Panic) (f : α → Exec σ (Fail ε) β) (s : σ) :
    (Exec.liftRes (.error q) >>= f) s = (.error (.panic q), s) := rfl

theorem bind_assoc {γ : Type} (x : Exec σ ε α) (f : α → Exec σ ε β) (g : β → Exec σ ε γ) :
    ((x >>= f) >>= g) = (x >>= fun a => f a >>= g) := by
  funext s
  simp only [bind_apply]
  rcases x s with ⟨_ | _, _⟩ <;> rfl

end Exec

namespace Res
variable {α β : Type}

@[simp] theorem ok_bind (a : α) (f : α → Res β) :
    (Except.ok (ε := Panic) a >>= f) = f a := rfl
@[simp] theorem error_bind (q : Panic) (f : α → Res β) :
    ((Except.error q : Res α) >>= f) = .error q := rfl
@[simp] theorem pure_eq (a : α) : (pure a : Res α) = .ok a := rfl

end Res

namespace Store
variable {K V E : Type} [DecidableEq K]
set_option linter.unusedSectionVars false

@[simp] theorem upd_same (m : K → Option V) (k : K) (v : Option V) : upd m k v k = v := by
  simp [upd]
theorem upd_of_ne (m : K → Option V) {k k' : K} (v : Option V) (h : k' ≠ k) :
    upd m k v k' = m k' := by simp [upd, h]
theorem upd_apply (m : K → Option V) (k k' : K) (v : Option V) :
    upd m k v k' = if k' = k then v else m k' := rfl
@[simp] theorem upd_upd (m : K → Option V) (k : K) (v w : Option V) :
    upd (upd m k v) k w = upd m k w := by
  funext k'; simp only [upd]; split <;> rfl

/-- The state after a call that succeeds. -/
theorem get_none {s : Store K V E} (k : K) (h : s.sched s.clock = none) :
    get k s = (.ok (s.map k), { s with clock := s.clock + 1 }) := by
  simp [get, h]
theorem get_fault {s : Store K V E} (k : K) {f} (h : s.sched s.clock = some f) :
    get k s = (.error f.err, { s with clock := s.clock + 1 }) := by
  simp [get, h]
theorem insert_none {s : Store K V E} (k : K) (v : V) (h : s.sched s.clock = none) :
    insert k v s =
      (.ok (s.map k), { s with clock := s.clock + 1, map := upd s.map k (some v) }) := by
  simp [insert, h]
theorem insert_fault {s : Store K V E} (k : K) (v : V) {f} (h : s.sched s.clock = some f) :
    insert k v s = (.error f.err, { s with
      clock := s.clock + 1, map := if f.applied then upd s.map k (some v) else s.map }) := by
  simp [insert, h]
theorem remove_none {s : Store K V E} (k : K) (h : s.sched s.clock = none) :
    remove k s =
      (.ok (s.map k), { s with clock := s.clock + 1, map := upd s.map k none }) := by
  simp [remove, h]
theorem remove_fault {s : Store K V E} (k : K) {f} (h : s.sched s.clock = some f) :
    remove k s = (.error f.err, { s with
      clock := s.clock + 1, map := if f.applied then upd s.map k none else s.map }) := by
  simp [remove, h]

end Store
end FuelMerkle
