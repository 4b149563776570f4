import Verif.Proofs.BinaryRun
import Verif.Proofs.Sum

/-
Numbers of storage calls.
-/
namespace FuelMerkle
open Spec

theorem popcount_mul_two_pow (q h : Nat) : popcount (q * 2 ^ h) = popcount q := by
  induction h with
  | zero => simp
  | succ h ih => rw [show q * 2 ^ (h + 1) = 2 * (q * 2 ^ h) by rw [Nat.pow_succ]; ac_rfl, Binary.popcount_double, ih]

theorem popcount_pow_add (b : Nat) : ∀ m, m < 2 ^ b → popcount (2 ^ b + m) = popcount m + 1 := by
  induction b with
  | zero =>
    intro m hm
    have : m = 0 := by omega
    subst this
    rw [popcount]; simp; omega
  | succ b ih =>
    intro m hm
    rw [Nat.pow_succ] at hm
    have h2 := ih (m / 2) (by omega)
    rcases Nat.mod_two_eq_zero_or_one m with h | h
    · rw [show 2 ^ (b + 1) + m = 2 * (2 ^ b + m / 2) by rw [Nat.pow_succ]; omega, Binary.popcount_double, h2]
      conv => rhs; rw [show m = 2 * (m / 2) by omega, Binary.popcount_double]
    · rw [show 2 ^ (b + 1) + m = 2 * (2 ^ b + m / 2) + 1 by rw [Nat.pow_succ]; omega, Binary.popcount_double_add_one, h2]
      conv => rhs; rw [show m = 2 * (m / 2) + 1 by omega, Binary.popcount_double_add_one]

theorem peaks_length (b : Nat) : ∀ a n, (peaks b a n).length = popcount (n % 2 ^ b) := by
  induction b with
  | zero => intro a n; rw [peaks, Nat.pow_zero, Nat.mod_one, popcount]; rfl
  | succ b ih =>
    intro a n
    have hm : n % 2 ^ (b + 1) = 2 ^ b * (n / 2 ^ b % 2) + n % 2 ^ b := by
      rw [Nat.pow_succ, Nat.mod_mul]; omega
    have hlt := Nat.mod_lt n (Nat.two_pow_pos b)
    rw [peaks]
    by_cases hb : n.testBit b = true
    · rw [if_pos hb, List.length_cons, ih, hm]
      rw [Nat.testBit_eq_decide_div_mod_eq, decide_eq_true_eq] at hb
      rw [hb, Nat.mul_one, popcount_pow_add b _ hlt]
    · rw [if_neg hb, ih, hm]
      rw [Nat.testBit_eq_decide_div_mod_eq, decide_eq_true_eq] at hb
      rw [show n / 2 ^ b % 2 = 0 by omega, Nat.mul_zero, Nat.zero_add]

namespace Binary
variable {E : Type}

theorem Peaks.length {H : HashFn} {ds : List Bytes} {e : Nat} {l : List Node} (h : Peaks H ds e l) : l.length = popcount e := by
  induction h with
  | nil => rw [popcount]; rfl
  | cons h k rest e _ he ih =>
    rw [he, popcount_odd_mul, List.length_cons, ih, popcount_mul_two_pow, popcount_double]

theorem get_clock (key : Nat) {t t' : Tree E} {q : Option Prim} (h : onStorage (Store.get key) t = (.ok q, t')) :
    t'.storage.clock = t.storage.clock + 1 := by
  unfold onStorage Store.get at h
  cases hs : t.storage.sched t.storage.clock <;> simp only [hs, Prod.mk.injEq] at h
  · rw [← h.2]
  · cases h.1

theorem proveSides_clock (S : Scratch) (ps : List Position) : ∀ {t t' : Tree E} {r : List Bytes32}, proveSides S ps t = (.ok r, t') →
    t'.storage.clock = t.storage.clock + r.length := by
  induction ps with
  | nil => intro t t' r h; simp only [proveSides, Exec.pure_apply, Prod.mk.injEq, Except.ok.injEq] at h; rw [← h.1, ← h.2]; rfl
  | cons x ps ih =>
    intro t t' r h
    rw [proveSides, Exec.bind_apply] at h
    rcases h1 : onStorage (Store.get x.inOrderIndex) t with ⟨e | q, t1⟩
    · rw [h1] at h; cases h
    · rw [h1] at h
      have c1 := get_clock _ h1
      simp only at h
      cases hq : (S x.inOrderIndex).or q with
      | none => rw [hq] at h; cases h
      | some q =>
        rw [hq] at h
        simp only at h
        rw [Exec.bind_apply] at h
        rcases h2 : proveSides S ps t1 with ⟨e | r', t2⟩
        · rw [h2] at h; cases h
        · rw [h2] at h
          have c2 := ih h2
          cases h
          rw [c2, c1, List.length_cons]
          omega

theorem bind_inv {σ ε α β : Type} {m : Exec σ ε α} {f : α → Exec σ ε β} {s s' : σ} {b : β} (h : (m >>= f) s = (.ok b, s')) :
    ∃ a s1, m s = (.ok a, s1) ∧ f a s1 = (.ok b, s') := by
  rw [Exec.bind_apply] at h
  rcases hm : m s with ⟨e | a, s1⟩
  · rw [hm] at h; cases h
  · rw [hm] at h; exact ⟨a, s1, rfl, h⟩

theorem lift_inv {σ ε α β : Type} {r : Res α} {f : α → Exec σ (Fail ε) β} {s s' : σ} {b : β} (h : (Exec.liftRes r >>= f) s = (.ok b, s')) :
    ∃ a, r = .ok a ∧ f a s = (.ok b, s') := by
  cases r with
  | error q => cases h
  | ok a => exact ⟨a, rfl, h⟩

theorem prove_clock (p : Profile) (H : HashFn) (i : Nat) {t t' : Tree E} {r : Bytes32 × List Bytes32} (h : prove p H i t = (.ok r, t')) :
    t'.storage.clock = t.storage.clock + r.2.length := by
  unfold prove at h
  rw [Exec.get_bind] at h
  obtain ⟨n, -, h⟩ := lift_inv h
  split at h
  · cases h
  · obtain ⟨_, -, h⟩ := lift_inv h
    obtain ⟨_, -, h⟩ := lift_inv h
    obtain ⟨q, t1, h3, h⟩ := bind_inv h
    have c1 := get_clock _ h3
    cases q with
    | none => cases h
    | some q =>
      obtain ⟨_, -, h⟩ := lift_inv h
      obtain ⟨⟨_, _⟩, -, h⟩ := lift_inv h
      obtain ⟨_, -, h⟩ := lift_inv h
      obtain ⟨_, s2, h2, h⟩ := bind_inv h
      have c2 := proveSides_clock _ _ h2
      cases h
      rw [c2, c1, List.length_cons]
      omega

theorem buildLoop_clock (ps : List Position) : ∀ {l r : List Node} {t t' : Tree E}, buildLoop ps l t = (.ok r, t') →
    t'.storage.clock = t.storage.clock + ps.length := by
  induction ps with
  | nil => intro l r t t' h; cases h; rfl
  | cons x ps ih =>
    intro l r t t' h
    rw [buildLoop] at h
    obtain ⟨q, t1, h1, h⟩ := bind_inv h
    have c1 := get_clock _ h1
    cases q with
    | none => cases h
    | some q => rw [ih h, c1, List.length_cons]; omega

theorem load_clock (p : Profile) (s s' : BStore E) (n : Nat) (hn : n < p.leafLimit) (t : Tree E) (h : Tree.load p s n = (.ok t, s')) :
    t.storage = s' ∧ s'.clock = s.clock + popcount n := by
  have hlim := p.leafLimit_le
  unfold Tree.load at h
  simp only at h
  rcases hb : build p (⟨s, [], n⟩ : Tree E) with ⟨e | u, t1⟩
  · rw [hb] at h; cases h
  · rw [hb] at h
    cases h
    refine ⟨rfl, ?_⟩
    unfold build at hb
    rw [Exec.get_bind, peakPositions_spec p hn, Exec.liftRes_ok_bind] at hb
    obtain ⟨l, t2, h2, hb⟩ := bind_inv hb
    have := buildLoop_clock _ h2
    cases hb
    rw [List.length_map, peakRanges_eq (by omega), peaks_length, Nat.mod_eq_of_lt (by omega)] at this
    exact this

end Binary

namespace Sum
variable {E : Type}
open Binary (bind_inv lift_inv)

theorem Head.dvd {p : Profile} {H : HashFn} {M : List Bytes} {m : Bytes32 → Option Node} {l : List Node} {ds : List Item}
    (h : Head p H M m l ds) (j : Nat) (hj : ∀ k ∈ l, j ≤ k.height) : 2 ^ j ∣ ds.length := by
  induction h with
  | nil => exact ⟨0, rfl⟩
  | cons n rest pre suf _ _ h3 _ h5 ih =>
    rw [List.length_append, h3]
    have hn := hj n (by simp)
    exact Nat.dvd_add (ih fun k hk => hj k (by simp [hk])) (Nat.pow_dvd_pow 2 hn)

theorem Head.length {p : Profile} {H : HashFn} {M : List Bytes} {m : Bytes32 → Option Node} {l : List Node} {ds : List Item}
    (h : Head p H M m l ds) : l.length = popcount ds.length := by
  induction h with
  | nil => rw [List.length_nil, popcount]; rfl
  | cons n rest pre suf h1 _ h3 _ h5 ih =>
    obtain ⟨q, hq⟩ := h1.dvd (n.height + 1) h5
    rw [List.length_append, h3, List.length_cons, ih, hq]
    rw [show 2 ^ (n.height + 1) * q + 2 ^ n.height = (2 * q + 1) * 2 ^ n.height by rw [Nat.pow_succ, Nat.add_mul]; ac_rfl, Binary.popcount_odd_mul,
      Nat.mul_comm, popcount_mul_two_pow]

theorem joinSubtrees_clock (p : Profile) (H : HashFn) (l r : Node) {t t' : Tree E} {j : Node} (h : joinSubtrees p H l r t = (.ok j, t')) :
    t'.storage.clock = t.storage.clock + 1 := by
  unfold joinSubtrees at h
  obtain ⟨_, -, h⟩ := lift_inv h
  obtain ⟨_, -, h⟩ := lift_inv h
  obtain ⟨_, s2, h2, h⟩ := bind_inv h
  cases h
  rw [onStorage_insert] at h2
  simp only [Prod.mk.injEq] at h2
  rw [← h2.2]
  rfl

theorem rootLoop_clock (p : Profile) (H : HashFn) (rest : List Node) : ∀ {n j : Node} {t t' : Tree E}, rootLoop p H n rest t = (.ok j, t') →
    t'.storage.clock = t.storage.clock + rest.length := by
  induction rest with
  | nil => intro n j t t' h; cases h; rfl
  | cons x rest ih =>
    intro n j t t' h
    rw [rootLoop] at h
    obtain ⟨_, s2, h2, h⟩ := bind_inv h
    rw [ih h, joinSubtrees_clock p H _ _ h2, List.length_cons]
    omega

theorem root_clock (p : Profile) (H : HashFn) {t t' : Tree E} {r : Nat × Bytes32} (h : root p H t = (.ok r, t')) :
    t'.storage.clock = t.storage.clock + (t.head.length - 1) := by
  unfold root at h
  obtain ⟨n, s, h1, h⟩ := bind_inv h
  have : t' = s := by cases n <;> cases h <;> rfl
  subst this
  unfold rootNode at h1
  rw [Exec.get_bind] at h1
  cases e : t.head with
  | nil => rw [e] at h1; cases h1; rfl
  | cons x rest =>
    rw [e] at h1
    obtain ⟨_, s2, h2, h1⟩ := bind_inv h1
    cases h1
    rw [rootLoop_clock p H _ h2]
    rfl

theorem joinAllLoop_clock (p : Profile) (H : HashFn) (rest : List Node) : ∀ {n : Node} {t t' : Tree E}, t.head = n :: rest →
    joinAllLoop p H n rest t = (.ok (), t') → t'.storage.clock + t'.head.length = t.storage.clock + t.head.length := by
  induction rest with
  | nil => intro n t t' _ h; cases h; rfl
  | cons x rest ih =>
    intro n t t' hd h
    rw [joinAllLoop] at h
    split at h
    · rw [Exec.modify_bind] at h
      obtain ⟨j, s2, h2, h⟩ := bind_inv h
      have c := joinSubtrees_clock p H _ _ h2
      rw [Exec.modify_bind] at h
      have := ih (by rfl) h
      rw [this, hd]
      simp only [List.length_cons]
      simp only at c
      omega
    · cases h; rfl

theorem push_clock (p : Profile) (H : HashFn) (fee : Nat) (d : Bytes) {t t' : Tree E} (h : push p H fee d t = (.ok (), t')) :
    t'.storage.clock + t'.head.length = t.storage.clock + t.head.length + 2 := by
  unfold push at h
  obtain ⟨_, s2, h2, h⟩ := bind_inv h
  rw [onStorage_insert] at h2
  simp only [Prod.mk.injEq] at h2
  rw [Exec.modify_bind] at h
  unfold joinAllSubtrees at h
  rw [Exec.get_bind] at h
  have := joinAllLoop_clock p H _ (by rfl) h
  rw [this, ← h2.2]
  simp only [wrote, List.length_cons]
  omega

end Sum
end FuelMerkle
