import Verif.Model.Binary
import Verif.Proofs.Exec
import Verif.Proofs.Rfc6962

/-
Invariants of the binary Merkle tree.
-/
namespace FuelMerkle
namespace Binary
open Spec
variable {E : Type}

/-! ### Complete subtrees -/

/-- The node of the complete subtree number `k` of height `h`. -/
def nodeAt (H : HashFn) (ds : List Bytes) (h k : Nat) : Node :=
  { position := posOf h k, hash := subHash H ds (k * 2 ^ h) (2 ^ h) }

/-- The list of peaks of the tree over the first `e` leaves, smallest (rightmost) first. -/
inductive Peaks (H : HashFn) (ds : List Bytes) : Nat → List Node → Prop where
  | nil : Peaks H ds 0 []
  | cons (h k : Nat) (rest : List Node) (e : Nat) : Peaks H ds (2 * k * 2 ^ h) rest →
      e = (2 * k + 1) * 2 ^ h → Peaks H ds e (nodeAt H ds h (2 * k) :: rest)

theorem odd_mul_two_pow_inj {h k h' k' : Nat} (e : (2 * k + 1) * 2 ^ h = (2 * k' + 1) * 2 ^ h') :
    h = h' ∧ k = k' := by
  apply ioIndex_injective
  have h1 := ioIndex_succ h k
  have h2 := ioIndex_succ h' k'
  rw [Nat.mul_comm] at h1 h2
  omega

theorem Peaks.det {H : HashFn} {ds : List Bytes} {e : Nat} {l l' : List Node}
    (h : Peaks H ds e l) (h' : Peaks H ds e l') : l = l' := by
  induction h generalizing l' with
  | nil =>
    cases h' with
    | nil => rfl
    | cons h k rest e hr he =>
      have : 0 < (2 * k + 1) * 2 ^ h := Nat.mul_pos (by omega) (Nat.two_pow_pos _)
      omega
  | cons h k rest e hr he ih =>
    have hpos : 0 < (2 * k + 1) * 2 ^ h := Nat.mul_pos (by omega) (Nat.two_pow_pos _)
    cases h' with
    | nil => omega
    | cons h2 k2 rest2 e2 hr2 he2 =>
      obtain ⟨rfl, rfl⟩ := odd_mul_two_pow_inj (he ▸ he2)
      rw [ih hr2]

theorem nodeAt_append {H : HashFn} {ds es : List Bytes} {h k : Nat} (hk : (k + 1) * 2 ^ h ≤ ds.length) :
    nodeAt H (ds ++ es) h k = nodeAt H ds h k := by
  unfold nodeAt
  rw [subHash_append]
  rw [Nat.add_mul, Nat.one_mul] at hk; exact hk

theorem Peaks.append {H : HashFn} {ds : List Bytes} (es : List Bytes) {e : Nat} {l : List Node}
    (h : Peaks H ds e l) (he : e ≤ ds.length) : Peaks H (ds ++ es) e l := by
  induction h with
  | nil => exact .nil
  | cons h k rest e hr he' ih =>
    have e1 : (2 * k + 1) * 2 ^ h = 2 * k * 2 ^ h + 2 ^ h := by ring
    have hpos := Nat.two_pow_pos h
    rw [← nodeAt_append (es := es) (by omega)]
    exact .cons h k rest e (ih (by omega)) he'

/-- Bounds that keep all position arithmetic in range. -/
theorem pos_bound {h k : Nat} (hb : (k + 1) * 2 ^ h ≤ 2 ^ 63) : h ≤ 63 ∧ ioIndex h k < 2 ^ 64 := by
  have hpos := Nat.two_pow_pos h
  constructor
  · have h1 : 2 ^ h ≤ (k + 1) * 2 ^ h := Nat.le_mul_of_pos_left _ (by omega)
    exact (Nat.pow_le_pow_iff_right (by omega)).1 (Nat.le_trans h1 hb)
  · have h1 := ioIndex_succ h k
    have h2 : 2 ^ h * (2 * k + 1) + 2 ^ h = 2 * ((k + 1) * 2 ^ h) := by ring
    omega

/-! ### Writes of a push -/

/-- The map `m` after the first `c` writes of the push that completes the list `ds`. -/
def wr (H : HashFn) (ds : List Bytes) (m : Nat → Option Prim) : Nat → Nat → Option Prim
  | 0 => m
  | c + 1 =>
    let k := ds.length / 2 ^ c - 1
    Store.upd (wr H ds m c) (ioIndex c k) (some (nodeAt H ds c k).toPrim)

theorem onStorage_ok {α : Type} {f : BStore E → Except E α × BStore E} {t : Tree E} {a : α} {s : BStore E}
    (h : f t.storage = (.ok a, s)) :
    onStorage f t = (.ok a, { t with storage := s }) := by
  simp [onStorage, h]

theorem onStorage_error {α : Type} {f : BStore E → Except E α × BStore E} {t : Tree E} {e : E} {s : BStore E}
    (h : f t.storage = (.error e, s)) :
    onStorage f t = (.error (.err (.storageError e)), { t with storage := s }) := by
  simp [onStorage, h]

/-- Joining the two halves of a complete subtree. -/
theorem joinNodes_complete (p : Profile) {H : HashFn} {ds : List Bytes} {h k : Nat}
    (hk : (k + 1) * 2 ^ (h + 1) ≤ ds.length) (hb : ds.length ≤ 2 ^ 63) :
    joinNodes p H (nodeAt H ds h (2 * k)) (nodeAt H ds h (2 * k + 1)) =
      .ok (nodeAt H ds (h + 1) k) := by
  have e1 : (k + 1) * 2 ^ (h + 1) = (2 * k + 1) * 2 ^ h + 2 ^ h := by ring
  have e2 : (2 * k + 1) * 2 ^ h = 2 * k * 2 ^ h + 2 ^ h := by ring
  have e3 : k * 2 ^ (h + 1) = 2 * k * 2 ^ h := by ring
  have e4 : (2 : Nat) ^ (h + 1) = 2 * 2 ^ h := by ring
  have hpos := Nat.two_pow_pos h
  have b1 := pos_bound (h := h + 1) (k := k) (by omega)
  have b2 := pos_bound (h := h) (k := 2 * k) (by omega)
  unfold joinNodes Node.createNode nodeAt
  simp only []
  rw [parent_posOf_even p b2.2 (by omega)]
  simp only [Res.ok_bind, Res.pure_eq]
  congr 2
  rw [subHash_pow (c := h) (a := k * 2 ^ (h + 1)) (r := 2 ^ (h + 1)) (by omega) (by omega)
    (by rw [Nat.add_mul, Nat.one_mul] at hk; exact hk)]
  rw [e3, e4, e2]
  congr 3
  omega

/-- Outcome of running the join loop (and of `push`): `c` counts the writes done. -/
theorem joinAllLoop_spec (p : Profile) (H : HashFn) (ds : List Bytes) (hN : ds.length ≤ 2 ^ 63)
    (m : Nat → Option Prim) (rest : List Node) :
    ∀ (h j : Nat) (t : Tree E), Peaks H ds (j * 2 ^ h) rest → (j + 1) * 2 ^ h = ds.length →
      t.head = nodeAt H ds h j :: rest → t.storage.map = wr H ds m (h + 1) →
      (∃ t' c k, joinAllLoop p H (nodeAt H ds h j) rest t = (.ok (), t') ∧
        t'.leavesCount = t.leavesCount ∧ t'.storage.sched = t.storage.sched ∧
        ds.length = (2 * k + 1) * 2 ^ c ∧ h ≤ c ∧
        t'.storage.clock = t.storage.clock + (c - h) ∧
        (∀ x, t.storage.clock ≤ x → x < t'.storage.clock → t.storage.sched x = none) ∧
        t'.storage.map = wr H ds m (c + 1) ∧ Peaks H ds ds.length t'.head) ∨
      (∃ t' c k f, joinAllLoop p H (nodeAt H ds h j) rest t = (.error (.err (.storageError f.err)), t') ∧
        t'.leavesCount = t.leavesCount ∧ t'.storage.sched = t.storage.sched ∧
        ds.length = (k + 1) * 2 ^ c ∧ h < c ∧
        t'.storage.clock = t.storage.clock + (c - h) ∧
        t.storage.sched (t'.storage.clock - 1) = some f ∧
        t'.storage.map = wr H ds m (if f.applied then c + 1 else c) ∧ t'.head = []) := by
  induction rest with
  | nil =>
    intro h j t hp hj hh hm
    left
    have : j * 2 ^ h = 0 := by
      generalize hz : j * 2 ^ h = z at hp
      cases hp; rfl
    have hj0 : j = 0 := by
      rcases Nat.mul_eq_zero.1 this with h0 | h0
      · exact h0
      · have := Nat.two_pow_pos h; omega
    subst hj0
    refine ⟨t, h, 0, rfl, rfl, rfl, by rw [← hj], Nat.le_refl _, by omega, ?_, hm, ?_⟩
    · intro x h1 h2; omega
    · rw [hh]
      exact .cons h 0 [] _ (by simpa using Peaks.nil) (by rw [← hj])
  | cons y rest ih =>
    intro h j t hp hj hh hm
    generalize hz : j * 2 ^ h = z at hp
    cases hp with
    | cons h' k' _ _ hr he =>
      have hposh := Nat.two_pow_pos h
      have hposh' := Nat.two_pow_pos h'
      have e1 : (j + 1) * 2 ^ h = j * 2 ^ h + 2 ^ h := by ring
      have e2 : (2 * k' + 1) * 2 ^ h' = 2 * k' * 2 ^ h' + 2 ^ h' := by ring
      have b1 := pos_bound (h := h) (k := j) (by omega)
      have b2 := pos_bound (h := h') (k := 2 * k') (by omega)
      rw [joinAllLoop]
      have hh1 : (nodeAt H ds h j).position.height = h := height_posOf b1.2
      have hh2 : (nodeAt H ds h' (2 * k')).position.height = h' := height_posOf b2.2
      rw [hh1, hh2]
      by_cases heq : h = h'
      · subst heq
        rw [if_pos rfl]
        have hjk : j = 2 * k' + 1 := Nat.eq_of_mul_eq_mul_right hposh (by omega)
        subst hjk
        have e3 : (2 * k' + 1 + 1) * 2 ^ h = (k' + 1) * 2 ^ (h + 1) := by ring
        rw [Exec.modify_bind, joinNodes_complete p (by omega) hN, Exec.liftRes_ok_bind]
        have hk : ds.length / 2 ^ (h + 1) - 1 = k' := by
          rw [← hj, e3, Nat.mul_div_cancel _ (Nat.two_pow_pos _)]; omega
        have hwr : Store.upd (wr H ds m (h + 1)) (nodeAt H ds (h + 1) k').key
            (some (nodeAt H ds (h + 1) k').toPrim) = wr H ds m (h + 2) := by
          conv => rhs; rw [wr]
          rw [hk]; rfl
        cases hs : t.storage.sched t.storage.clock with
        | some f =>
          right
          have := Store.insert_fault (nodeAt H ds (h + 1) k').key (nodeAt H ds (h + 1) k').toPrim hs
          refine ⟨_, h + 1, k', f, Exec.bind_error (onStorage_error this), rfl, rfl, by omega, by omega,
            by simp, ?_, ?_, rfl⟩
          · simpa using hs
          · simp only []
            rw [hm, hwr]
            split <;> rfl
        | none =>
          have := Store.insert_none (nodeAt H ds (h + 1) k').key (nodeAt H ds (h + 1) k').toPrim hs
          have hstep := fun f => Exec.bind_ok (β := Unit) (f := f) (onStorage_ok (t := { t with head := [] }) this)
          rw [hstep, Exec.modify_bind]
          have hr' : Peaks H ds (k' * 2 ^ (h + 1)) rest := by
            have : k' * 2 ^ (h + 1) = 2 * k' * 2 ^ h := by ring
            rw [this]; exact hr
          generalize ht2 : Tree.mk (Store.mk (Store.upd t.storage.map (nodeAt H ds (h + 1) k').key
                  (some (nodeAt H ds (h + 1) k').toPrim)) t.storage.sched (t.storage.clock + 1))
              (nodeAt H ds (h + 1) k' :: rest) t.leavesCount = t2
          rcases ih (h + 1) k' t2 hr' (by omega) (by rw [← ht2]) (by
                rw [← ht2]; simp only []; rw [hm, hwr]) with
            ⟨t', c, k, q1, q2, q3, q4, q5, q6, q7, q8, q9⟩ | ⟨t', c, k, f, q1, q2, q3, q4, q5, q6, q7, q8, q9⟩
          · left
            subst ht2
            refine ⟨t', c, k, q1, q2, q3, q4, by omega, ?_, ?_, q8, q9⟩
            · rw [q6]; simp only []; omega
            · intro x hx1 hx2
              rcases Nat.lt_or_ge t.storage.clock x with hlt | hge
              · exact q7 x (by simp only []; omega) hx2
              · have : x = t.storage.clock := by omega
                rw [this]; exact hs
          · right
            subst ht2
            refine ⟨t', c, k, f, q1, q2, q3, q4, by omega, ?_, q7, q8, q9⟩
            rw [q6]; simp only []; omega
      · rw [if_neg heq]
        left
        have hjeven : j % 2 = 0 := by
          rcases Nat.mod_two_eq_zero_or_one j with h0 | h1
          · exact h0
          · exfalso
            apply heq
            have hj2 : j = 2 * (j / 2) + 1 := by omega
            apply (odd_mul_two_pow_inj (k := j / 2) (k' := k') _).1
            rw [← hj2]; omega
        have hj2 : j = 2 * (j / 2) := by omega
        generalize j / 2 = q at hj2
        subst hj2
        refine ⟨t, h, q, rfl, rfl, rfl, hj.symm, Nat.le_refl _, by omega, ?_, hm, ?_⟩
        · intro x h1 h2; omega
        · rw [hh]
          exact .cons h q _ _ (by rw [hz]; exact .cons h' k' rest _ hr he) hj.symm

/-- Everything `push` can do: success with `c + 1` writes, where `2 ^ c` is the largest
power of two dividing the new leaf count, or a storage error at one of those writes. -/
theorem push_spec (p : Profile) (H : HashFn) (ds : List Bytes) (d : Bytes) (t : Tree E)
    (hn : ds.length < 2 ^ 63) (hc : t.leavesCount = ds.length) (hp : Peaks H ds ds.length t.head) :
    (∃ t' c k, push p H d t = (.ok (), t') ∧
      t'.leavesCount = ds.length + 1 ∧ t'.storage.sched = t.storage.sched ∧
      ds.length + 1 = (2 * k + 1) * 2 ^ c ∧
      t'.storage.clock = t.storage.clock + (c + 1) ∧
      (∀ x, t.storage.clock ≤ x → x < t'.storage.clock → t.storage.sched x = none) ∧
      t'.storage.map = wr H (ds ++ [d]) t.storage.map (c + 1) ∧
      Peaks H (ds ++ [d]) (ds.length + 1) t'.head) ∨
    (∃ t' c k f, push p H d t = (.error (.err (.storageError f.err)), t') ∧
      t'.leavesCount = ds.length ∧ t'.storage.sched = t.storage.sched ∧
      ds.length + 1 = (k + 1) * 2 ^ c ∧
      t'.storage.clock = t.storage.clock + (c + 1) ∧
      t.storage.sched (t'.storage.clock - 1) = some f ∧
      t'.storage.map = wr H (ds ++ [d]) t.storage.map (if f.applied then c + 1 else c) ∧
      t'.head = if c = 0 then t.head else []) := by
  have hlen : (ds ++ [d]).length = ds.length + 1 := by simp
  have hleaf : Node.createLeaf p H t.leavesCount d = .ok (nodeAt H (ds ++ [d]) 0 ds.length) := by
    unfold Node.createLeaf nodeAt
    rw [hc, fromLeafIndex_ok p hn]
    simp only [Res.ok_bind, Res.pure_eq, Nat.pow_zero, Nat.mul_one]
    rw [subHash_leaf (by simp)]
    simp
  have hwr : Store.upd t.storage.map (nodeAt H (ds ++ [d]) 0 ds.length).key
      (some (nodeAt H (ds ++ [d]) 0 ds.length).toPrim) = wr H (ds ++ [d]) t.storage.map 1 := by
    simp only [wr, hlen, Nat.pow_zero, Nat.div_one, Nat.add_sub_cancel]
    rfl
  unfold push
  rw [Exec.get_bind, hleaf, Exec.liftRes_ok_bind]
  cases hs : t.storage.sched t.storage.clock with
  | some f =>
    right
    have := Store.insert_fault (nodeAt H (ds ++ [d]) 0 ds.length).key
      (nodeAt H (ds ++ [d]) 0 ds.length).toPrim hs
    refine ⟨_, 0, ds.length, f, Exec.bind_error (onStorage_error this), hc, rfl, by simp, by simp, ?_, ?_, ?_⟩
    · simpa using hs
    · simp only []
      rw [hwr]; split <;> rfl
    · rfl
  | none =>
    have := Store.insert_none (nodeAt H (ds ++ [d]) 0 ds.length).key
      (nodeAt H (ds ++ [d]) 0 ds.length).toPrim hs
    rw [Exec.bind_ok (onStorage_ok this), Exec.modify_bind]
    generalize ht2 : Tree.mk (Store.mk (Store.upd t.storage.map (nodeAt H (ds ++ [d]) 0 ds.length).key
            (some (nodeAt H (ds ++ [d]) 0 ds.length).toPrim)) t.storage.sched (t.storage.clock + 1))
        (nodeAt H (ds ++ [d]) 0 ds.length :: t.head) t.leavesCount = t2
    have hj : joinAllSubtrees p H t2 = joinAllLoop p H (nodeAt H (ds ++ [d]) 0 ds.length) t.head t2 := by
      unfold joinAllSubtrees
      rw [Exec.get_bind, ← ht2]
    rcases joinAllLoop_spec p H (ds ++ [d]) (by omega) t.storage.map t.head 0 ds.length t2
      (by simpa using hp.append [d] (Nat.le_refl _)) (by simp) (by rw [← ht2])
      (by rw [← ht2]; exact hwr) with
      ⟨t', c, k, q1, q2, q3, q4, q5, q6, q7, q8, q9⟩ | ⟨t', c, k, f, q1, q2, q3, q4, q5, q6, q7, q8, q9⟩
    · left
      subst ht2
      rw [Exec.bind_ok (hj.trans q1), Exec.get_bind]
      have hadd : u64Add p t'.leavesCount 1 = .ok (ds.length + 1) := by
        rw [q2]; simp only []; rw [hc, u64Add, if_pos (by omega)]
      rw [hadd, Exec.liftRes_ok_bind, Exec.modify_apply]
      refine ⟨_, c, k, rfl, rfl, q3, by omega, ?_, ?_, q8, ?_⟩
      · simp only []; rw [q6]; simp only []; omega
      · intro x hx1 hx2
        rcases Nat.lt_or_ge t.storage.clock x with hlt | hge
        · exact q7 x (by simp only []; omega) hx2
        · have : x = t.storage.clock := by omega
          rw [this]; exact hs
      · rw [hlen] at q9; exact q9
    · right
      subst ht2
      rw [Exec.bind_error (hj.trans q1)]
      refine ⟨t', c, k, f, rfl, by rw [q2]; exact hc, q3, by omega, ?_, q7, q8, ?_⟩
      · rw [q6]; simp only []; omega
      · rw [q9, if_neg (by omega)]

/-! ### Storage contents -/

/-- The storage holds every complete subtree of `ds`. -/
def Agree (H : HashFn) (ds : List Bytes) (m : Nat → Option Prim) : Prop :=
  ∀ h k, (k + 1) * 2 ^ h ≤ ds.length → m (ioIndex h k) = some (nodeAt H ds h k).toPrim

/-- The storage holds nothing but complete subtrees of `ds`. -/
def Only (n : Nat) (m : Nat → Option Prim) : Prop :=
  ∀ h k, n < (k + 1) * 2 ^ h → m (ioIndex h k) = none

theorem wr_apply (H : HashFn) (ds : List Bytes) (m : Nat → Option Prim) {c j : Nat}
    (hd : ds.length = (j + 1) * 2 ^ c) {c' : Nat} (hc' : c' ≤ c + 1) (h k : Nat) :
    wr H ds m c' (ioIndex h k) =
      if h < c' ∧ (k + 1) * 2 ^ h = ds.length then some (nodeAt H ds h k).toPrim
      else m (ioIndex h k) := by
  induction c' with
  | zero => simp [wr]
  | succ x ih =>
    rw [wr]
    have hx : ∃ q, ds.length = (q + 1) * 2 ^ x := by
      obtain ⟨e, he⟩ := Nat.exists_eq_add_of_le (show x ≤ c by omega)
      have : 0 < (j + 1) * 2 ^ e := Nat.mul_pos (by omega) (Nat.two_pow_pos _)
      refine ⟨(j + 1) * 2 ^ e - 1, ?_⟩
      rw [Nat.sub_add_cancel this, hd, he, Nat.pow_add]; ring
    obtain ⟨q, hq⟩ := hx
    have hk : ds.length / 2 ^ x - 1 = q := by
      rw [hq, Nat.mul_div_cancel _ (Nat.two_pow_pos _)]; omega
    simp only [hk]
    rw [Store.upd_apply]
    by_cases he : ioIndex h k = ioIndex x q
    · obtain ⟨rfl, rfl⟩ := ioIndex_injective he
      rw [if_pos rfl, if_pos ⟨by omega, hq.symm⟩]
    · rw [if_neg he, ih (by omega)]
      have : (h < x ∧ (k + 1) * 2 ^ h = ds.length) ↔ (h < x + 1 ∧ (k + 1) * 2 ^ h = ds.length) := by
        constructor
        · rintro ⟨h1, h2⟩; exact ⟨by omega, h2⟩
        · rintro ⟨h1, h2⟩
          refine ⟨?_, h2⟩
          rcases Nat.lt_or_ge h x with hl | hg
          · exact hl
          · exfalso
            have : h = x := by omega
            subst this
            apply he
            have : k + 1 = q + 1 := Nat.eq_of_mul_eq_mul_right (Nat.two_pow_pos h) (by omega)
            have : k = q := by omega
            rw [this]
      simp only [this]

theorem Agree.wr {H : HashFn} {ds : List Bytes} {d : Bytes} {m : Nat → Option Prim}
    (hm : Agree H ds m) {c j c' : Nat} (hd : ds.length + 1 = (j + 1) * 2 ^ c) (hc' : c' ≤ c + 1) :
    Agree H ds (wr H (ds ++ [d]) m c') := by
  intro h k hk
  rw [wr_apply H _ m (c := c) (j := j) (by simpa using hd) hc', if_neg]
  · exact hm h k hk
  · rintro ⟨_, h2⟩
    simp at h2; omega

theorem Agree.wr_all {H : HashFn} {ds : List Bytes} {d : Bytes} {m : Nat → Option Prim}
    (hm : Agree H ds m) {c j : Nat} (hd : ds.length + 1 = (2 * j + 1) * 2 ^ c) :
    Agree H (ds ++ [d]) (Binary.wr H (ds ++ [d]) m (c + 1)) := by
  intro h k hk
  rw [wr_apply H _ m (c := c) (j := 2 * j) (by simpa using hd) (Nat.le_refl _)]
  split
  · rfl
  · rename_i hn
    simp only [List.length_append, List.length_singleton] at hk hn
    rcases Nat.lt_or_ge ds.length ((k + 1) * 2 ^ h) with hlt | hge
    · exfalso
      apply hn
      refine ⟨?_, by omega⟩
      rcases Nat.lt_or_ge h (c + 1) with h1 | h1
      · exact h1
      · exfalso
        have e : (k + 1) * 2 ^ h = (2 * j + 1) * 2 ^ c := by omega
        obtain ⟨x, hx⟩ := Nat.exists_eq_add_of_le h1
        have : (k + 1) * 2 ^ h = ((k + 1) * 2 ^ x * 2) * 2 ^ c := by
          rw [hx, Nat.pow_add, Nat.pow_succ]; ring
        have : (k + 1) * 2 ^ x * 2 = 2 * j + 1 :=
          Nat.eq_of_mul_eq_mul_right (Nat.two_pow_pos c) (by omega)
        omega
    · rw [hm h k hge, nodeAt_append hge]

theorem Only.wr {H : HashFn} {ds : List Bytes} {d : Bytes} {m : Nat → Option Prim}
    (hm : Only ds.length m) {c j c' : Nat} (hd : ds.length + 1 = (j + 1) * 2 ^ c) (hc' : c' ≤ c + 1) :
    Only (ds.length + 1) (Binary.wr H (ds ++ [d]) m c') := by
  intro h k hk
  rw [wr_apply H _ m (c := c) (j := j) (by simpa using hd) hc', if_neg]
  · exact hm h k (by omega)
  · rintro ⟨_, h2⟩
    simp at h2; omega

/-- Invariant of an open tree holding the leaves `ds`. -/
structure Inv (H : HashFn) (ds : List Bytes) (t : Tree E) : Prop where
  count : t.leavesCount = ds.length
  peaks : Peaks H ds ds.length t.head
  agree : Agree H ds t.storage.map

end Binary
end FuelMerkle
