import Verif.Proofs.BinaryRoot
import Verif.Spec.BinaryApi

/-
Histories of the binary Merkle tree.
-/
namespace FuelMerkle
namespace Binary
open Spec
variable {E : Type}

theorem Inv.new (H : HashFn) (s : BStore E) : Inv H [] (Tree.new s) :=
  ⟨rfl, .nil, by
    intro h k hk
    have : 0 < (k + 1) * 2 ^ h := Nat.mul_pos (by omega) (Nat.two_pow_pos _)
    simp at hk⟩

theorem Inv.same {H : HashFn} {ds : List Bytes} {t t' : Tree E} (h : Inv H ds t) (hs : Same t t') :
    Inv H ds t' :=
  ⟨hs.count.trans h.count, by rw [hs.head]; exact h.peaks, by rw [hs.map]; exact h.agree⟩

theorem push_inv (p : Profile) (H : HashFn) {ds : List Bytes} (d : Bytes) {t : Tree E}
    (ht : Inv H ds t) (hn : ds.length < 2 ^ 63) (hr : t.storage.Reliable) :
    ∃ t', push p H d t = (.ok (), t') ∧ Inv H (ds ++ [d]) t' ∧ t'.storage.Reliable := by
  rcases push_spec p H ds d t hn ht.count ht.peaks with
    ⟨t', c, k, q1, q2, q3, q4, q5, q6, q7, q8⟩ | ⟨t', c, k, f, q1, q2, q3, q4, q5, q6, q7, q8⟩
  · refine ⟨t', q1, ⟨by simp [q2], by simpa using q8, ?_⟩, ?_⟩
    · rw [q7]; exact ht.agree.wr_all q4
    · intro x; rw [q3]; exact hr x
  · rw [hr] at q6; cases q6

theorem pushAll_inv (p : Profile) (H : HashFn) (es : List Bytes) : ∀ {ds : List Bytes} {t : Tree E},
    Inv H ds t → ds.length + es.length ≤ 2 ^ 63 → t.storage.Reliable →
    ∃ t', pushAll p H es t = (.ok (), t') ∧ Inv H (ds ++ es) t' ∧ t'.storage.Reliable := by
  induction es with
  | nil => intro ds t ht _ hr; exact ⟨t, rfl, by simpa using ht, hr⟩
  | cons d es ih =>
    intro ds t ht hn hr
    simp only [List.length_cons] at hn
    obtain ⟨t1, h1, h2, h3⟩ := push_inv p H d ht (by omega) hr
    obtain ⟨t2, h4, h5, h6⟩ := ih h2 (by simp; omega) h3
    refine ⟨t2, ?_, by simpa using h5, h6⟩
    rw [pushAll, Exec.bind_ok h1, h4]

theorem prove_out_of_range (p : Profile) (H : HashFn) {i : Nat} (t : Tree E) (hi : i + 1 < 2 ^ 64)
    (hle : t.leavesCount ≤ i) :
    prove p H i t = (.error (.err (.invalidProofIndex i)), t) := by
  unfold prove
  rw [Exec.get_bind, u64Add, if_pos hi, Exec.liftRes_ok_bind, if_pos (by omega)]
  rfl

/-- Refinement: on reliable storage the tree is the list machine. -/
theorem run_refines (p : Profile) (H : HashFn) (ops : List Op) : ∀ {ds : List Bytes} {t : Tree E},
    Inv H ds t → ds.length + pushCount ops < p.leafLimit → indicesOk ops → t.storage.Reliable →
    (run p H ops t).1 = (specRun H ops ds).1 ∧ Inv H (specRun (E := E) H ops ds).2 (run p H ops t).2 := by
  have hlim := p.leafLimit_le
  induction ops with
  | nil => intro ds t ht _ _ _; exact ⟨rfl, ht⟩
  | cons op ops ih =>
    intro ds t ht hn hi hr
    cases op with
    | push d =>
      simp only [pushCount] at hn
      obtain ⟨t1, h1, h2, h3⟩ := push_inv p H d ht (by omega) hr
      obtain ⟨e1, e2⟩ := ih h2 (by simp; omega) hi h3
      simp only [run, step, specRun, specStep, h1]
      exact ⟨by rw [e1], e2⟩
    | root =>
      simp only [pushCount] at hn
      obtain ⟨e1, e2⟩ := ih ht hn hi hr
      simp only [run, step, specRun, specStep, root_spec p H ds (by omega) t ht.peaks]
      exact ⟨by rw [e1], e2⟩
    | prove i =>
      simp only [pushCount] at hn
      obtain ⟨hi1, hi⟩ := hi
      rcases Nat.lt_or_ge i ds.length with hlt | hge
      · obtain ⟨t1, hs, h1 | ⟨e, he, _⟩⟩ := prove_spec p H ds t ht (by omega) hlt
        · obtain ⟨e1, e2⟩ := ih (ht.same hs) hn hi (by intro x; rw [hs.sched]; exact hr x)
          simp only [run, step, specRun, specStep, h1, List.getElem?_eq_getElem hlt]
          exact ⟨by rw [e1], e2⟩
        · exact absurd hr he.not_reliable
      · have h1 := prove_out_of_range p H t hi1 (by rw [ht.count]; exact hge)
        obtain ⟨e1, e2⟩ := ih ht hn hi hr
        simp only [run, step, specRun, specStep, h1, List.getElem?_eq_none hge]
        exact ⟨by rw [e1], e2⟩

/-! ### Histories with failures and exact storage contents -/

theorem push_ok_inv (p : Profile) (H : HashFn) {ds : List Bytes} {d : Bytes} {t t' : Tree E}
    (ht : Inv H ds t) (hn : ds.length < 2 ^ 63) (h : push p H d t = (.ok (), t')) :
    Inv H (ds ++ [d]) t' ∧ t'.storage.sched = t.storage.sched ∧
      (Only ds.length t.storage.map → Only (ds.length + 1) t'.storage.map) ∧
      ∃ c k, ds.length + 1 = (2 * k + 1) * 2 ^ c ∧ t'.storage.clock = t.storage.clock + (c + 1) := by
  rcases push_spec p H ds d t hn ht.count ht.peaks with
    ⟨t2, c, k, q1, q2, q3, q4, q5, q6, q7, q8⟩ | ⟨t2, c, k, f, q1, q2, q3, q4, q5, q6, q7, q8⟩
  · rw [q1] at h
    simp only [Prod.mk.injEq, true_and] at h
    subst h
    refine ⟨⟨by simp [q2], by simpa using q8, ?_⟩, q3, ?_, c, k, q4, q5⟩
    · rw [q7]; exact ht.agree.wr_all q4
    · intro ho
      rw [q7]; exact ho.wr q4 (Nat.le_refl _)
  · rw [q1] at h
    simp at h

theorem pushAll_ok_inv (p : Profile) (H : HashFn) (es : List Bytes) :
    ∀ {ds : List Bytes} {t t' : Tree E}, Inv H ds t → ds.length + es.length ≤ 2 ^ 63 →
    pushAll p H es t = (.ok (), t') →
    Inv H (ds ++ es) t' ∧ t'.storage.sched = t.storage.sched ∧
      (Only ds.length t.storage.map → Only (ds ++ es).length t'.storage.map) := by
  induction es with
  | nil =>
    intro ds t t' ht _ h
    simp only [pushAll, Exec.pure_apply, Prod.mk.injEq, true_and] at h
    subst h
    exact ⟨by simpa using ht, rfl, by simp⟩
  | cons d es ih =>
    intro ds t t' ht hn h
    simp only [List.length_cons] at hn
    rw [pushAll, Exec.bind_apply] at h
    rcases hp : push p H d t with ⟨e | u, t1⟩
    · rw [hp] at h; simp at h
    · rw [hp] at h
      obtain ⟨h1, h2, h3, _⟩ := push_ok_inv p H ht (by omega) hp
      obtain ⟨h4, h5, h6⟩ := ih h1 (by simp; omega) h
      refine ⟨by simpa using h4, h5.trans h2, ?_⟩
      intro ho
      have := h6 (by simpa using h3 ho)
      simpa using this

/-- A push never panics, and when it fails the stored tree is intact. -/
theorem push_error_inv (p : Profile) (H : HashFn) {ds : List Bytes} {d : Bytes} {t t' : Tree E}
    {e : Fail (Error E)} (ht : Inv H ds t) (hn : ds.length < 2 ^ 63) (h : push p H d t = (.error e, t')) :
    (∃ x f, t.storage.clock ≤ x ∧ t.storage.sched x = some f ∧ e = .err (.storageError f.err)) ∧
      t'.leavesCount = ds.length ∧ Agree H ds t'.storage.map ∧
      ((t'.head = t.head ∧ t'.storage.clock = t.storage.clock + 1) ∨
        (t'.head = [] ∧ t.storage.clock + 1 < t'.storage.clock)) := by
  rcases push_spec p H ds d t hn ht.count ht.peaks with
    ⟨t2, c, k, q1, q2, q3, q4, q5, q6, q7, q8⟩ | ⟨t2, c, k, f, q1, q2, q3, q4, q5, q6, q7, q8⟩
  · rw [q1] at h; simp at h
  · rw [q1] at h
    simp only [Prod.mk.injEq, Except.error.injEq] at h
    obtain ⟨rfl, rfl⟩ := h
    refine ⟨⟨_, f, ?_, q6, rfl⟩, q2, ?_, ?_⟩
    · omega
    · rw [q7]; exact ht.agree.wr q4 (by split <;> omega)
    · by_cases hc : c = 0
      · left; rw [if_pos hc] at q8; exact ⟨q8, by omega⟩
      · right; rw [if_neg hc] at q8; exact ⟨q8, by omega⟩

/-! ### Peaks as binary digits -/

theorem peakRanges_peaks (b : Nat) : ∀ a n, peakRanges a (n % 2 ^ b + 1) = Spec.peaks b a n := by
  induction b with
  | zero => intro a n; rw [Nat.pow_zero, Nat.mod_one, Spec.peaks]; exact peakRanges_one a
  | succ b ih =>
    intro a n
    have hlt := Nat.mod_lt n (Nat.two_pow_pos b)
    have hmod : n % 2 ^ (b + 1) = n % 2 ^ b + 2 ^ b * (n / 2 ^ b % 2) := by
      rw [Nat.pow_succ]; exact Nat.mod_mul
    rw [Spec.peaks, Nat.testBit_eq_decide_div_mod_eq]
    rcases Nat.mod_two_eq_zero_or_one (n / 2 ^ b) with h0 | h1
    · rw [hmod, h0]
      simp [ih]
    · rw [hmod, h1]
      simp only [Nat.mul_one, decide_true, if_true]
      rw [peakRanges_pow (c := b) (by omega) (by rw [Nat.pow_succ]; omega), ← ih]
      congr 2
      omega

theorem peakRanges_eq {n : Nat} (hn : n < 2 ^ 64) : peakRanges 0 (n + 1) = Spec.peaks 64 0 n := by
  rw [← peakRanges_peaks, Nat.mod_eq_of_lt hn]

/-! ### Number of writes -/

theorem popcount_double (k : Nat) : popcount (2 * k) = popcount k := by
  rw [popcount]
  split
  · rename_i h
    have : k = 0 := by omega
    subst this; rw [popcount]; simp
  · rw [Nat.mul_mod_right, Nat.zero_add, Nat.mul_div_cancel_left _ (by omega)]

theorem popcount_double_add_one (k : Nat) : popcount (2 * k + 1) = popcount k + 1 := by
  rw [popcount, dif_neg (by omega)]
  rw [show (2 * k + 1) % 2 = 1 by omega, show (2 * k + 1) / 2 = k by omega, Nat.add_comm]

theorem popcount_odd_mul (c k : Nat) : popcount ((2 * k + 1) * 2 ^ c) = popcount k + 1 := by
  induction c with
  | zero => rw [Nat.pow_zero, Nat.mul_one, popcount_double_add_one]
  | succ c ih =>
    rw [show (2 * k + 1) * 2 ^ (c + 1) = 2 * ((2 * k + 1) * 2 ^ c) by ring, popcount_double, ih]

theorem popcount_pred (c k : Nat) : popcount ((2 * k + 1) * 2 ^ c - 1) = popcount k + c := by
  induction c with
  | zero => rw [Nat.pow_zero, Nat.mul_one, Nat.add_sub_cancel, popcount_double, Nat.add_zero]
  | succ c ih =>
    have h0 : 0 < (2 * k + 1) * 2 ^ c := Nat.mul_pos (by omega) (Nat.two_pow_pos _)
    have : (2 * k + 1) * 2 ^ (c + 1) - 1 = 2 * ((2 * k + 1) * 2 ^ c - 1) + 1 := by
      rw [show (2 * k + 1) * 2 ^ (c + 1) = 2 * ((2 * k + 1) * 2 ^ c) by ring]; omega
    rw [this, popcount_double_add_one, ih, Nat.add_assoc]

theorem popcount_le (n : Nat) : popcount n ≤ n := by
  induction n using Nat.strongRecOn with
  | _ n ih =>
    rw [popcount]
    split
    · omega
    · have := ih (n / 2) (by omega)
      omega

theorem pushAll_clock (p : Profile) (H : HashFn) (es : List Bytes) :
    ∀ {ds : List Bytes} {t t' : Tree E}, Inv H ds t → ds.length + es.length ≤ 2 ^ 63 →
    pushAll p H es t = (.ok (), t') →
    t'.storage.clock + popcount (ds.length + es.length) + 2 * ds.length =
      t.storage.clock + popcount ds.length + 2 * (ds.length + es.length) := by
  induction es with
  | nil =>
    intro ds t t' ht _ h
    simp only [pushAll, Exec.pure_apply, Prod.mk.injEq, true_and] at h
    subst h
    simp
  | cons d es ih =>
    intro ds t t' ht hn h
    simp only [List.length_cons] at hn ⊢
    rw [pushAll, Exec.bind_apply] at h
    rcases hp : push p H d t with ⟨e | u, t1⟩
    · rw [hp] at h; simp at h
    · rw [hp] at h
      obtain ⟨h1, h2, h3, c, k, hk, hc⟩ := push_ok_inv p H ht (by omega) hp
      have := ih h1 (by simp; omega) h
      simp only [List.length_append, List.length_singleton] at this
      have e1 := popcount_odd_mul c k
      have e2 := popcount_pred c k
      rw [← hk] at e1 e2
      rw [Nat.add_sub_cancel] at e2
      rw [show ds.length + (es.length + 1) = ds.length + 1 + es.length by omega]
      omega

theorem exists_odd_mul (n : Nat) (h : 0 < n) : ∃ c k, n = (2 * k + 1) * 2 ^ c := by
  obtain ⟨c, k, e⟩ := ioIndex_surjective (n - 1)
  have := ioIndex_succ c k
  exact ⟨c, k, by rw [Nat.mul_comm]; omega⟩

theorem keys_exist (n : Nat) : ∃ l : List Nat, l.Nodup ∧
    (∀ h k, ioIndex h k ∈ l ↔ (k + 1) * 2 ^ h ≤ n) ∧ l.length + popcount n = 2 * n := by
  induction n with
  | zero =>
    refine ⟨[], List.nodup_nil, ?_, by rw [popcount]; simp⟩
    intro h k
    have : 0 < (k + 1) * 2 ^ h := Nat.mul_pos (by omega) (Nat.two_pow_pos _)
    simp
  | succ n ih =>
    obtain ⟨l, h1, h2, h3⟩ := ih
    obtain ⟨c, j, hj⟩ := exists_odd_mul (n + 1) (by omega)
    have hx : ∀ x, x < c + 1 → ((n + 1) / 2 ^ x - 1 + 1) * 2 ^ x = n + 1 := by
      intro x hx
      obtain ⟨e, he⟩ := Nat.exists_eq_add_of_le (show x ≤ c by omega)
      have hq : n + 1 = ((2 * j + 1) * 2 ^ e) * 2 ^ x := by rw [hj, he, Nat.pow_add]; ring
      have h0 : 0 < (2 * j + 1) * 2 ^ e := Nat.mul_pos (by omega) (Nat.two_pow_pos _)
      rw [hq, Nat.mul_div_cancel _ (Nat.two_pow_pos _), Nat.sub_add_cancel h0]
    refine ⟨(List.range (c + 1)).map (fun x => ioIndex x ((n + 1) / 2 ^ x - 1)) ++ l, ?_, ?_, ?_⟩
    · rw [List.nodup_append]
      refine ⟨?_, h1, ?_⟩
      · rw [List.Nodup, List.pairwise_map]
        apply List.nodup_range.imp
        intro a b hab e
        exact hab (ioIndex_injective e).1
      · intro a ha b hb hab
        obtain ⟨x, hxm, rfl⟩ := List.mem_map.1 ha
        subst hab
        have := (h2 _ _).1 hb
        have := hx x (List.mem_range.1 hxm)
        omega
    · intro h k
      rw [List.mem_append, h2, List.mem_map]
      constructor
      · rintro (⟨x, hxm, e⟩ | hle)
        · obtain ⟨rfl, rfl⟩ := ioIndex_injective e
          have := hx x (List.mem_range.1 hxm)
          omega
        · omega
      · intro hle
        rcases Nat.lt_or_ge n ((k + 1) * 2 ^ h) with hlt | hge
        · left
          have e : (k + 1) * 2 ^ h = n + 1 := by omega
          have hk : k = (n + 1) / 2 ^ h - 1 := by
            rw [← e, Nat.mul_div_cancel _ (Nat.two_pow_pos _)]; omega
          refine ⟨h, List.mem_range.2 ?_, by rw [← hk]⟩
          rcases Nat.lt_or_ge h (c + 1) with h1 | h1
          · exact h1
          · exfalso
            have e : (k + 1) * 2 ^ h = (2 * j + 1) * 2 ^ c := by omega
            obtain ⟨x, hx⟩ := Nat.exists_eq_add_of_le h1
            have : (k + 1) * 2 ^ h = ((k + 1) * 2 ^ x * 2) * 2 ^ c := by
              rw [hx, Nat.pow_add, Nat.pow_succ]; ring
            have : (k + 1) * 2 ^ x * 2 = 2 * j + 1 :=
              Nat.eq_of_mul_eq_mul_right (Nat.two_pow_pos c) (by omega)
            omega
        · right; exact hge
    · simp only [List.length_append, List.length_map, List.length_range]
      have e1 := popcount_odd_mul c j
      have e2 := popcount_pred c j
      rw [← hj] at e1 e2
      rw [Nat.add_sub_cancel] at e2
      omega

/-! ### Beyond the range of `i64` position arithmetic -/

theorem children_63_panic (p : Profile) (hp : p.overflowChecks = true) :
    (posOf 63 0).rightChild p = .error .overflow ∧ (posOf 63 0).leftChild p = .ok (posOf 62 0) := by
  obtain ⟨a, b⟩ := p
  simp only at hp
  subst hp
  cases b <;> exact ⟨rfl, rfl⟩

theorem pathList_panic (p : Profile) (hp : p.overflowChecks = true) {i n : Nat} (hn : 0 < n)
    (hn2 : n ≤ 2 ^ 63) (hi : i < 2 ^ 63) : (posOf 63 0).pathList p (posOf 0 i) n = .error .overflow := by
  have hh : (posOf 63 0).height = 63 := height_posOf (by decide)
  unfold Position.pathList PositionPathIter.new
  rw [u64Sub, if_pos (by omega), Res.ok_bind, fromLeafIndex_ok p (by omega), Res.ok_bind]
  simp only [PathIter.new]
  have hl : (positionNode p).lift (usizeSub p (positionNode p).keySizeInBits
      ((positionNode p).height (posOf 63 0))) = .ok 1 := by
    simp only [positionNode, hh, usizeSub, if_pos (show 63 ≤ 64 by omega)]
  rw [hl]
  simp only [Res.ok_bind, Res.pure_eq]
  have hfuel : PathIter.fuel (positionNode p) = 65 + 1 := rfl
  rw [hfuel, PositionPathIter.collect, hfuel, PositionPathIter.next]
  have hnext : ∀ it : PathIter Position Empty, it.leaf = posOf 0 i →
      it.current = some (.ok (posOf 63 0), .ok (posOf 63 0)) → it.currentOffset = 1 →
      it.next (positionNode p) = .error .overflow := by
    intro it h1 h2 h3
    have hnode : (positionNode p).isNode (posOf 63 0) = true := by simp [positionNode, isNode_posOf]
    have hkey : (positionNode p).leafKey (posOf 0 i) = .ok (u64ToBeBytes i) := by
      simp [positionNode, leafIndex_posOf]
    have hl : (positionNode p).leftChild (posOf 63 0) = .ok (.ok (posOf 62 0)) := by
      simp [positionNode, (children_63_panic p hp).2]
    have hr : (positionNode p).rightChild (posOf 63 0) = .error .overflow := by
      simp [positionNode, (children_63_panic p hp).1]
    unfold PathIter.next
    rw [h1, h2, h3]
    simp only [hnode, if_true, hkey, Res.ok_bind]
    rw [getBit_u64 (by omega) (by omega)]
    cases i.testBit (63 - 1) <;> simp [hl, hr]
  have := hnext { leaf := posOf 0 i, current := some (.ok (posOf 63 0), .ok (posOf 63 0)), currentOffset := 1 }
    rfl rfl rfl
  rw [this]
  rfl

/-! ### Observations are pure -/

/-- A computation that only reads. -/
def ReadOnly {α : Type} (x : TreeM E α) : Prop := ∀ t, Same t (x t).2

namespace ReadOnly
variable {α β : Type}

theorem pure (a : α) : ReadOnly (E := E) (Pure.pure a) := fun t => .refl t
theorem get : ReadOnly (E := E) Exec.get := fun t => .refl t
theorem throw (e : Fail (Error E)) : ReadOnly (α := α) (Exec.throw e) := fun t => .refl t
theorem liftRes (x : Res α) : ReadOnly (E := E) (Exec.liftRes x) := by
  intro t; cases x <;> exact .refl t
theorem bind {x : TreeM E α} {f : α → TreeM E β} (hx : ReadOnly x) (hf : ∀ a, ReadOnly (f a)) :
    ReadOnly (x >>= f) := by
  intro t
  have h := hx t
  rw [Exec.bind_apply]
  rcases hxt : x t with ⟨a | a, t'⟩
  · rw [hxt] at h; exact h
  · rw [hxt] at h; exact h.trans (hf a t')
theorem storageGet (key : Nat) : ReadOnly (E := E) (onStorage (Store.get key)) := by
  intro t
  obtain ⟨t', h, ⟨_, e⟩ | ⟨_, _, e⟩⟩ := onStorage_get key t <;> rw [e] <;> exact h

end ReadOnly

theorem proveSides_readOnly (S : Scratch) (ps : List Position) : ReadOnly (E := E) (proveSides S ps) := by
  induction ps with
  | nil => exact .pure _
  | cons x ps ih =>
    rw [proveSides]
    refine (ReadOnly.storageGet _).bind fun v => ?_
    split
    · exact .throw _
    · exact ih.bind fun _ => .pure _

theorem prove_readOnly (p : Profile) (H : HashFn) (i : Nat) : ReadOnly (E := E) (prove p H i) := by
  unfold prove
  refine ReadOnly.get.bind fun t => ?_
  refine (ReadOnly.liftRes _).bind fun next => ?_
  split
  · exact .throw _
  · refine (ReadOnly.liftRes _).bind fun r => ?_
    refine (ReadOnly.liftRes _).bind fun l => ?_
    refine (ReadOnly.storageGet _).bind fun v => ?_
    split
    · exact .throw _
    · refine (ReadOnly.liftRes _).bind fun items => ?_
      refine (ReadOnly.liftRes _).bind fun rn => ?_
      dsimp only
      refine (ReadOnly.liftRes _).bind fun rn => ?_
      refine (proveSides_readOnly _ _).bind fun _ => .pure _

/-! ### Clients -/

/-- Invariant of the client of `Spec/BinaryApi`. -/
structure ClientInv (H : HashFn) (c : Client E) : Prop where
  agree : Agree H c.acked c.storage.map
  tree : ∀ t, c.tree = some t → Inv H c.acked t ∧ t.storage = c.storage

theorem ClientInv.start (H : HashFn) (s : BStore E) : ClientInv H (Client.start s) :=
  ⟨(Inv.new H s).agree, by
    intro t ht
    simp only [Client.start, Option.some.injEq] at ht
    subst ht
    exact ⟨Inv.new H s, rfl⟩⟩

theorem ClientInv.step (p : Profile) {H : HashFn} {c : Client E} (h : ClientInv H c) (ev : Event)
    (hn : c.acked.length < p.leafLimit) : ClientInv H (c.step p H ev) := by
  have hlim := p.leafLimit_le
  cases ev with
  | push d =>
    unfold Client.step
    cases hc : c.tree with
    | none => simpa [hc] using h
    | some t =>
      obtain ⟨ht, hst⟩ := h.tree t hc
      rcases push_spec p H c.acked d t (by omega) ht.count ht.peaks with
        ⟨t', x, k, q1, q2, q3, q4, q5, q6, q7, q8⟩ | ⟨t', x, k, f, q1, q2, q3, q4, q5, q6, q7, q8⟩
      · simp only [q1]
        have ha : Agree H (c.acked ++ [d]) t'.storage.map := by
          rw [q7]; exact ht.agree.wr_all q4
        refine ⟨ha, ?_⟩
        intro t2 ht2
        simp only [Option.some.injEq] at ht2
        subst ht2
        exact ⟨⟨by simp [q2], by simpa using q8, ha⟩, rfl⟩
      · simp only [q1]
        refine ⟨?_, by simp⟩
        simp only []
        rw [q7]
        exact ht.agree.wr q4 (by split <;> omega)
  | crash =>
    unfold Client.step
    exact ⟨h.agree, by simp⟩
  | reopen =>
    unfold Client.step
    simp only []
    obtain ⟨x, hx, ⟨l, hl, e⟩ | ⟨er, _, e⟩⟩ := load_agree p c.storage h.agree hn (Nat.le_refl _)
    · rw [e]
      simp only []
      refine ⟨h.agree, ?_⟩
      intro t ht
      simp only [Option.some.injEq] at ht
      subst ht
      refine ⟨⟨rfl, ?_, h.agree⟩, rfl⟩
      simpa using hl
    · rw [e]
      exact ⟨h.agree, by simp⟩

theorem Client.acked_mono (p : Profile) (H : HashFn) (ev : Event) (c : Client E) :
    c.acked.length ≤ (c.step p H ev).acked.length := by
  unfold Client.step
  split
  · split <;> simp
  · simp
  · simp
  · split <;> simp

theorem Client.run_mono (p : Profile) (H : HashFn) (evs : List Event) : ∀ (c : Client E),
    c.acked.length ≤ (c.run p H evs).acked.length := by
  induction evs with
  | nil => intro c; exact Nat.le_refl _
  | cons ev evs ih => intro c; exact Nat.le_trans (Client.acked_mono p H ev c) (ih _)

theorem ClientInv.run (p : Profile) {H : HashFn} (evs : List Event) : ∀ {c : Client E},
    ClientInv H c → (c.run p H evs).acked.length < p.leafLimit → ClientInv H (c.run p H evs) := by
  induction evs with
  | nil => intro c h _; exact h
  | cons ev evs ih =>
    intro c h hn
    have := Nat.le_trans (Client.acked_mono p H ev c) (Client.run_mono p H evs (c.step p H ev))
    exact ih (h.step p ev (Nat.lt_of_le_of_lt this hn)) hn

end Binary
end FuelMerkle
