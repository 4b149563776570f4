import Verif.Spec.ConcurrentLive
import Verif.Proofs.Concurrent
import Verif.Proofs.ReplayBinary
import Verif.Proofs.TapeLive

/-
Processes that share a storage that works: nobody fails.
-/
namespace FuelMerkle
namespace Binary.Any
open Spec Binary
variable {S E : Type} {B : Backend S Nat Prim E} {seen : S → Nat → Prim → Prop} {H : HashFn} {L : List Bytes}

/-! ### Subtrees within subtrees -/

/-- The key `y` is that of a complete subtree within that of `x`, which has no leaves after the first `n`. -/
def Below (n x y : Nat) : Prop :=
  ∃ h k h' k', x = ioIndex h k ∧ y = ioIndex h' k' ∧ (k + 1) * 2 ^ h ≤ n ∧ k * 2 ^ h ≤ k' * 2 ^ h' ∧ (k' + 1) * 2 ^ h' ≤ (k + 1) * 2 ^ h

theorem within_height {h k h' k' : Nat} (h1 : k * 2 ^ h ≤ k' * 2 ^ h') (h2 : (k' + 1) * 2 ^ h' ≤ (k + 1) * 2 ^ h) : h' ≤ h := by
  by_contra hlt
  have : 2 ^ h < 2 ^ h' := Nat.pow_lt_pow_right (by omega) (by omega)
  have e1 : (k' + 1) * 2 ^ h' = k' * 2 ^ h' + 2 ^ h' := by ring
  have e2 : (k + 1) * 2 ^ h = k * 2 ^ h + 2 ^ h := by ring
  omega

/-- A complete subtree is on one side of a boundary. -/
theorem aside {h h' m k' : Nat} (hle : h' ≤ h) : (k' + 1) * 2 ^ h' ≤ m * 2 ^ h ∨ m * 2 ^ h ≤ k' * 2 ^ h' := by
  have e : m * 2 ^ h = (m * 2 ^ (h - h')) * 2 ^ h' := by
    rw [Nat.mul_assoc, ← Nat.pow_add]
    congr 2
    omega
  rw [e]
  rcases Nat.lt_or_ge k' (m * 2 ^ (h - h')) with hlt | hge
  · exact .inl (Nat.mul_le_mul_right _ hlt)
  · exact .inr (Nat.mul_le_mul_right _ hge)

theorem aside_even {h k h' k' : Nat} (hb : (k' + 1) * 2 ^ h' ≤ (2 * k + 1) * 2 ^ h) :
    (k' + 1) * 2 ^ h' ≤ 2 * k * 2 ^ h ∨ 2 * k * 2 ^ h ≤ k' * 2 ^ h' := by
  rcases Nat.lt_or_ge h h' with hlt | hle
  · left
    have e : 2 ^ h' = 2 ^ (h' - h - 1) * 2 * 2 ^ h := by
      rw [← Nat.pow_succ, ← Nat.pow_add]
      congr 1
      omega
    rw [e, ← Nat.mul_assoc] at hb ⊢
    have := Nat.le_of_mul_le_mul_right hb (Nat.two_pow_pos h)
    refine Nat.mul_le_mul_right _ ?_
    rw [← Nat.mul_assoc] at this ⊢
    omega
  · exact aside hle

theorem within_child {h k h' k' : Nat} (h1 : k * 2 ^ (h + 1) ≤ k' * 2 ^ h') (h2 : (k' + 1) * 2 ^ h' ≤ (k + 1) * 2 ^ (h + 1))
    (hne : ioIndex h' k' ≠ ioIndex (h + 1) k) :
    (k' + 1) * 2 ^ h' ≤ (2 * k + 1) * 2 ^ h ∨ (2 * k + 1) * 2 ^ h ≤ k' * 2 ^ h' := by
  have hh := within_height h1 h2
  rcases Nat.lt_or_ge h h' with hlt | hle
  · exfalso
    have : h' = h + 1 := by omega
    subst this
    have := Nat.le_of_mul_le_mul_right h1 (Nat.two_pow_pos _)
    have := Nat.le_of_mul_le_mul_right h2 (Nat.two_pow_pos _)
    have : k' = k := by omega
    subst this
    exact hne rfl
  · exact aside hle

theorem Peaks.cover {ds : List Bytes} : ∀ {e : Nat} {l : List Node}, Peaks H ds e l → ∀ h' k', (k' + 1) * 2 ^ h' ≤ e →
    ∃ h k, nodeAt H ds h k ∈ l ∧ (k + 1) * 2 ^ h ≤ e ∧ k * 2 ^ h ≤ k' * 2 ^ h' ∧ (k' + 1) * 2 ^ h' ≤ (k + 1) * 2 ^ h
  | _, _, .nil, h', k', hb => by
    have := Nat.two_pow_pos h'
    have e : (k' + 1) * 2 ^ h' = k' * 2 ^ h' + 2 ^ h' := by ring
    omega
  | _, _, .cons h k rest e hr he, h', k', hb => by
    subst he
    have e2 : (2 * k + 1) * 2 ^ h = 2 * k * 2 ^ h + 2 ^ h := by ring
    have hpos := Nat.two_pow_pos h
    rcases aside_even hb with hl | hl
    · obtain ⟨h0, k0, m, b0, b1, b2⟩ := Peaks.cover hr h' k' hl
      exact ⟨h0, k0, List.mem_cons_of_mem _ m, by omega, b1, b2⟩
    · exact ⟨h, 2 * k, List.mem_cons_self, Nat.le_refl _, hl, hb⟩

/-! ### Storage that keeps what it has -/

/-- Storage on which a process finds what it `held`; `halted`: the request cannot go on. -/
structure Steady (B : Backend S Nat Prim E) (n : Nat) (held : S → Nat → Prop) (halted proper : S → Prop) : Prop where
  get_proper : ∀ {x s}, proper s → proper (B.get x s).2
  get_keep : ∀ {x s y}, held s y → held (B.get x s).2 y
  get_result : ∀ {x s}, proper s → ¬ halted s →
    (∃ r, (B.get x s).1 = .ok r ∧ ¬ halted (B.get x s).2 ∧ (held s x → r ≠ none)) ∨ ∃ e, (B.get x s).1 = .error e ∧ halted (B.get x s).2
  get_found : ∀ {x s q y}, proper s → (B.get x s).1 = .ok (some q) → Below n x y → held (B.get x s).2 y
  insert_proper : ∀ {x v s}, proper s → (∀ y, Below n x y → y ≠ x → held s y) → proper (B.insert x v s).2
  insert_keep : ∀ {x v s y}, held s y → held (B.insert x v s).2 y
  insert_result : ∀ {x v s}, proper s → ¬ halted s →
    (∃ r, (B.insert x v s).1 = .ok r ∧ ¬ halted (B.insert x v s).2 ∧ held (B.insert x v s).2 x) ∨
      ∃ e, (B.insert x v s).1 = .error e ∧ halted (B.insert x v s).2

variable {held : S → Nat → Prop} {halted proper : S → Prop}

/-- Nothing held is lost. -/
structure Gain (held : S → Nat → Prop) (proper : S → Prop) (s s' : S) : Prop where
  proper : proper s'
  keep : ∀ y, held s y → held s' y

theorem Gain.refl {s : S} (h : proper s) : Gain held proper s s := ⟨h, fun _ h => h⟩

theorem Gain.trans {s s' s'' : S} (h : Gain held proper s s') (h' : Gain held proper s' s'') : Gain held proper s s'' :=
  ⟨h'.proper, fun y hy => h'.keep y (h.keep y hy)⟩

/-- All complete subtrees of the first `n` leaves. -/
def HeldAll (held : S → Nat → Prop) (s : S) (n : Nat) : Prop := ∀ h k, (k + 1) * 2 ^ h ≤ n → held s (ioIndex h k)

/-- All complete subtrees within this one. -/
def HeldIn (held : S → Nat → Prop) (s : S) (h k : Nat) : Prop :=
  ∀ h' k', k * 2 ^ h ≤ k' * 2 ^ h' → (k' + 1) * 2 ^ h' ≤ (k + 1) * 2 ^ h → held s (ioIndex h' k')

theorem Gain.all {s s' : S} (h : Gain held proper s s') {n : Nat} (ha : HeldAll held s n) : HeldAll held s' n :=
  fun x k hk => h.keep _ (ha x k hk)

theorem Gain.inside {s s' : S} (h : Gain held proper s s') {x k : Nat} (ha : HeldIn held s x k) : HeldIn held s' x k :=
  fun x k h1 h2 => h.keep _ (ha x k h1 h2)

/-! ### Pushing -/

/-- A record is written when everything within its subtree is there. -/
theorem insert_sure {n : Nat} (hB : Steady B n held halted proper) {h k : Nat} {q : Prim} (st : Tree S) (hp : proper st.storage) (hh : ¬ halted st.storage)
    (hin : ∀ h' k', k * 2 ^ h ≤ k' * 2 ^ h' → (k' + 1) * 2 ^ h' ≤ (k + 1) * 2 ^ h → ioIndex h' k' ≠ ioIndex h k → held st.storage (ioIndex h' k')) :
    ∃ st', Gain held proper st.storage st'.storage ∧ st'.head = st.head ∧ st'.leavesCount = st.leavesCount ∧
      ((∃ v, onStorage (B.insert (ioIndex h k) q) st = (.ok v, st') ∧ ¬ halted st'.storage ∧ HeldIn held st'.storage h k) ∨
        ∃ e, onStorage (B.insert (ioIndex h k) q) st = (.error e, st') ∧ halted st'.storage) := by
  have h1 := hB.insert_result (x := ioIndex h k) (v := q) hp hh
  have hg : Gain held proper st.storage (B.insert (ioIndex h k) q st.storage).2 := by
    refine ⟨hB.insert_proper hp ?_, fun y hy => hB.insert_keep hy⟩
    rintro y ⟨a, b, h', k', ea, rfl, _, b1, b2⟩ hne
    obtain ⟨rfl, rfl⟩ := ioIndex_injective ea
    exact hin h' k' b1 b2 hne
  unfold onStorage
  rcases hx : B.insert (ioIndex h k) q st.storage with ⟨e | v, s⟩ <;> rw [hx] at hg h1
  · refine ⟨{ st with storage := s }, hg, rfl, rfl, .inr ⟨_, rfl, ?_⟩⟩
    rcases h1 with ⟨r, h1, _⟩ | ⟨e', _, h1⟩
    · cases h1
    · exact h1
  · refine ⟨{ st with storage := s }, hg, rfl, rfl, .inl ⟨v, rfl, ?_⟩⟩
    rcases h1 with ⟨r, _, h1, h2⟩ | ⟨e', h1, _⟩
    · refine ⟨h1, fun h' k' b1 b2 => ?_⟩
      by_cases he : ioIndex h' k' = ioIndex h k
      · rw [he]; exact h2
      · exact hg.keep _ (hin h' k' b1 b2 he)
    · cases h1

theorem joinAllLoop_sure {n : Nat} (hB : Steady B n held halted proper) (p : Profile) {ds : List Bytes} (hN : ds.length ≤ 2 ^ 63) (rest : List Node) :
    ∀ (h j : Nat) (st : Tree S), Peaks H ds (j * 2 ^ h) rest → (j + 1) * 2 ^ h = ds.length →
      st.head = nodeAt H ds h j :: rest → proper st.storage → ¬ halted st.storage → HeldAll held st.storage (ds.length - 1) → HeldIn held st.storage h j →
      ∃ r st', joinAllLoop B p H (nodeAt H ds h j) rest st = (r, st') ∧ st'.leavesCount = st.leavesCount ∧ Gain held proper st.storage st'.storage ∧
        ((r = .ok () ∧ ¬ halted st'.storage ∧ HeldAll held st'.storage ds.length) ∨ ∃ e, r = .error e ∧ halted st'.storage) := by
  induction rest with
  | nil =>
    intro h j st hp hj hh hv hs ha hi
    have : j * 2 ^ h = 0 := by
      generalize hz : j * 2 ^ h = z at hp
      cases hp; rfl
    refine ⟨.ok (), st, rfl, rfl, .refl hv, .inl ⟨rfl, hs, fun h' k' hb => hi h' k' (by omega) (by omega)⟩⟩
  | cons y rest ih =>
    intro h j st hp hj hh hv hs ha hi
    generalize hz : j * 2 ^ h = z at hp
    cases hp with
    | cons h' k' _ _ hr he =>
      have hposh := Nat.two_pow_pos h
      have hposh' := Nat.two_pow_pos h'
      have e1 : (j + 1) * 2 ^ h = j * 2 ^ h + 2 ^ h := by ring
      have e2 : (2 * k' + 1) * 2 ^ h' = 2 * k' * 2 ^ h' + 2 ^ h' := by ring
      have b1 := pos_bound (h := h) (k := j) (by omega)
      have b2 := pos_bound (h := h') (k := 2 * k') (by omega)
      rw [joinAllLoop]
      have hh1 : (nodeAt H ds h j).position.height = h := height_posOf b1.2
      have hh2 : (nodeAt H ds h' (2 * k')).position.height = h' := height_posOf b2.2
      rw [hh1, hh2]
      by_cases heq : h = h'
      · subst heq
        rw [if_pos rfl]
        have hjk : j = 2 * k' + 1 := Nat.eq_of_mul_eq_mul_right hposh (by omega)
        subst hjk
        have e3 : (2 * k' + 1 + 1) * 2 ^ h = (k' + 1) * 2 ^ (h + 1) := by ring
        rw [Exec.modify_bind, joinNodes_complete p (by omega) (by omega), Exec.liftRes_ok_bind]
        obtain ⟨st1, g1, hd1, c1, hx⟩ := insert_sure (q := (nodeAt H ds (h + 1) k').toPrim) hB (h := h + 1) (k := k') { st with head := [] } hv hs
          fun a b w1 w2 hne => by
            rcases within_child w1 w2 hne with w | w
            · exact ha a b (by omega)
            · exact hi a b w (by omega)
        have hkey : (nodeAt H ds (h + 1) k').key = ioIndex (h + 1) k' := rfl
        rw [hkey]
        rcases hx with ⟨v, hx, s1, i1⟩ | ⟨e, hx, hh⟩
        · rw [Exec.bind_ok hx, Exec.modify_bind]
          have hr' : Peaks H ds (k' * 2 ^ (h + 1)) rest := by
            have : k' * 2 ^ (h + 1) = 2 * k' * 2 ^ h := by ring
            rw [this]; exact hr
          obtain ⟨r, st2, h2, c2, g2, f2⟩ := ih (h + 1) k' { st1 with head := nodeAt H ds (h + 1) k' :: rest } hr' (by omega) rfl g1.proper s1 (g1.all ha) i1
          exact ⟨r, st2, h2, c2.trans c1, g1.trans g2, f2⟩
        · rw [Exec.bind_error hx]
          exact ⟨_, st1, rfl, c1, g1, .inr ⟨_, rfl, hh⟩⟩
      · rw [if_neg heq]
        have hjeven : j % 2 = 0 := by
          rcases Nat.mod_two_eq_zero_or_one j with h0 | h1
          · exact h0
          · exfalso
            apply heq
            have hj2 : j = 2 * (j / 2) + 1 := by omega
            apply (odd_mul_two_pow_inj (k := j / 2) (k' := k') _).1
            rw [← hj2]; omega
        have hj2 : j = 2 * (j / 2) := by omega
        generalize j / 2 = q at hj2
        subst hj2
        refine ⟨_, st, rfl, rfl, .refl hv, .inl ⟨rfl, hs, fun a b hb => ?_⟩⟩
        rcases aside_even (h := h) (k := q) (h' := a) (k' := b) (by omega) with w | w
        · exact ha a b (by omega)
        · exact hi a b w (by omega)

theorem push_sure {n : Nat} (hB : Steady B n held halted proper) (p : Profile) {ds : List Bytes} {d : Bytes} (hN : ds.length < 2 ^ 63) (st : Tree S)
    (hc : st.leavesCount = ds.length) (hp : Peaks H ds ds.length st.head) (hv : proper st.storage) (hs : ¬ halted st.storage) (ha : HeldAll held st.storage ds.length) :
    ∃ r st', push B p H d st = (r, st') ∧ Gain held proper st.storage st'.storage ∧
      ((r = .ok () ∧ HeldAll held st'.storage (ds.length + 1)) ∨ ∃ e, r = .error e ∧ halted st'.storage) := by
  have hlen : (ds ++ [d]).length = ds.length + 1 := by simp
  have hleaf : Node.createLeaf p H st.leavesCount d = .ok (nodeAt H (ds ++ [d]) 0 ds.length) := by
    unfold Node.createLeaf nodeAt
    rw [hc, fromLeafIndex_ok p (by omega)]
    simp only [Res.ok_bind, Res.pure_eq, Nat.pow_zero, Nat.mul_one]
    rw [subHash_leaf (by simp)]
    simp
  unfold push
  rw [Exec.get_bind, hleaf, Exec.liftRes_ok_bind]
  obtain ⟨st1, g1, hd1, c1, hx⟩ := insert_sure (q := (nodeAt H (ds ++ [d]) 0 ds.length).toPrim) hB (h := 0) (k := ds.length) st hv hs
    fun a b w1 w2 hne => by
      exfalso
      have := within_height w1 w2
      have : a = 0 := by omega
      subst this
      simp only [Nat.pow_zero, Nat.mul_one] at w1 w2
      have : b = ds.length := by omega
      exact hne (by rw [this])
  have hkey : (nodeAt H (ds ++ [d]) 0 ds.length).key = ioIndex 0 ds.length := rfl
  rw [hkey]
  rcases hx with ⟨v, hx, s1, i1⟩ | ⟨e, hx, hh⟩
  · rw [Exec.bind_ok hx, Exec.modify_bind, hd1]
    have hj : joinAllSubtrees B p H { st1 with head := nodeAt H (ds ++ [d]) 0 ds.length :: st.head } =
        joinAllLoop B p H (nodeAt H (ds ++ [d]) 0 ds.length) st.head { st1 with head := nodeAt H (ds ++ [d]) 0 ds.length :: st.head } := by
      unfold joinAllSubtrees
      rw [Exec.get_bind]
    obtain ⟨r, st2, h2, c2, g2, f2⟩ := joinAllLoop_sure hB p (by omega) st.head 0 ds.length { st1 with head := nodeAt H (ds ++ [d]) 0 ds.length :: st.head }
      (by simpa using hp.append [d] (Nat.le_refl _)) (by simp) rfl g1.proper s1 (by rw [hlen]; exact g1.all ha) i1
    cases r with
    | ok u =>
      rw [Exec.bind_ok (hj.trans h2), Exec.get_bind]
      have hadd : u64Add p st2.leavesCount 1 = .ok (ds.length + 1) := by
        rw [c2.trans (c1.trans hc), u64Add, if_pos (by omega)]
      rw [hadd, Exec.liftRes_ok_bind, Exec.modify_apply]
      refine ⟨_, { st2 with leavesCount := ds.length + 1 }, rfl, g1.trans g2, ?_⟩
      rcases f2 with ⟨_, _, f2⟩ | ⟨_, f2, _⟩
      · rw [hlen] at f2
        exact .inl ⟨rfl, f2⟩
      · cases f2
    | error e =>
      rw [Exec.bind_error (hj.trans h2)]
      refine ⟨_, st2, rfl, g1.trans g2, .inr ⟨_, rfl, ?_⟩⟩
      rcases f2 with ⟨f2, _⟩ | ⟨_, _, f2⟩
      · cases f2
      · exact f2
  · rw [Exec.bind_error hx]
    exact ⟨_, st1, rfl, g1, .inr ⟨_, rfl, hh⟩⟩

/-! ### Reading -/

/-- The records of the first leaves are records of the list. -/
theorem canon_take {n x : Nat} {q : Prim} (h : canon H (L.take n) x = some q) :
    canon H L x = some q ∧ ∃ h k, x = ioIndex h k ∧ (k + 1) * 2 ^ h ≤ n := by
  obtain ⟨a, b, rfl, hb, rfl⟩ := canon_some h
  have hb' := hb
  rw [List.length_take] at hb'
  refine ⟨?_, a, b, rfl, by omega⟩
  rw [canon_agree H L a b (by omega)]
  congr 2
  conv => lhs; rw [← List.take_append_drop n L]
  exact nodeAt_append hb

/-- What the other one returns from storage that holds all records of the first `n` leaves, the one returns too, if it
comes to an end. -/
def Follows (H : HashFn) (L : List Bytes) (seen : S → Nat → Prim → Prop) (held : S → Nat → Prop) (halted proper : S → Prop) (n : Nat) {α : Type}
    (x : TreeM S E α) (y : Binary.TreeM Unit α) : Prop :=
  ∀ (st : Tree S) (st' : Binary.Tree Unit), Pure H L seen st.storage → proper st.storage → ¬ halted st.storage → HeldAll held st.storage n →
    st'.storage.map = canon H (L.take n) → st'.storage.Reliable →
    ∀ a st1', y st' = (.ok a, st1') → ∃ r st1, x st = (r, st1) ∧ Pure H L seen st1.storage ∧ Gain held proper st.storage st1.storage ∧
      ((r = .ok a ∧ ¬ halted st1.storage ∧ st1'.storage.map = canon H (L.take n) ∧ st1'.storage.Reliable) ∨ ∃ e, r = .error e ∧ halted st1.storage)

variable {α β : Type} {n m : Nat}

theorem Follows.pure (a : α) : Follows (E := E) H L seen held halted proper n (Pure.pure a) (Pure.pure a) := by
  intro st st' hv hp hs ha hm hr a' st1' h
  cases h
  exact ⟨.ok a, st, rfl, hv, .refl hp, .inl ⟨rfl, hs, hm, hr⟩⟩

theorem Follows.lift (r : Res α) : Follows (E := E) H L seen held halted proper n (Exec.liftRes r) (Exec.liftRes r) := by
  intro st st' hv hp hs ha hm hr a st1' h
  cases r with
  | error e => cases h
  | ok b => cases h; exact ⟨_, st, rfl, hv, .refl hp, .inl ⟨rfl, hs, hm, hr⟩⟩

theorem Follows.fails (x : TreeM S E α) (e : Fail (Error Unit)) : Follows H L seen held halted proper n x (Exec.throw e) := by
  intro st st' _ _ _ _ _ _ a st1' h
  cases h

theorem Follows.bind {x : TreeM S E α} {y : Binary.TreeM Unit α} {f : α → TreeM S E β} {g : α → Binary.TreeM Unit β}
    (hx : Follows H L seen held halted proper n x y) (hf : ∀ a, Follows H L seen held halted proper n (f a) (g a)) :
    Follows H L seen held halted proper n (x >>= f) (y >>= g) := by
  intro st st' hv hp hs ha hm hr b st2' h
  rcases hy : y st' with ⟨e | a, st1'⟩
  · rw [Exec.bind_error hy] at h; cases h
  · rw [Exec.bind_ok hy] at h
    obtain ⟨r, st1, h1, v1, g1, o1⟩ := hx st st' hv hp hs ha hm hr a st1' hy
    rcases o1 with ⟨rfl, s1, m1, r1⟩ | ⟨e, rfl, o1⟩
    · obtain ⟨r', st2, h2, v2, g2, o2⟩ := hf a st1 st1' v1 g1.proper s1 (g1.all ha) m1 r1 b st2' h
      refine ⟨r', st2, ?_, v2, g1.trans g2, o2⟩
      rw [Exec.bind_ok h1]
      exact h2
    · exact ⟨_, st1, Exec.bind_error h1, v1, g1, .inr ⟨e, rfl, o1⟩⟩

/-- A record is read: it is there, or it does not matter. -/
theorem Follows.read (hN : NoInvention B seen) (hB : Steady B m held halted proper) (x : Nat) {f : Option Prim → TreeM S E β} {g : Option Prim → Binary.TreeM Unit β}
    (hsome : ∀ q, canon H (L.take n) x = some q → Follows H L seen held halted proper n (f (some q)) (g (some q)))
    (hany : canon H (L.take n) x = none → ∀ q, Follows H L seen held halted proper n (f q) (g none)) :
    Follows H L seen held halted proper n (onStorage (B.get x) >>= f) (Binary.onStorage (Store.get x) >>= g) := by
  intro st st' hv hp hs ha hm hr b st2' h
  have hg : Binary.onStorage (Store.get x) st' = (.ok (canon H (L.take n) x), { st' with storage := { st'.storage with clock := st'.storage.clock + 1 } }) := by
    rw [← hm]
    exact Binary.onStorage_ok (Store.get_none x (hr _))
  rw [Exec.bind_ok hg] at h
  have hless : Pure H L seen (B.get x st.storage).2 := hv.less fun _ _ => hN.get
  have hgain : Gain held proper st.storage (B.get x st.storage).2 := ⟨hB.get_proper hp, fun _ hy => hB.get_keep hy⟩
  have hfound := @hN.found x st.storage
  have hres := hB.get_result (x := x) hp hs
  rcases hi : B.get x st.storage with ⟨e | q, s⟩ <;> rw [hi] at hless hfound hgain hres
  · have e1 : onStorage (B.get x) st = (.error (.err (.storageError e)), { st with storage := s }) := by unfold onStorage; rw [hi]
    refine ⟨_, { st with storage := s }, Exec.bind_error e1, hless, hgain, .inr ⟨_, rfl, ?_⟩⟩
    rcases hres with ⟨r, h1, _⟩ | ⟨_, _, h1⟩
    · cases h1
    · exact h1
  · have e1 : onStorage (B.get x) st = (.ok q, { st with storage := s }) := by unfold onStorage; rw [hi]
    rw [Exec.bind_ok e1]
    rcases hres with ⟨r, h1, s1, hthere⟩ | ⟨_, h1, _⟩
    · cases h1
      cases hc : canon H (L.take n) x with
      | none =>
        rw [hc] at h
        obtain ⟨r, st2, h2, v2, g2, o2⟩ := hany hc q { st with storage := s } { st' with storage := { st'.storage with clock := st'.storage.clock + 1 } }
          hless hgain.proper s1 (hgain.all ha) hm hr b st2' h
        exact ⟨r, st2, h2, v2, hgain.trans g2, o2⟩
      | some q' =>
        rw [hc] at h
        have hq : q = some q' := by
          obtain ⟨hc', a, c, rfl, hb⟩ := canon_take hc
          cases q with
          | none => exact absurd rfl (hthere (ha a c hb))
          | some q0 => rw [hv _ q0 q' (hfound rfl) hc']
        subst hq
        obtain ⟨r, st2, h2, v2, g2, o2⟩ := hsome q' hc { st with storage := s } { st' with storage := { st'.storage with clock := st'.storage.clock + 1 } }
          hless hgain.proper s1 (hgain.all ha) hm hr b st2' h
        exact ⟨r, st2, h2, v2, hgain.trans g2, o2⟩
    · cases h1

theorem buildLoop_follows (hN : NoInvention B seen) (hB : Steady B m held halted proper) : ∀ (ps : List Position) (hd : List Node),
    Follows H L seen held halted proper n (buildLoop B ps hd) (Binary.buildLoop ps hd) := by
  intro ps
  induction ps with
  | nil => intro hd; exact Follows.pure hd
  | cons x ps ih =>
    intro hd
    exact Follows.read hN hB _ (fun q _ => ih _) (fun _ q => Follows.fails _ _)

theorem proveSides_follows (hN : NoInvention B seen) (hB : Steady B m held halted proper) (scratch : Scratch) : ∀ ps : List Position,
    Follows H L seen held halted proper n (proveSides B scratch ps) (Binary.proveSides scratch ps) := by
  intro ps
  induction ps with
  | nil => exact Follows.pure []
  | cons x ps ih =>
    have hgo : ∀ q : Prim, Follows (E := E) H L seen held halted proper n (do let rest ← proveSides B scratch ps; return (Node.ofPrim q).hash :: rest)
        (do let rest ← Binary.proveSides scratch ps; return (Node.ofPrim q).hash :: rest) :=
      fun q => Follows.bind ih fun _ => Follows.pure _
    rw [proveSides, Binary.proveSides]
    cases hs : scratch x.inOrderIndex with
    | some q0 => exact Follows.read hN hB _ (fun q _ => hgo q0) (fun _ q => hgo q0)
    | none => exact Follows.read hN hB _ (fun q _ => hgo q) (fun _ q => Follows.fails _ _)

theorem prove_follows (hN : NoInvention B seen) (hB : Steady B m held halted proper) (p : Profile) (k : Nat) (st : Tree S) (st' : Binary.Tree Unit)
    (hv : Pure H L seen st.storage) (hp : proper st.storage) (hs : ¬ halted st.storage) (ha : HeldAll held st.storage n)
    (hm : st'.storage.map = canon H (L.take n)) (hr : st'.storage.Reliable) (hd : st'.head = st.head) (hc : st'.leavesCount = st.leavesCount)
    {a : Bytes32 × List Bytes32} {st1' : Binary.Tree Unit} (h : Binary.prove p H k st' = (.ok a, st1')) :
    ∃ r st1, prove B p H k st = (r, st1) ∧ Pure H L seen st1.storage ∧ Gain held proper st.storage st1.storage ∧
      (r = .ok a ∨ ∃ e, r = .error e ∧ halted st1.storage) := by
  unfold Binary.prove at h
  unfold prove
  rw [Exec.get_bind, hd, hc] at h
  rw [Exec.get_bind]
  refine (?_ : Follows H L seen held halted proper n _ _) st st' hv hp hs ha hm hr a st1' h |> fun ⟨r, st1, h1, v1, g1, o1⟩ => ⟨r, st1, h1, v1, g1, o1.imp_left And.left⟩
  refine Follows.bind (Follows.lift _) fun n => ?_
  split
  · exact Follows.fails _ _
  · refine Follows.bind (Follows.lift _) fun r => Follows.bind (Follows.lift _) fun l => ?_
    refine Follows.read hN hB _ (fun q _ => ?_) (fun _ q => Follows.fails _ _)
    refine Follows.bind (Follows.lift _) fun i => Follows.bind (Follows.lift _) fun rs => ?_
    obtain ⟨r, s⟩ := rs
    exact Follows.bind (Follows.lift _) fun n => Follows.bind (proveSides_follows hN hB _ _) fun _ => Follows.pure _

theorem Grown.prove_sure (hN : NoInvention B seen) (hB : Steady B m held halted proper) (p : Profile) (hlim : L.length < p.leafLimit)
    {head : List Node} {count : Nat} (h : Grown H L head count n) {k : Nat} (hk : k < n) (s : S) (hv : Pure H L seen s) (hp : proper s) (hs : ¬ halted s) (ha : HeldAll held s n) :
    ∃ r st1, Any.prove B p H k ⟨s, head, count⟩ = (r, st1) ∧ Gain held proper s st1.storage ∧ ((∃ a, r = .ok a) ∨ halted st1.storage) := by
  have hle := h.le
  have hlen : (L.take n).length = n := by simp; omega
  have hinv : Inv H (L.take n) (⟨full H (L.take n), head, count⟩ : Binary.Tree Unit) :=
    ⟨by rw [hlen]; exact h.count, by rw [hlen]; exact h.peaks, canon_agree H (L.take n)⟩
  obtain ⟨t', _, hx | ⟨e, ⟨x, f, _, hx, _⟩, _⟩⟩ := prove_spec p H (L.take n) _ hinv (by omega) (i := k) (by omega)
  · obtain ⟨r, st1, h1, _, g1, o1⟩ := prove_follows hN hB p k ⟨s, head, count⟩ ⟨full H (L.take n), head, count⟩ hv hp hs ha rfl full_reliable rfl rfl hx
    refine ⟨r, st1, h1, g1, ?_⟩
    rcases o1 with rfl | ⟨_, _, o1⟩
    · exact .inl ⟨_, rfl⟩
    · exact .inr o1
  · cases hx

/-! ### Loading -/

/-- The peaks that are read are the positions asked for. -/
theorem buildLoop_at : ∀ (ps : List Position) (hd r : List Node) (st st1 : Binary.Tree Unit), st.storage.map = canon H L → st.storage.Reliable →
    Binary.buildLoop ps hd st = (.ok r, st1) → ∀ x ∈ r, x ∈ hd ∨ ∃ y ∈ ps, x.position.inOrderIndex = y.inOrderIndex
  | [], hd, r, st, st1, _, _, h, x, hx => by
    cases h
    exact .inl hx
  | y :: ps, hd, r, st, st1, hm, hr, h, x, hx => by
    have hg : Binary.onStorage (Store.get y.inOrderIndex) st =
        (.ok (canon H L y.inOrderIndex), { st with storage := { st.storage with clock := st.storage.clock + 1 } }) := by
      rw [← hm]
      exact Binary.onStorage_ok (Store.get_none _ (hr _))
    rw [Binary.buildLoop, Exec.bind_ok hg] at h
    cases hc : canon H L y.inOrderIndex with
    | none => rw [hc] at h; cases h
    | some q =>
      rw [hc] at h
      rcases buildLoop_at ps _ r { st with storage := { st.storage with clock := st.storage.clock + 1 } } st1 hm hr h x hx with h1 | ⟨z, hz, h1⟩
      · rcases List.mem_cons.1 h1 with rfl | h1
        · obtain ⟨a, b, e, _, rfl⟩ := canon_some hc
          exact .inr ⟨y, List.mem_cons_self, e.symm⟩
        · exact .inl h1
      · exact .inr ⟨z, List.mem_cons_of_mem _ hz, h1⟩

theorem buildLoop_gain (hB : Steady B m held halted proper) : ∀ (ps : List Position) (hd : List Node) (st : Tree S), proper st.storage →
    ∃ r st1, buildLoop B ps hd st = (r, st1) ∧ Gain held proper st.storage st1.storage ∧
      ∀ v, r = .ok v → ∀ x ∈ ps, ∀ y, Below m x.inOrderIndex y → held st1.storage y
  | [], hd, st, hp => ⟨_, st, rfl, .refl hp, fun _ _ x hx => by cases hx⟩
  | z :: ps, hd, st, hp => by
    have hgain : Gain held proper st.storage (B.get z.inOrderIndex st.storage).2 :=
      ⟨hB.get_proper hp, fun _ hy => hB.get_keep hy⟩
    have hfound := @Steady.get_found _ _ _ _ _ _ _ hB z.inOrderIndex st.storage
    rw [buildLoop]
    rcases hi : B.get z.inOrderIndex st.storage with ⟨e | q, s⟩ <;> rw [hi] at hgain hfound
    · have e1 : onStorage (B.get z.inOrderIndex) st = (.error (.err (.storageError e)), { st with storage := s }) := by unfold onStorage; rw [hi]
      exact ⟨_, { st with storage := s }, Exec.bind_error e1, hgain, fun v hv => by cases hv⟩
    · have e1 : onStorage (B.get z.inOrderIndex) st = (.ok q, { st with storage := s }) := by unfold onStorage; rw [hi]
      rw [Exec.bind_ok e1]
      cases q with
      | none => exact ⟨_, { st with storage := s }, rfl, hgain, fun v hv => by cases hv⟩
      | some q =>
        obtain ⟨r, st1, h1, g1, f1⟩ := buildLoop_gain hB ps (Node.ofPrim q :: hd) { st with storage := s } hgain.proper
        refine ⟨r, st1, h1, hgain.trans g1, fun v hv x hx y hy => ?_⟩
        rcases List.mem_cons.1 hx with rfl | hx
        · exact g1.keep _ (hfound hp rfl hy)
        · exact f1 v hv x hx y hy

theorem load_sure (hN : NoInvention B seen) (hB : Steady B L.length held halted proper) (p : Profile) (hn : n ≤ L.length) (hlim : n < p.leafLimit)
    (s : S) (hv : Pure H L seen s) (hp : proper s) (hs : ¬ halted s) :
    ∃ r s', Tree.load B p s n = (r, s') ∧ Gain held proper s s' ∧ (∀ t, r = .ok t → HeldAll held s' n) ∧
      (HeldAll held s n → (∃ t, r = .ok t) ∨ halted s') := by
  have hlen : (L.take n).length = n := by simp; omega
  obtain ⟨c, _, h | ⟨e, ⟨x, f, _, hx, _⟩, _⟩⟩ := load_agree p (full H (L.take n)) (canon_agree H (L.take n)) hlim (by omega)
  · obtain ⟨l, hl, h⟩ := h
    rw [List.take_take, Nat.min_self] at hl
    unfold Binary.Tree.load Binary.build at h
    unfold Tree.load build
    simp only at h ⊢
    rw [Exec.get_bind] at h ⊢
    simp only at h ⊢
    cases hpk : peakPositions p n with
    | error e =>
      rw [hpk] at h
      cases h
    | ok ps =>
      rw [hpk, Exec.liftRes_ok_bind] at h
      rw [Exec.liftRes_ok_bind]
      rcases hb : Binary.buildLoop ps [] ⟨full H (L.take n), [], n⟩ with ⟨e | hd, t'⟩
      · rw [Exec.bind_error hb] at h; cases h
      · rw [Exec.bind_ok hb] at h
        have hdl : hd = l := by
          have h := (Prod.ext_iff.1 h).1
          have h := congrArg Binary.Tree.head (Except.ok.inj h)
          exact h
        subst hdl
        have hat := buildLoop_at ps [] hd ⟨full H (L.take n), [], n⟩ t' rfl full_reliable hb
        obtain ⟨r, st1, h1, g1, f1⟩ := buildLoop_gain hB ps [] ⟨s, [], n⟩ hp
        have hall : ∀ v, r = .ok v → HeldAll held st1.storage n := by
          intro v hv h' k' hk'
          obtain ⟨a, b, hmem, b0, b1, b2⟩ := Peaks.cover hl h' k' hk'
          rcases hat _ hmem with h2 | ⟨y, hy, h2⟩
          · cases h2
          · exact f1 v hv y hy _ ⟨a, b, h', k', h2.symm, rfl, by omega, b1, b2⟩
        have hsure : HeldAll held s n → (∃ v, r = .ok v) ∨ halted st1.storage := by
          intro ha
          obtain ⟨r', st1', h2, _, _, o2⟩ := buildLoop_follows hN hB ps [] ⟨s, [], n⟩ ⟨full H (L.take n), [], n⟩ hv hp hs ha rfl full_reliable hd t' hb
          obtain ⟨rfl, rfl⟩ := Prod.ext_iff.1 (h1.symm.trans h2)
          rcases o2 with ⟨o2, _⟩ | ⟨_, _, o2⟩
          · exact .inl ⟨_, o2⟩
          · exact .inr o2
        cases r with
        | ok v =>
          rw [Exec.bind_ok h1]
          exact ⟨_, _, rfl, g1, fun t _ => hall v rfl, fun _ => .inl ⟨_, rfl⟩⟩
        | error e =>
          rw [Exec.bind_error h1]
          refine ⟨_, _, rfl, g1, fun t ht => (by cases ht), fun ha => ?_⟩
          rcases hsure ha with ⟨v, h2⟩ | h2
          · cases h2
          · exact .inr h2
  · cases hx

/-! ### Wishes -/

/-- All records below the trees are held. -/
structure Safe (H : HashFn) (L : List Bytes) (seen : S → Nat → Prim → Prop) (held : S → Nat → Prop) (proper : S → Prop) (c : Watch S) : Prop where
  good : Good H L seen c
  proper : proper c.bench.storage
  all : ∀ i k, c.count i = some k → HeldAll held c.bench.storage k

theorem heldAll_zero (s : S) : HeldAll held s 0 := by
  intro h k hk
  have := Nat.two_pow_pos h
  have e : (k + 1) * 2 ^ h = k * 2 ^ h + 2 ^ h := by ring
  omega

theorem grant_sure (hN : NoInvention B seen) (hB : Steady B L.length held halted proper) (p : Profile) (hlim : L.length < p.leafLimit) (w : Wish) (hw : w.InRange L)
    (c : Watch S) (hc : Safe H L seen held proper c) (hs : ¬ halted c.bench.storage) (hn : HeldAll held c.bench.storage n) :
    Safe H L seen held proper (c.grant B p H L w).2 ∧ Gain held proper c.bench.storage (c.grant B p H L w).2.bench.storage ∧
      ∀ a o, (c.grant B p H L w).1 = some (a, o) → ¬ halted (c.grant B p H L w).2.bench.storage → c.Succeeds n a o := by
  have hll := p.leafLimit_le
  have hgood := (grant_good hN p hlim w hw c hc.good).1
  suffices hh : Gain held proper c.bench.storage (c.grant B p H L w).2.bench.storage ∧
      (∀ i k, (c.grant B p H L w).2.count i = some k → HeldAll held (c.grant B p H L w).2.bench.storage k) ∧
      ∀ a o, (c.grant B p H L w).1 = some (a, o) → ¬ halted (c.grant B p H L w).2.bench.storage → c.Succeeds n a o from
    ⟨⟨hgood, hh.1.proper, hh.2.1⟩, hh.1, hh.2.2⟩
  clear hgood
  unfold Watch.grant
  cases w with
  | new i =>
    simp only [Watch.asked, Bench.act, Watch.expect]
    refine ⟨.refl hc.proper, fun j k hj => ?_, fun a o h => by cases h; exact fun _ => trivial⟩
    split at hj
    · cases hj; exact heldAll_zero _
    · exact hc.all j k hj
  | load i k =>
    simp only [Watch.asked, Bench.act]
    obtain ⟨r, s', h1, g1, a1, o1⟩ := load_sure hN hB p hw (Nat.lt_of_le_of_lt hw hlim) c.bench.storage hc.good.pure hc.proper hs
    cases r with
    | ok t =>
      simp only [h1, Watch.expect]
      refine ⟨g1, fun j l hj => ?_, fun a o h => by cases h; exact fun _ _ => rfl⟩
      split at hj
      · cases hj; exact a1 t rfl
      · exact g1.all (hc.all j l hj)
    | error e =>
      simp only [h1, Watch.expect]
      refine ⟨g1, fun j l hj => g1.all (hc.all j l hj), fun a o h hnh => ?_⟩
      cases h
      intro hle
      rcases o1 (fun x y hxy => hn x y (by omega)) with ⟨t, h2⟩ | h2
      · cases h2
      · exact absurd h2 hnh
  | push i =>
    cases hk : c.count i with
    | none =>
      simp only [Watch.asked, hk]
      exact ⟨.refl hc.proper, hc.all, fun a o h => by cases h⟩
    | some k =>
      have hg := hc.good.grown i k hk
      cases hd : L[k]? with
      | none =>
        simp only [Watch.asked, hk, hd, Option.map_none]
        exact ⟨.refl hc.proper, hc.all, fun a o h => by cases h⟩
      | some d =>
        obtain ⟨hlt, hd'⟩ := List.getElem?_eq_some_iff.1 hd
        have hlen : (L.take k).length = k := by simp; omega
        obtain ⟨r, st', h, g1, o1⟩ := push_sure (H := H) (ds := L.take k) (d := d) hB p (by omega) ⟨c.bench.storage, c.bench.head i, c.bench.count i⟩
          (by rw [hlen]; exact hg.count) (by rw [hlen]; exact hg.peaks) hc.proper hs (by rw [hlen]; exact hc.all i k hk)
        rw [hlen] at o1
        cases r with
        | ok u =>
          simp only [Watch.asked, hk, hd, Option.map_some, Bench.act, step, h, Watch.expect]
          refine ⟨g1, fun j l hj => ?_, fun a o h => by cases h; exact fun _ => rfl⟩
          split at hj
          · cases hj
            rcases o1 with ⟨_, o1⟩ | ⟨_, o1, _⟩
            · exact o1
            · cases o1
          · exact g1.all (hc.all j l hj)
        | error e =>
          simp only [Watch.asked, hk, hd, Option.map_some, Bench.act, step, h, Watch.expect]
          refine ⟨g1, fun j l hj => ?_, fun a o h hnh => ?_⟩
          · split at hj
            · cases hj
            · exact g1.all (hc.all j l hj)
          · rcases o1 with ⟨h2, _⟩ | ⟨_, _, h2⟩
            · cases h2
            · exact absurd h2 hnh
  | root i =>
    cases hk : c.count i with
    | none =>
      simp only [Watch.asked, hk, Option.map_none]
      exact ⟨.refl hc.proper, hc.all, fun a o h => by cases h⟩
    | some k =>
      simp only [Watch.asked, hk, Option.map_some, Bench.act, step, Watch.expect]
      exact ⟨.refl hc.proper, hc.all, fun a o h => by cases h; exact fun _ => trivial⟩
  | prove i k =>
    cases hm : c.count i with
    | none =>
      simp only [Watch.asked, hm, Option.map_none]
      exact ⟨.refl hc.proper, hc.all, fun a o h => by cases h⟩
    | some l =>
      have hg := hc.good.grown i l hm
      by_cases hk : k < l
      · obtain ⟨r, st1, h, g1, o1⟩ := hg.prove_sure hN hB p hlim hk c.bench.storage hc.good.pure hc.proper hs (hc.all i l hm)
        simp only [Watch.asked, hm, Option.map_some, Bench.act, step, h, Watch.expect]
        refine ⟨g1, fun j x hj => g1.all (hc.all j x hj), fun a o h hnh => ?_⟩
        cases h
        intro _ _ _
        rcases o1 with ⟨v, rfl⟩ | o1
        · exact ⟨v, rfl⟩
        · exact absurd o1 hnh
      · have h := prove_refused B p H (i := k) ⟨c.bench.storage, c.bench.head i, c.bench.count i⟩ hw (by simp only [hg.count]; omega)
        simp only [Watch.asked, hm, Option.map_some, Bench.act, step, h, Watch.expect]
        refine ⟨.refl hc.proper, hc.all, fun a o h _ => ?_⟩
        cases h
        intro m' h1 h2
        rw [hm] at h1
        cases h1
        exact absurd h2 hk

/-! ### What a process sees of a storage that works -/

/-- After these answers it is sure that there is a record with this key. -/
def Known (n : Nat) (first : Nat → Nat → Prop) (l : List (Answered Nat Prim E)) (y : Nat) : Prop :=
  (∃ m ≤ l.length, first m y) ∨ (∃ v r, (MethodCall.insert y v, Except.ok r) ∈ l) ∨ ∃ x q, (MethodCall.get x, Except.ok (some q)) ∈ l ∧ Below n x y

theorem Known.more {n : Nat} {first : Nat → Nat → Prop} {l l' : List (Answered Nat Prim E)} {y : Nat} (h : Known n first l y) : Known n first (l ++ l') y := by
  rcases h with ⟨m, hm, h⟩ | ⟨v, r, h⟩ | ⟨x, q, h, hb⟩
  · exact .inl ⟨m, by rw [List.length_append]; omega, h⟩
  · exact .inr (.inl ⟨v, r, List.mem_append_left _ h⟩)
  · exact .inr (.inr ⟨x, q, List.mem_append_left _ h, hb⟩)

/-- Answers of a storage that keeps its records. -/
def Sane (n : Nat) (first : Nat → Nat → Prop) (l : List (Answered Nat Prim E)) : Prop :=
  ∀ pre x a post, l = pre ++ (.get x, a) :: post → Known n first pre x → a ≠ .ok none

/-- The process is at a place of its answers. -/
def At (A : List (Answered Nat Prim E)) (n : Nat) (first : Nat → Nat → Prop) (t : Tape Nat Prim E) (y : Nat) : Prop :=
  ∃ pre, A = pre ++ t.answered ∧ Known n first pre y

/-- The call that the process waits for is a proper one. -/
structure Proper (A : List (Answered Nat Prim E)) (n : Nat) (first : Nat → Nat → Prop) (t : Tape Nat Prim E) : Prop where
  place : ∃ pre, A = pre ++ t.answered
  write : ∀ x v, t.waiting = some (.insert x v) → ∀ y, Below n x y → y ≠ x → Known n first A y
  never : ∀ x, t.waiting ≠ some (.remove x)

theorem ask_keep {A : List (Answered Nat Prim E)} {n : Nat} {first : Nat → Nat → Prop} (cut : E) (c : MethodCall Nat Prim) {t : Tape Nat Prim E} {y : Nat}
    (h : At A n first t y) : At A n first (t.ask cut c).2 y := by
  rcases Tape.ask_cases cut c t with ⟨hw, e⟩ | ⟨hw, a, rest, ha, e⟩ | ⟨hw, e⟩ <;> rw [e]
  · exact h
  · obtain ⟨pre, h1, h2⟩ := h
    exact ⟨pre ++ [(c, a)], by rw [h1, ha]; simp, h2.more⟩
  · exact h

theorem ask_proper {A : List (Answered Nat Prim E)} {n : Nat} {first : Nat → Nat → Prop} (cut : E) (c : MethodCall Nat Prim) {t : Tape Nat Prim E}
    (h : Proper A n first t) (hw : ∀ x v, c = .insert x v → ∀ y, Below n x y → y ≠ x → At A n first t y) (hr : ∀ x, c ≠ .remove x) :
    Proper A n first (t.ask cut c).2 := by
  rcases Tape.ask_cases cut c t with ⟨_, e⟩ | ⟨hn, a, rest, ha, e⟩ | ⟨hn, e⟩ <;> rw [e]
  · exact h
  · obtain ⟨pre, hpre⟩ := h.place
    refine ⟨⟨pre ++ [(c, a)], by rw [hpre, ha]; simp⟩, fun x v hx => ?_, fun x hx => ?_⟩
    · rw [hn] at hx; cases hx
    · rw [hn] at hx; cases hx
  · refine ⟨h.place, fun x v hx y hb hne => ?_, fun x hx => hr x (Option.some.inj hx)⟩
    obtain ⟨pre, h1, h2⟩ := hw x v (Option.some.inj hx) y hb hne
    rw [h1]; exact h2.more

/-- The process is at a place after the answers `M`. -/
def ProperFrom (M A : List (Answered Nat Prim E)) (n : Nat) (first : Nat → Nat → Prop) (t : Tape Nat Prim E) : Prop :=
  Proper A n first t ∧ ∃ mid, A = M ++ (mid ++ t.answered)

theorem tape_steady (cut : E) {A : List (Answered Nat Prim E)} (M : List (Answered Nat Prim E)) {n : Nat} {first : Nat → Nat → Prop} (hA : Sane n first A) :
    Steady (tape cut) n (At A n first) (Trouble A M) (ProperFrom M A n first) where
  get_proper h := ⟨ask_proper cut _ h.1 (fun x v hx => by cases hx) (fun x hx => by cases hx), ask_after cut _ h.2⟩
  get_keep h := ask_keep cut _ h
  get_result := by
    intro x t h ht
    simp only [tape]
    rcases ask_result cut (.get x) h.2 ht with ⟨r, rest, ha, e, h1⟩ | h1
    · refine .inl ⟨r, by rw [e], h1, ?_⟩
      rintro ⟨pre, hpre, hk⟩ rfl
      exact hA pre x _ rest (by rw [hpre, ha]) hk rfl
    · exact .inr h1
  get_found := by
    intro x t q y h hq hb
    simp only [tape] at hq ⊢
    rcases Tape.ask_cases cut (.get x) t with ⟨hw, e⟩ | ⟨hn, a, rest, ha, e⟩ | ⟨hn, e⟩ <;> rw [e] at hq ⊢
    · cases hq
    · obtain ⟨pre, hpre⟩ := h.1.place
      refine ⟨pre ++ [(.get x, a)], by rw [hpre, ha]; simp, .inr (.inr ⟨x, q, ?_, hb⟩)⟩
      simp only at hq
      rw [hq]
      simp
    · cases hq
  insert_proper h hy := ⟨ask_proper cut _ h.1 (fun x v hx => by cases hx; exact hy) (fun x hx => by cases hx), ask_after cut _ h.2⟩
  insert_keep h := ask_keep cut _ h
  insert_result := by
    intro x v t h ht
    simp only [tape]
    rcases ask_result cut (.insert x v) h.2 ht with ⟨r, rest, ha, e, h1⟩ | h1
    · refine .inl ⟨r, by rw [e], h1, ?_⟩
      obtain ⟨pre, hpre⟩ := h.1.place
      rw [e]
      exact ⟨pre ++ [(.insert x v, .ok r)], by rw [hpre, ha]; simp, .inr (.inl ⟨v, r, by simp⟩)⟩
    · exact .inr h1

/-- A process that waits does nothing. -/
theorem after_waiting (cut : E) (p : Profile) (ws : List Wish) (c : Watch (Tape Nat Prim E)) (h : c.bench.storage.waiting ≠ none) :
    (c.after (tape cut) p H L ws).bench.storage = c.bench.storage :=
  (rep_wishes (tape cut) cut p H L ws (desk c)).1 c.bench.storage h

theorem waiting_grants (cut : E) (p : Profile) (n : Nat) : ∀ (ws : List Wish) (c : Watch (Tape Nat Prim E)), c.bench.storage.waiting ≠ none →
    c.AllSucceed cut p H L n ws ∧ c.FailsOnlyWithStorage cut p H L n ws
  | [], _, _ => ⟨trivial, trivial⟩
  | w :: ws, c, h => by
    have e := after_waiting (H := H) (L := L) cut p [w] c h
    simp only [Watch.after] at e
    have h' : (c.grant (tape cut) p H L w).2.bench.storage.waiting ≠ none := by rw [e]; exact h
    obtain ⟨h1, h2⟩ := waiting_grants cut p n ws _ h'
    exact ⟨⟨fun _ _ _ hw => absurd hw h', h1⟩, ⟨fun _ _ _ hw => absurd hw h', h2⟩⟩

/-- All wishes of a process. -/
theorem allSucceed (cut : E) {A : List (Answered Nat Prim E)} {first : Nat → Nat → Prop} (hA : Sane L.length first A) (p : Profile) (hlim : L.length < p.leafLimit) :
    ∀ (ws : List Wish) (c : Watch (Tape Nat Prim E)), (∀ w ∈ ws, w.InRange L) → Safe H L Tape.shows (At A L.length first) (Proper A L.length first) c →
      c.bench.storage.waiting = none → HeldAll (At A L.length first) c.bench.storage n →
      c.FailsOnlyWithStorage cut p H L n ws ∧ ((∀ c e, (c, Except.error e) ∉ A) → c.AllSucceed cut p H L n ws) ∧
        Proper A L.length first (c.after (tape cut) p H L ws).bench.storage ∧
        ((c.after (tape cut) p H L ws).bench.storage.waiting = none →
          Safe H L Tape.shows (At A L.length first) (Proper A L.length first) (c.after (tape cut) p H L ws))
  | [], _, _, hc, _, _ => ⟨trivial, fun _ => trivial, hc.proper, fun _ => hc⟩
  | w :: ws, c, hw, hc, hs, hn => by
    obtain ⟨M, hM⟩ := hc.proper.place
    have hs0 : ¬ Trouble A M c.bench.storage := by
      rintro (h | ⟨mid, h1, x, e, h2⟩)
      · exact h hs
      · rw [hM] at h1
        have h1 : [] ++ c.bench.storage.answered = mid ++ c.bench.storage.answered := List.append_cancel_left h1
        rw [← List.append_cancel_right h1] at h2
        cases h2
    obtain ⟨h1, h2, h3⟩ := grant_sure (tape_noInvention cut) (tape_steady cut M hA) p hlim w (hw w (by simp)) c ⟨hc.good, ⟨hc.proper, [], hM⟩, hc.all⟩ hs0 hn
    have h1' : Safe H L Tape.shows (At A L.length first) (Proper A L.length first) (c.grant (tape cut) p H L w).2 := ⟨h1.good, h1.proper.1, h1.all⟩
    have h3' : ∀ a o, (c.grant (tape cut) p H L w).1 = some (a, o) → (c.grant (tape cut) p H L w).2.bench.storage.waiting = none →
        Tape.Unharmed c.bench.storage (c.grant (tape cut) p H L w).2.bench.storage → c.Succeeds n a o := by
      intro a o h hw' hu
      refine h3 a o h ?_
      rintro (h4 | ⟨mid, h4, x, e, h5⟩)
      · exact h4 hw'
      · rw [hM] at h4
        exact hu mid (List.append_cancel_left h4) x e h5
    have hun : (∀ c e, (c, Except.error e) ∉ A) → Tape.Unharmed c.bench.storage (c.grant (tape cut) p H L w).2.bench.storage := by
      intro hno used hu x e hx
      apply hno x e
      rw [hM, hu]
      simp [hx]
    by_cases hw' : (c.grant (tape cut) p H L w).2.bench.storage.waiting = none
    · obtain ⟨h4, h5, h6⟩ := allSucceed cut hA p hlim ws (c.grant (tape cut) p H L w).2 (fun w' h => hw w' (by simp [h])) h1' hw' (h2.all hn)
      exact ⟨⟨h3', h4⟩, fun hno => ⟨fun a o h hw' => h3' a o h hw' (hun hno), h5 hno⟩, h6⟩
    · obtain ⟨h4, h5⟩ := waiting_grants (H := H) (L := L) cut p n ws _ hw'
      have e : (c.after (tape cut) p H L (w :: ws)).bench.storage = (c.grant (tape cut) p H L w).2.bench.storage := after_waiting cut p ws _ hw'
      refine ⟨⟨h3', h5⟩, fun hno => ⟨fun a o h hw' => h3' a o h hw' (hun hno), h4⟩, ?_, fun h => ?_⟩
      · rw [e]; exact h1'.proper
      · rw [e] at h; exact absurd h hw'

/-! ### All processes -/

/-- Nothing that a process relies on is lost. -/
structure Alive (n : Nat) (first : Nat → Nat → Nat → Prop) (ok : S → Prop) (view : S → Nat → Option Prim) (o : Office S Nat Prim E) : Prop where
  fit : ok o.storage
  closed : ∀ x y, view o.storage x ≠ none → Below n x y → view o.storage y ≠ none
  known : ∀ i y, Known n (first i) (o.answered i) y → view o.storage y ≠ none
  sane : ∀ i, Sane n (first i) (o.answered i)
  come : ∀ i m y, first i m y → m ≤ (o.answered i).length

theorem Sane.snoc {n : Nat} {first : Nat → Nat → Prop} {l : List (Answered Nat Prim E)} (h : Sane n first l) {c : MethodCall Nat Prim} {a : Except E (Option Prim)}
    (h2 : ∀ x, c = .get x → Known n first l x → a ≠ .ok none) : Sane n first (l ++ [(c, a)]) := by
  intro pre x a' post e
  rcases List.eq_nil_or_concat post with rfl | ⟨post', z, rfl⟩
  · obtain ⟨rfl, e2⟩ := List.append_inj' e rfl
    cases e2
    exact h2 x rfl
  · have e : l ++ [(c, a)] = (pre ++ (.get x, a') :: post') ++ [z] := by rw [e]; simp
    obtain ⟨e1, _⟩ := List.append_inj' e rfl
    exact h pre x a' post' e1

theorem Known.snoc {n : Nat} {first : Nat → Nat → Prop} {l : List (Answered Nat Prim E)} {c : MethodCall Nat Prim} {a : Except E (Option Prim)} {y : Nat}
    (h : Known n first (l ++ [(c, a)]) y) (hc : ∀ m, first m y → m ≤ l.length) :
    Known n first l y ∨ (∃ v r, c = .insert y v ∧ a = .ok r) ∨ ∃ x q, c = .get x ∧ a = .ok (some q) ∧ Below n x y := by
  rcases h with ⟨m, _, h⟩ | ⟨v, r, h⟩ | ⟨x, q, h, hb⟩
  · exact .inl (.inl ⟨m, hc m h, h⟩)
  · rcases List.mem_append.1 h with h | h
    · exact .inl (.inr (.inl ⟨v, r, h⟩))
    · simp only [List.mem_singleton, Prod.mk.injEq] at h
      exact .inr (.inl ⟨v, r, h.1.symm, h.2.symm⟩)
  · rcases List.mem_append.1 h with h | h
    · exact .inl (.inr (.inr ⟨x, q, h, hb⟩))
    · simp only [List.mem_singleton, Prod.mk.injEq] at h
      exact .inr (.inr ⟨x, q, h.1.symm, h.2.symm, hb⟩)

theorem Alive.turn {ok : S → Prop} {view : S → Nat → Option Prim} (hB : MapLike B ok view) {n : Nat} {first : Nat → Nat → Nat → Prop}
    {process : Nat → Tape Nat Prim E → Tape Nat Prim E} (i : Nat) {o : Office S Nat Prim E} (h : Alive n first ok view o)
    (hp : Proper (o.answered i) n (first i) (process i ⟨o.answered i, none⟩)) : Alive n first ok view (o.turn B process i) := by
  unfold Office.turn
  cases hc : nextCall (process i) (o.answered i) with
  | none => exact h
  | some c =>
    simp only
    have hcome : ∀ (c : MethodCall Nat Prim) (a : Except E (Option Prim)) (j m y : Nat), first j m y →
        m ≤ (if j = i then o.answered i ++ [(c, a)] else o.answered j).length := by
      intro c a j m y hy
      have := h.come j m y hy
      split
      · rename_i hij
        subst hij
        rw [List.length_append]; omega
      · exact this
    cases c with
    | remove x => exact absurd hc (hp.never x)
    | get x =>
      simp only [Backend.perform]
      rcases hx : B.get x o.storage with ⟨e | r, s⟩
      · obtain ⟨k1, k3⟩ := hB.get_error h.fit hx
        refine ⟨k1, by simp only [k3]; exact h.closed, fun j y hy => ?_, fun j => ?_, hcome _ _⟩
        · simp only [k3] at hy ⊢
          split at hy
          · rename_i hij
            subst hij
            rcases hy.snoc (fun m => h.come j m y) with hy | ⟨v, r, h1, _⟩ | ⟨z, q, _, h1, _⟩
            · exact h.known j y hy
            · cases h1
            · cases h1
          · exact h.known j y hy
        · simp only
          split
          · rename_i hij
            subst hij
            exact (h.sane j).snoc fun z _ _ h1 => by cases h1
          · exact h.sane j
      · obtain ⟨k1, k2, k3⟩ := hB.get_ok h.fit hx
        refine ⟨k1, by simp only [k3]; exact h.closed, fun j y hy => ?_, fun j => ?_, hcome _ _⟩
        · simp only [k3] at hy ⊢
          split at hy
          · rename_i hij
            subst hij
            rcases hy.snoc (fun m => h.come j m y) with hy | ⟨v, r, h1, _⟩ | ⟨z, q, h1, h2, hb⟩
            · exact h.known j y hy
            · cases h1
            · cases h1
              refine h.closed x y ?_ hb
              rw [← k2, Except.ok.inj h2]
              simp
          · exact h.known j y hy
        · simp only
          split
          · rename_i hij
            subst hij
            refine (h.sane j).snoc fun z hz hk hr => ?_
            cases hz
            have := h.known j x hk
            rw [← k2] at this
            exact this (Except.ok.inj hr)
          · exact h.sane j
    | insert x v =>
      simp only [Backend.perform]
      rcases hx : B.insert x v o.storage with ⟨a, s⟩
      have hs : ok s ∧ ((∃ e, a = .error e) ∧ view s = view o.storage ∨ ∀ y, view s y = if y = x then some v else view o.storage y) := by
        cases a with
        | error e =>
          obtain ⟨k1, k2⟩ := hB.insert_error h.fit hx
          exact ⟨k1, k2.imp_left fun k2 => ⟨⟨e, rfl⟩, k2⟩⟩
        | ok r =>
          obtain ⟨k1, k2⟩ := hB.insert_ok h.fit hx
          exact ⟨k1, .inr k2⟩
      obtain ⟨k1, k2⟩ := hs
      have hsane : ∀ j, Sane n (first j) (if j = i then o.answered i ++ [(MethodCall.insert x v, a)] else o.answered j) := by
        intro j
        split
        · rename_i hij
          subst hij
          exact (h.sane j).snoc fun z hz => by cases hz
        · exact h.sane j
      rcases k2 with ⟨⟨e, rfl⟩, k2⟩ | k2
      · refine ⟨k1, by simp only [k2]; exact h.closed, fun j y hy => ?_, hsane, hcome _ _⟩
        simp only [k2] at hy ⊢
        split at hy
        · rename_i hij
          subst hij
          rcases hy.snoc (fun m => h.come j m y) with hy | ⟨v, r, _, h1⟩ | ⟨z, q, h1, _⟩
          · exact h.known j y hy
          · cases h1
          · cases h1
        · exact h.known j y hy
      · have hmono : ∀ y, view o.storage y ≠ none → view s y ≠ none := by
          intro y hy
          rw [k2]
          split
          · simp
          · exact hy
        have hself : view s x ≠ none := by rw [k2, if_pos rfl]; simp
        refine ⟨k1, fun z y hz hb => ?_, fun j y hy => ?_, hsane, hcome _ _⟩
        · simp only at hz ⊢
          by_cases hzx : z = x
          · subst hzx
            by_cases hyz : y = z
            · rw [hyz]; exact hself
            · exact hmono y (h.known i y (hp.write z v hc y hb hyz))
          · rw [k2, if_neg hzx] at hz
            exact hmono y (h.closed z y hz hb)
        · simp only at hy ⊢
          split at hy
          · rename_i hij
            subst hij
            rcases hy.snoc (fun m => h.come j m y) with hy | ⟨v', r', h1, _⟩ | ⟨z, q, h1, _⟩
            · exact hmono y (h.known j y hy)
            · cases h1
              exact hself
            · cases h1
          · exact hmono y (h.known j y hy)

/-- The first leaves. -/
def First (n y : Nat) : Prop := ∃ h k, y = ioIndex h k ∧ (k + 1) * 2 ^ h ≤ n

theorem not_first {y : Nat} : ¬ First 0 y := by
  rintro ⟨h, k, _, hb⟩
  have := Nat.two_pow_pos h
  have e : (k + 1) * 2 ^ h = k * 2 ^ h + 2 ^ h := by ring
  omega

theorem alive_process (cut : E) (p : Profile) (hlim : L.length < p.leafLimit) (ws : List Wish) (hw : ∀ w ∈ ws, w.InRange L) {ok : S → Prop}
    {view : S → Nat → Option Prim} {o : Office S Nat Prim E} {first : Nat → Nat → Nat → Prop} {n : Nat} (hf : o.Fine seen (Fits H L))
    (h : Alive L.length first ok view o) (i : Nat) (hn : ∀ y, First n y → first i 0 y) :
    let c := Watch.start (⟨o.answered i, none⟩ : Tape Nat Prim E)
    c.FailsOnlyWithStorage cut p H L n ws ∧ ((∀ c e, (c, Except.error e) ∉ o.answered i) → c.AllSucceed cut p H L n ws) ∧
      Proper (o.answered i) L.length (first i) (c.after (tape cut) p H L ws).bench.storage ∧
      ((c.after (tape cut) p H L ws).bench.storage.waiting = none →
        Safe H L Tape.shows (At (o.answered i) L.length (first i)) (Proper (o.answered i) L.length (first i)) (c.after (tape cut) p H L ws)) := by
  intro c
  refine allSucceed cut (h.sane i) p hlim ws _ hw ⟨good_start (fine_tape hf i), ?_, ?_⟩ rfl ?_
  · exact ⟨⟨[], rfl⟩, fun x v hx => (by cases hx), fun x hx => (by cases hx)⟩
  · intro j k hk
    cases hk
    exact heldAll_zero _
  · intro a b hb
    exact ⟨[], rfl, .inl ⟨0, Nat.zero_le _, hn _ ⟨a, b, rfl, hb⟩⟩⟩

/-- One process from some wish on. -/
theorem alive_after (cut : E) (p : Profile) (hlim : L.length < p.leafLimit) (ws : List Wish) (hw : ∀ w ∈ ws, w.InRange L) {ok : S → Prop}
    {view : S → Nat → Option Prim} {o : Office S Nat Prim E} {first : Nat → Nat → Nat → Prop} {n : Nat} (hf : o.Fine seen (Fits H L))
    (h : Alive L.length first ok view o) (i k : Nat) :
    let d := (Watch.start (⟨o.answered i, none⟩ : Tape Nat Prim E)).after (tape cut) p H L (ws.take k)
    (∀ y, First n y → ∃ m, m + d.bench.storage.answered.length ≤ (o.answered i).length ∧ first i m y) →
    d.FailsOnlyWithStorage cut p H L n (ws.drop k) ∧ ((∀ c e, (c, Except.error e) ∉ o.answered i) → d.AllSucceed cut p H L n (ws.drop k)) := by
  intro d hn
  by_cases hwait : d.bench.storage.waiting = none
  · obtain ⟨_, _, hplace, hsafe⟩ := alive_process (n := 0) cut p hlim (ws.take k) (fun w h => hw w (List.mem_of_mem_take h)) hf h i
      (fun y hy => (not_first hy).elim)
    obtain ⟨pre, hpre⟩ := hplace.place
    obtain ⟨h1, h2, _⟩ := allSucceed (n := n) cut (h.sane i) p hlim (ws.drop k) d (fun w h => hw w (List.mem_of_mem_drop h)) (hsafe hwait) hwait (by
      intro a b hb
      obtain ⟨m, hm, hfirst⟩ := hn _ ⟨a, b, rfl, hb⟩
      refine ⟨pre, hpre, .inl ⟨m, ?_, hfirst⟩⟩
      have : (o.answered i).length = pre.length + d.bench.storage.answered.length := by rw [← List.length_append]; exact congrArg List.length hpre
      omega)
    exact ⟨h1, h2⟩
  · have := waiting_grants (H := H) (L := L) cut p n (ws.drop k) d hwait
    exact ⟨this.2, fun _ => this.1⟩

theorem alive_turns {ok : S → Prop} {view : S → Nat → Option Prim} (hN : NoInvention B seen) (hB : MapLike B ok view) (cut : E) (p : Profile)
    (hlim : L.length < p.leafLimit) (ws : Nat → List Wish) (hw : ∀ i, ∀ w ∈ ws i, w.InRange L) {first : Nat → Nat → Nat → Prop} :
    ∀ (is : List Nat) {o : Office S Nat Prim E}, o.Fine seen (Fits H L) → Alive L.length first ok view o →
      (o.turns B (fun j => worker cut p H L (ws j)) is).Fine seen (Fits H L) ∧
        Alive L.length first ok view (o.turns B (fun j => worker cut p H L (ws j)) is)
  | [], _, hf, h => ⟨hf, h⟩
  | i :: is, _, hf, h => alive_turns hN hB cut p hlim ws hw is (fine_turn hN cut p hlim ws hw i hf)
      (h.turn hB i (alive_process (n := 0) cut p hlim (ws i) (hw i) hf h i fun y hy => (not_first hy).elim).2.2.1)

/-- What a process has is there. -/
theorem alive_held (cut : E) (p : Profile) (hlim : L.length < p.leafLimit) (ws : List Wish) (hw : ∀ w ∈ ws, w.InRange L) {ok : S → Prop}
    {view : S → Nat → Option Prim} {o : Office S Nat Prim E} {first : Nat → Nat → Nat → Prop} (hf : o.Fine seen (Fits H L))
    (h : Alive L.length first ok view o) (i j k : Nat)
    (hr : ((Watch.start (⟨o.answered i, none⟩ : Tape Nat Prim E)).after (tape cut) p H L ws).bench.storage.waiting = none)
    (hc : ((Watch.start (⟨o.answered i, none⟩ : Tape Nat Prim E)).after (tape cut) p H L ws).count j = some k) : Held k (view o.storage) := by
  intro a b hb
  rw [subtreeKey_eq]
  obtain ⟨pre, h1, h2⟩ := ((alive_process (n := 0) cut p hlim ws hw hf h i fun y hy => (not_first hy).elim).2.2.2 hr).all j k hc a b hb
  refine h.known i _ ?_
  rw [h1]
  exact h2.more

/-- From now on a process may rely on what is there now. -/
theorem Alive.begin {ok : S → Prop} {view : S → Nat → Option Prim} {o : Office S Nat Prim E} {first : Nat → Nat → Nat → Prop} {m : Nat} (i : Nat)
    (h : Alive L.length first ok view o) (hm : Held m (view o.storage)) :
    Alive L.length (fun j n y => first j n y ∨ (j = i ∧ n = (o.answered i).length ∧ First m y)) ok view o := by
  refine ⟨h.fit, h.closed, fun j y hy => ?_, fun j pre x a post e hk => ?_, fun j n y hy => ?_⟩
  · rcases hy with ⟨n, hn, hy | ⟨_, _, a, b, rfl, hb⟩⟩ | hy
    · exact h.known j y (.inl ⟨n, hn, hy⟩)
    · have := hm a b hb
      rw [subtreeKey_eq] at this
      exact this
    · exact h.known j y (.inr hy)
  · rcases hk with ⟨n, hn, hy | ⟨rfl, rfl, _⟩⟩ | hy
    · exact h.sane j pre x a post e (.inl ⟨n, hn, hy⟩)
    · rw [e, List.length_append, List.length_cons] at hn; omega
    · exact h.sane j pre x a post e (.inr hy)
  · rcases hy with hy | ⟨rfl, rfl, _⟩
    · exact h.come j n y hy
    · exact Nat.le_refl _

end Binary.Any
end FuelMerkle
