import Verif.Proofs.BinaryRun

/-
A binary tree that has lost its subtree list and goes on pushing.
-/
namespace FuelMerkle
namespace Binary
open Spec
variable {E : Type}

/-- The node made for the `k`-th complete subtree of height `h` of the leaves `es`, pushed when
`n` leaves have been counted and lost. -/
def lateNode (H : HashFn) (n : Nat) (es : List Bytes) (h k : Nat) : Node :=
  { position := posOf h (n / 2 ^ h + k), hash := subHash H es (k * 2 ^ h) (2 ^ h) }

theorem lateNode_append {H : HashFn} {n : Nat} {es fs : List Bytes} {h k : Nat} (hk : (k + 1) * 2 ^ h ≤ es.length) :
    lateNode H n (es ++ fs) h k = lateNode H n es h k := by
  unfold lateNode
  rw [subHash_append]
  rw [Nat.add_mul, Nat.one_mul] at hk; exact hk

/-- The subtree list of such a tree. -/
inductive LatePeaks (H : HashFn) (n : Nat) (es : List Bytes) : Nat → List Node → Prop where
  | nil : LatePeaks H n es 0 []
  | cons (h k : Nat) (rest : List Node) (e : Nat) : LatePeaks H n es (2 * k * 2 ^ h) rest →
      e = (2 * k + 1) * 2 ^ h → LatePeaks H n es e (lateNode H n es h (2 * k) :: rest)

theorem LatePeaks.append {H : HashFn} {n : Nat} {es : List Bytes} (fs : List Bytes) {e : Nat} {l : List Node}
    (h : LatePeaks H n es e l) (he : e ≤ es.length) : LatePeaks H n (es ++ fs) e l := by
  induction h with
  | nil => exact .nil
  | cons h k rest e hr he' ih =>
    have e1 : (2 * k + 1) * 2 ^ h = 2 * k * 2 ^ h + 2 ^ h := by ring
    have hpos := Nat.two_pow_pos h
    rw [← lateNode_append (fs := fs) (by omega)]
    exact .cons h k rest e (ih (by omega)) he'

theorem late_bound {n h k N : Nat} (hb : n + (k + 1) * 2 ^ h ≤ N) (hN : N ≤ 2 ^ 63) : ioIndex h (n / 2 ^ h + k) < 2 ^ 64 := by
  refine (pos_bound (h := h) (k := n / 2 ^ h + k) ?_).2
  have h1 : n / 2 ^ h * 2 ^ h ≤ n := Nat.div_mul_le_self _ _
  have h2 : (n / 2 ^ h + k + 1) * 2 ^ h = n / 2 ^ h * 2 ^ h + (k + 1) * 2 ^ h := by ring
  omega

theorem late_parent (p : Profile) {n h k N : Nat} (hb : n + (2 * k + 1) * 2 ^ h ≤ N) (hN : N ≤ p.leafLimit) (hh : 2 ^ h < p.leafLimit) :
    (posOf h (n / 2 ^ h + 2 * k)).parent p = .ok (posOf (h + 1) (n / 2 ^ (h + 1) + k)) := by
  have hlim := p.leafLimit_le
  rw [p.leafLimit_eq] at hh
  have h1 := (Nat.pow_lt_pow_iff_right (a := 2) (by omega)).1 hh
  rw [(parent_top p (late_bound hb (by omega)) h1).1]
  congr 2
  rw [Nat.pow_succ, ← Nat.div_div_eq_div_mul]
  omega

/-- Storage has the records of the complete subtrees of `es`; of those ending with the last leaf,
only up to height `h`. -/
def LateHeld (H : HashFn) (n : Nat) (es : List Bytes) (h : Nat) (m : Nat → Option Prim) : Prop :=
  ∀ x k, (k + 1) * 2 ^ x ≤ es.length → ((k + 1) * 2 ^ x < es.length ∨ x ≤ h) →
    m (lateNode H n es x k).key = some (lateNode H n es x k).toPrim

theorem lateKey_inj {H : HashFn} {n : Nat} {es fs : List Bytes} {h k h' k' : Nat} (e : (lateNode H n es h k).key = (lateNode H n fs h' k').key) :
    h = h' ∧ k = k' := by
  obtain ⟨rfl, e⟩ := ioIndex_injective (show ioIndex _ _ = ioIndex _ _ from e)
  exact ⟨rfl, by omega⟩

theorem joinNodes_late (p : Profile) {H : HashFn} {n : Nat} {es : List Bytes} {h k : Nat}
    (hk : (k + 1) * 2 ^ (h + 1) ≤ es.length) (hb : n + es.length ≤ p.leafLimit) :
    joinNodes p H (lateNode H n es h (2 * k)) (lateNode H n es h (2 * k + 1)) = .ok (lateNode H n es (h + 1) k) := by
  have e1 : (k + 1) * 2 ^ (h + 1) = (2 * k + 1) * 2 ^ h + 2 ^ h := by ring
  have e2 : (2 * k + 1) * 2 ^ h = 2 * k * 2 ^ h + 2 ^ h := by ring
  have e3 : k * 2 ^ (h + 1) = 2 * k * 2 ^ h := by ring
  have e4 : (2 : Nat) ^ (h + 1) = 2 * 2 ^ h := by ring
  have hpos := Nat.two_pow_pos h
  unfold joinNodes Node.createNode lateNode
  simp only []
  rw [late_parent p (N := n + es.length) (by omega) hb (by omega)]
  simp only [Res.ok_bind, Res.pure_eq]
  congr 2
  rw [subHash_pow (c := h) (a := k * 2 ^ (h + 1)) (r := 2 ^ (h + 1)) (by omega) (by omega)
    (by rw [Nat.add_mul, Nat.one_mul] at hk; exact hk)]
  rw [e3, e4, e2]
  congr 3
  omega

theorem LateHeld.full {H : HashFn} {n : Nat} {es : List Bytes} {h j : Nat} {m : Nat → Option Prim} (hm : LateHeld H n es h m)
    (hj : (2 * j + 1) * 2 ^ h = es.length) (c : Nat) : LateHeld H n es c m := by
  intro x k hk _
  apply hm x k hk
  rcases Nat.lt_or_ge h x with hlt | hge
  · left
    rcases Nat.lt_or_ge ((k + 1) * 2 ^ x) es.length with h1 | h1
    · exact h1
    · exfalso
      obtain ⟨q, hq⟩ := dvd_of_pow_le (show h + 1 ≤ x by omega) (k + 1)
      have : (2 * j + 1) * 2 ^ h = (2 * q) * 2 ^ h := by
        rw [hj]
        have : q * 2 ^ (h + 1) = 2 * q * 2 ^ h := by ring
        omega
      have := Nat.eq_of_mul_eq_mul_right (Nat.two_pow_pos h) this
      omega
  · exact .inr hge

theorem joinAllLoop_late (p : Profile) (H : HashFn) (n : Nat) (es : List Bytes) (hN : n + es.length ≤ p.leafLimit) (rest : List Node) :
    ∀ (h j : Nat) (t t' : Tree E), LatePeaks H n es (j * 2 ^ h) rest → (j + 1) * 2 ^ h = es.length →
      t.head = lateNode H n es h j :: rest → LateHeld H n es h t.storage.map →
      joinAllLoop p H (lateNode H n es h j) rest t = (.ok (), t') →
      t'.leavesCount = t.leavesCount ∧ LatePeaks H n es es.length t'.head ∧ (∀ c, LateHeld H n es c t'.storage.map) := by
  induction rest with
  | nil =>
    intro h j t t' hp hj hh hm hrun
    rw [joinAllLoop] at hrun
    cases hrun
    have : j * 2 ^ h = 0 := by
      generalize hz : j * 2 ^ h = z at hp
      cases hp; rfl
    have hj0 : j = 0 := by
      rcases Nat.mul_eq_zero.1 this with h0 | h0
      · exact h0
      · have := Nat.two_pow_pos h; omega
    subst hj0
    refine ⟨rfl, ?_, hm.full (j := 0) (by omega)⟩
    rw [hh]
    exact .cons h 0 [] _ (by simpa using LatePeaks.nil) (by rw [← hj])
  | cons y rest ih =>
    intro h j t t' hp hj hh hm hrun
    generalize hz : j * 2 ^ h = z at hp
    cases hp with
    | cons h' k' _ _ hr he =>
      have hlim := p.leafLimit_le
      have hposh := Nat.two_pow_pos h
      have hposh' := Nat.two_pow_pos h'
      have e1 : (j + 1) * 2 ^ h = j * 2 ^ h + 2 ^ h := by ring
      have e2 : (2 * k' + 1) * 2 ^ h' = 2 * k' * 2 ^ h' + 2 ^ h' := by ring
      have b1 := late_bound (n := n) (h := h) (k := j) (N := n + es.length) (by omega) (by omega)
      have b2 := late_bound (n := n) (h := h') (k := 2 * k') (N := n + es.length) (by omega) (by omega)
      rw [joinAllLoop] at hrun
      have hh1 : (lateNode H n es h j).position.height = h := height_posOf b1
      have hh2 : (lateNode H n es h' (2 * k')).position.height = h' := height_posOf b2
      rw [hh1, hh2] at hrun
      by_cases heq : h = h'
      · subst heq
        rw [if_pos rfl] at hrun
        have hjk : j = 2 * k' + 1 := Nat.eq_of_mul_eq_mul_right hposh (by omega)
        subst hjk
        have e3 : (2 * k' + 1 + 1) * 2 ^ h = (k' + 1) * 2 ^ (h + 1) := by ring
        rw [Exec.modify_bind, joinNodes_late p (by omega) hN, Exec.liftRes_ok_bind] at hrun
        cases hs : t.storage.sched t.storage.clock with
        | some f =>
          have := Store.insert_fault (lateNode H n es (h + 1) k').key (lateNode H n es (h + 1) k').toPrim hs
          rw [Exec.bind_error (onStorage_error (t := { t with head := [] }) this)] at hrun
          cases hrun
        | none =>
          have := Store.insert_none (lateNode H n es (h + 1) k').key (lateNode H n es (h + 1) k').toPrim hs
          have hstep := fun f => Exec.bind_ok (β := Unit) (f := f) (onStorage_ok (t := { t with head := [] }) this)
          rw [hstep, Exec.modify_bind] at hrun
          have hr' : LatePeaks H n es (k' * 2 ^ (h + 1)) rest := by
            have : k' * 2 ^ (h + 1) = 2 * k' * 2 ^ h := by ring
            rw [this]; exact hr
          have key := fun hm => ih (h + 1) k' _ t' hr' (by omega) (by rfl) hm hrun
          refine key ?_
          intro x k hk hx
          simp only []
          rw [Store.upd_apply]
          split
          · next e =>
            obtain ⟨rfl, rfl⟩ := lateKey_inj e
            rfl
          · next hne =>
            apply hm x k hk
            rcases hx with hx | hx
            · exact .inl hx
            · rcases Nat.lt_or_ge h x with hlt | hge
              · have : x = h + 1 := by omega
                subst this
                left
                rcases Nat.lt_or_ge ((k + 1) * 2 ^ (h + 1)) es.length with h1 | h1
                · exact h1
                · exfalso
                  have : (k + 1) * 2 ^ (h + 1) = (k' + 1) * 2 ^ (h + 1) := by omega
                  have := Nat.eq_of_mul_eq_mul_right (Nat.two_pow_pos _) this
                  have : k = k' := by omega
                  subst this
                  exact hne rfl
              · exact .inr hge
      · rw [if_neg heq] at hrun
        cases hrun
        have hjeven : j % 2 = 0 := by
          rcases Nat.mod_two_eq_zero_or_one j with h0 | h1
          · exact h0
          · exfalso
            apply heq
            have hj2 : j = 2 * (j / 2) + 1 := by omega
            apply (odd_mul_two_pow_inj (k := j / 2) (k' := k') _).1
            rw [← hj2]; omega
        have hj2 : j = 2 * (j / 2) := by omega
        generalize j / 2 = q at hj2
        subst hj2
        refine ⟨rfl, ?_, hm.full hj⟩
        rw [hh]
        exact .cons h q _ _ (by rw [hz]; exact .cons h' k' rest _ hr he) hj.symm

/-- The state of a tree that counted `n` leaves, lost its subtree list and then took `es`. -/
structure Late (H : HashFn) (n : Nat) (es : List Bytes) (t : Tree E) : Prop where
  count : t.leavesCount = n + es.length
  peaks : LatePeaks H n es es.length t.head
  held : ∀ c, LateHeld H n es c t.storage.map

theorem push_late (p : Profile) (H : HashFn) {n : Nat} {es : List Bytes} {d : Bytes} {t t' : Tree E} (ht : Late H n es t)
    (hn : n + es.length < p.leafLimit) (hrun : push p H d t = (.ok (), t')) : Late H n (es ++ [d]) t' := by
  have hlim := p.leafLimit_le
  have hlen : (es ++ [d]).length = es.length + 1 := by simp
  have hleaf : Node.createLeaf p H t.leavesCount d = .ok (lateNode H n (es ++ [d]) 0 es.length) := by
    unfold Node.createLeaf lateNode
    rw [ht.count, fromLeafIndex_ok p (by omega)]
    simp only [Res.ok_bind, Res.pure_eq, Nat.pow_zero, Nat.mul_one, Nat.div_one]
    rw [subHash_leaf (by simp)]
    simp
  unfold push at hrun
  rw [Exec.get_bind, hleaf, Exec.liftRes_ok_bind] at hrun
  cases hs : t.storage.sched t.storage.clock with
  | some f =>
    have := Store.insert_fault (lateNode H n (es ++ [d]) 0 es.length).key (lateNode H n (es ++ [d]) 0 es.length).toPrim hs
    rw [Exec.bind_error (onStorage_error this)] at hrun
    cases hrun
  | none =>
    have := Store.insert_none (lateNode H n (es ++ [d]) 0 es.length).key (lateNode H n (es ++ [d]) 0 es.length).toPrim hs
    rw [Exec.bind_ok (onStorage_ok this), Exec.modify_bind] at hrun
    generalize ht2 : Tree.mk (Store.mk (Store.upd t.storage.map (lateNode H n (es ++ [d]) 0 es.length).key
            (some (lateNode H n (es ++ [d]) 0 es.length).toPrim)) t.storage.sched (t.storage.clock + 1))
        (lateNode H n (es ++ [d]) 0 es.length :: t.head) t.leavesCount = t2 at hrun
    have hj : joinAllSubtrees p H t2 = joinAllLoop p H (lateNode H n (es ++ [d]) 0 es.length) t.head t2 := by
      unfold joinAllSubtrees
      rw [Exec.get_bind, ← ht2]
    rw [Exec.bind_apply, hj] at hrun
    rcases hl : joinAllLoop p H (lateNode H n (es ++ [d]) 0 es.length) t.head t2 with ⟨r, t3⟩
    rw [hl] at hrun
    cases r with
    | error e => cases hrun
    | ok u =>
      obtain ⟨q1, q2, q3⟩ := joinAllLoop_late p H n (es ++ [d]) (by omega) t.head 0 es.length t2 t3
        (by simpa using ht.peaks.append [d] (Nat.le_refl _)) (by simp) (by rw [← ht2]) (by
          rw [← ht2]
          intro x k hk hx
          simp only []
          rw [Store.upd_apply]
          split
          · next e =>
            obtain ⟨rfl, rfl⟩ := lateKey_inj e
            rfl
          · next hne =>
            have hk' : (k + 1) * 2 ^ x ≤ es.length := by
              rw [hlen] at hk hx
              rcases hx with hx | hx
              · omega
              · have : x = 0 := by omega
                subst this
                rcases Nat.lt_or_ge k es.length with h1 | h1
                · rw [Nat.pow_zero, Nat.mul_one]; exact h1
                · exfalso
                  rw [Nat.pow_zero, Nat.mul_one] at hk
                  have : k = es.length := by omega
                  subst this
                  exact hne rfl
            rw [lateNode_append hk']
            exact ht.held x x k hk' (.inr (Nat.le_refl _))) hl
      simp only at hrun
      have hadd : u64Add p t3.leavesCount 1 = .ok (n + es.length + 1) := by
        rw [q1, ← ht2]; simp only []; rw [ht.count, u64Add, if_pos (by omega)]
      rw [Exec.get_bind, hadd, Exec.liftRes_ok_bind, Exec.modify_apply] at hrun
      cases hrun
      exact ⟨by rw [hlen]; rfl, q2, q3⟩

theorem pushAll_late (p : Profile) (H : HashFn) (n : Nat) (fs : List Bytes) : ∀ {es : List Bytes} {t t' : Tree E}, Late H n es t →
    n + es.length + fs.length ≤ p.leafLimit → pushAll p H fs t = (.ok (), t') → Late H n (es ++ fs) t' := by
  induction fs with
  | nil =>
    intro es t t' ht _ h
    cases h
    simpa using ht
  | cons d fs ih =>
    intro es t t' ht hn h
    simp only [List.length_cons] at hn
    rw [pushAll, Exec.bind_apply] at h
    rcases hp : push p H d t with ⟨r, t2⟩
    rw [hp] at h
    cases r with
    | error e => cases h
    | ok u =>
      have := ih (push_late p H ht (by omega) hp) (by simp; omega) h
      simpa using this

theorem buildRootNode_late (p : Profile) (H : HashFn) (n : Nat) (es : List Bytes) (hN : n + es.length ≤ p.leafLimit)
    (rest : List Node) : ∀ (e g q : Nat) (cur : Node) (S : Scratch), LatePeaks H n es e rest → e < es.length →
      e = q * 2 ^ (g + 1) → es.length - e < 2 ^ (g + 1) → cur.hash = subHash H es e (es.length - e) →
      ∃ r S', buildRootNode p H cur rest S = .ok (r, S') ∧ r.hash = subHash H es 0 es.length := by
  induction rest with
  | nil =>
    intro e g q cur S hp he hq hg hS
    cases hp
    exact ⟨cur, S, rfl, hS⟩
  | cons y rest ih =>
    intro e g q cur S hp he hq hg hS
    cases hp with
    | cons h k _ _ hr hek =>
      have hpos := Nat.two_pow_pos h
      have hgh : g + 1 ≤ h := by
        rcases Nat.lt_or_ge h (g + 1) with hlt | hge
        · exfalso
          obtain ⟨q', hq'⟩ := dvd_of_pow_le (show h + 1 ≤ g + 1 by omega) q
          have : (2 * k + 1) * 2 ^ h = (2 * q') * 2 ^ h := by
            rw [← hek, hq, hq']; ring
          have := Nat.eq_of_mul_eq_mul_right hpos this
          omega
        · exact hge
      have hlt : es.length - e < 2 ^ h :=
        Nat.lt_of_lt_of_le hg (Nat.pow_le_pow_right (by omega) hgh)
      have e2 : (2 * k + 1) * 2 ^ h = 2 * k * 2 ^ h + 2 ^ h := by ring
      have e3 : (2 : Nat) ^ (h + 1) = 2 * 2 ^ h := by ring
      have e4 : k * 2 ^ (h + 1) = 2 * k * 2 ^ h := by ring
      have hr1 : 2 ^ h < es.length - 2 * k * 2 ^ h := by omega
      have hr2 : es.length - 2 * k * 2 ^ h ≤ 2 ^ (h + 1) := by omega
      have hjoin : ∃ r, joinNodes p H (lateNode H n es h (2 * k)) cur = .ok r ∧
          r.hash = subHash H es (2 * k * 2 ^ h) (es.length - 2 * k * 2 ^ h) := by
        unfold joinNodes Node.createNode lateNode
        simp only []
        rw [late_parent p (N := n + es.length) (by omega) hN (by omega)]
        refine ⟨_, rfl, ?_⟩
        simp only []
        rw [subHash_pow hr1 hr2 (by omega), hS, show 2 * k * 2 ^ h + 2 ^ h = e by omega]
        congr 3
        omega
      obtain ⟨r, hj, hrh⟩ := hjoin
      rw [buildRootNode, hj]
      simp only [Res.ok_bind]
      exact ih (2 * k * 2 ^ h) h k r _ hr (by omega) (by omega) (by omega) hrh

theorem root_late (p : Profile) (H : HashFn) {n : Nat} {es : List Bytes} {t : Tree E} (ht : Late H n es t)
    (hN : n + es.length ≤ p.leafLimit) : t.root p H = .ok (if es = [] then emptySum else mth H es) := by
  unfold Tree.root
  have hp := ht.peaks
  generalize hl : es.length = N at hp
  generalize hd : t.head = l at hp
  cases hp with
  | nil =>
    rw [if_pos (List.eq_nil_of_length_eq_zero hl)]
    rfl
  | cons h k rest _ hr he =>
    have hpos := Nat.two_pow_pos h
    have e2 : (2 * k + 1) * 2 ^ h = 2 * k * 2 ^ h + 2 ^ h := by ring
    have e3 : 2 * k * 2 ^ h = k * 2 ^ (h + 1) := by ring
    have e4 : (2 : Nat) ^ (h + 1) = 2 * 2 ^ h := by ring
    have hlen : es.length - 2 * k * 2 ^ h = 2 ^ h := by omega
    obtain ⟨r, S, h1, h2⟩ := buildRootNode_late p H n es hN rest (2 * k * 2 ^ h) h k (lateNode H n es h (2 * k)) (fun _ => none) hr
      (by omega) (by omega) (by omega) (by unfold lateNode; rw [hlen])
    rw [if_neg (by rintro rfl; simp at hl; omega), rootNode, h1]
    simp only [Res.ok_bind, Res.pure_eq]
    rw [h2, subHash_all]

end Binary
end FuelMerkle
