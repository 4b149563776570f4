import Verif.Proofs.Verify

/-
Soundness of the proof checker, and the Merkle tree hash as a commitment.
-/
namespace FuelMerkle
open Spec Binary

/-! ### Soundness -/

theorem collide_mono {H : HashFn} {xs xs' ys ys' : List Bytes} (h : Collide H xs ys)
    (hx : ∀ x ∈ xs, x ∈ xs') (hy : ∀ y ∈ ys, y ∈ ys') : Collide H xs' ys' := by
  obtain ⟨x, h1, y, h2, h3⟩ := h
  exact ⟨x, hx x h1, y, hy y h2, h3⟩

theorem mthMsgs_split (H : HashFn) {D : List Bytes} (h : 1 < D.length) :
    mthMsgs H D = ([0x01] ++ (mth H (D.take (split D.length))).val ++ (mth H (D.drop (split D.length))).val) ::
      (mthMsgs H (D.take (split D.length)) ++ mthMsgs H (D.drop (split D.length))) := by
  match D, h with
  | d :: d' :: ds, _ => rw [mthMsgs]

theorem Bytes32.append_inj {a b c d : Bytes32} (h : a.val ++ b.val = c.val ++ d.val) : a = c ∧ b = d := by
  have := List.append_inj h (by rw [a.property, c.property])
  exact ⟨Subtype.ext this.1, Subtype.ext this.2⟩

theorem stepMsg_eq {s x a b : Bytes32} {onLeft : Bool} (h : stepMsg s onLeft x = [0x01] ++ a.val ++ b.val) :
    if onLeft then s = b else s = a := by
  rw [List.append_assoc] at h
  cases onLeft
  · rw [stepMsg, if_neg (by simp), List.append_assoc] at h
    exact (Bytes32.append_inj (List.append_cancel_left h)).1
  · rw [stepMsg, if_pos rfl, List.append_assoc] at h
    exact (Bytes32.append_inj (List.append_cancel_left h)).2

theorem stepMsg_head (s x : Bytes32) (b : Bool) : ∃ l, stepMsg s b x = 0x01 :: l := by
  cases b <;> exact ⟨_, rfl⟩

/-- If a leaf hash climbs to the root of a nonempty list then, without a collision, the
directions lead to a leaf with that data. -/
theorem climb_sound (H : HashFn) (d : Bytes) : ∀ (l : List (Bool × Bytes32)) (D : List Bytes), D ≠ [] →
    climb H (H ([0x00] ++ d)) l.reverse = mth H D →
    Collide H (mthMsgs H D) (([0x00] ++ d) :: climbMsgs H (H ([0x00] ++ d)) l.reverse) ∨
      ∃ i, leafAt (l.map Prod.fst) D.length = some i ∧ D[i]? = some d := by
  intro l
  induction l with
  | nil =>
    intro D h0 h
    simp only [List.reverse_nil, climb, climbMsgs, List.map_nil] at h ⊢
    match D, h0 with
    | [d'], _ =>
      rw [mth] at h
      by_cases he : d' = d
      · right
        refine ⟨0, by simp [leafAt], by simp [he]⟩
      · left
        refine ⟨[0x00] ++ d', by simp [mthMsgs], [0x00] ++ d, by simp, by simpa using he, h.symm⟩
    | d1 :: d2 :: ds, _ =>
      left
      rw [mth] at h
      rw [mthMsgs]
      exact ⟨_, List.mem_cons_self, [0x00] ++ d, by simp, by simp, h.symm⟩
  | cons a l ih =>
    intro D h0 h
    obtain ⟨b, x⟩ := a
    rw [List.reverse_cons, climb_append] at h
    rw [List.reverse_cons, climbMsgs_append]
    simp only [climb, climbMsgs] at h ⊢
    generalize hs : climb H (H ([0x00] ++ d)) l.reverse = s at *
    match D, h0 with
    | [d'], _ =>
      left
      rw [mth] at h
      refine ⟨[0x00] ++ d', by simp [mthMsgs], stepMsg s b x, by simp, ?_, h.symm⟩
      obtain ⟨y, hy⟩ := stepMsg_head s x b
      rw [hy]; simp
    | d1 :: d2 :: ds, _ =>
      generalize hD : d1 :: d2 :: ds = D at *
      have hlen : 1 < D.length := by rw [← hD]; simp
      have hsp := split_spec hlen
      have hpos : 0 < split D.length := by obtain ⟨⟨e, he⟩, _⟩ := hsp; rw [he]; exact Nat.two_pow_pos e
      rw [mth_split H hlen] at h
      rw [mthMsgs_split H hlen]
      by_cases hm : stepMsg s b x =
          [0x01] ++ (mth H (D.take (split D.length))).val ++ (mth H (D.drop (split D.length))).val
      · have he := stepMsg_eq hm
        simp only [List.map_cons, leafAt]
        rw [if_neg (by omega)]
        cases b
        · simp only [Bool.false_eq_true, if_false] at he ⊢
          rcases ih (D.take (split D.length)) (by rw [← List.length_pos_iff]; simp; omega) he with hc | ⟨i, h1, h2⟩
          · left
            refine collide_mono hc ?_ ?_
            · intro y hy; simp [hy]
            · intro y hy
              rcases List.mem_cons.1 hy with rfl | hy
              · simp
              · exact List.mem_cons_of_mem _ (List.mem_append_left _ hy)
          · right
            rw [List.length_take, Nat.min_eq_left (by omega)] at h1
            refine ⟨i, h1, ?_⟩
            rw [List.getElem?_take] at h2
            split at h2
            · exact h2
            · cases h2
        · simp only [if_true] at he ⊢
          rcases ih (D.drop (split D.length)) (by rw [← List.length_pos_iff]; simp; omega) he with hc | ⟨i, h1, h2⟩
          · left
            refine collide_mono hc ?_ ?_
            · intro y hy; simp [hy]
            · intro y hy
              rcases List.mem_cons.1 hy with rfl | hy
              · simp
              · exact List.mem_cons_of_mem _ (List.mem_append_left _ hy)
          · right
            rw [List.length_drop] at h1
            refine ⟨i + split D.length, by rw [h1]; rfl, ?_⟩
            rw [List.getElem?_drop] at h2
            rw [Nat.add_comm]; exact h2
      · left
        exact ⟨_, List.mem_cons_self, stepMsg s b x, by simp, fun h' => hm h'.symm, h.symm⟩

theorem split_two_pow (e : Nat) : split (2 ^ (e + 1)) = 2 ^ e := by
  have := Nat.two_pow_pos e
  exact split_pow (by rw [Nat.pow_succ]; omega) (Nat.le_refl _)

theorem leafAt_perfect {D : List Bool} {e i : Nat} (h : leafAt D (2 ^ e) = some i) : D.length = e := by
  induction D generalizing e i with
  | nil =>
    cases e with
    | zero => rfl
    | succ e =>
      have := Nat.two_pow_pos e
      rw [leafAt, if_neg (by rw [Nat.pow_succ]; omega)] at h; cases h
  | cons b D ih =>
    cases e with
    | zero => simp [leafAt] at h
    | succ e =>
      have := Nat.two_pow_pos e
      have e1 : (2 : Nat) ^ (e + 1) = 2 ^ e + 2 ^ e := by ring
      rw [leafAt, if_neg (by omega), split_two_pow, e1, Nat.add_sub_cancel] at h
      split at h
      · obtain ⟨j, hj, _⟩ := Option.map_eq_some_iff.1 h
        rw [List.length_cons, ih hj]
      · rw [List.length_cons, ih h]

theorem leafAt_lowBits (e : Nat) : ∀ i, i < 2 ^ e → leafAt (lowBits i e).reverse (2 ^ e) = some i := by
  induction e with
  | zero => intro i hi; have : i = 0 := by simpa using hi
            subst this; rfl
  | succ e ih =>
    intro i hi
    have hp := Nat.two_pow_pos e
    have e1 : (2 : Nat) ^ (e + 1) = 2 ^ e + 2 ^ e := by ring
    rw [lowBits_succ, List.reverse_append, List.reverse_singleton, List.singleton_append, leafAt,
      if_neg (by omega), split_two_pow, e1, Nat.add_sub_cancel]
    by_cases hlt : i < 2 ^ e
    · rw [if_neg (by simp [Nat.div_eq_of_lt hlt]), ih i hlt]
    · have : i / 2 ^ e = 1 := Nat.div_eq_of_lt_le (by omega) (by omega)
      rw [if_pos (by simp [this]), lowBits_sub (Nat.le_refl e) (by omega), ih _ (by omega)]
      simp; omega

theorem leafAt_depth_le {D : List Bool} {n e i : Nat} (hn : n ≤ 2 ^ e) (h : leafAt D n = some i) :
    D.length ≤ e := by
  induction D generalizing n e i with
  | nil => simp
  | cons b D ih =>
    rw [leafAt] at h
    split at h
    · cases h
    next h1 =>
    cases e with
    | zero => simp at hn; omega
    | succ e =>
      have hs := split_spec (n := n) (by omega)
      have hk : split n ≤ 2 ^ e := by
        obtain ⟨⟨c, hc⟩, h2, h3⟩ := hs
        rw [hc] at h2 ⊢
        have : (2 : Nat) ^ c < 2 ^ (e + 1) := by omega
        have := (Nat.pow_lt_pow_iff_right (by decide : 1 < 2)).1 this
        exact Nat.pow_le_pow_right (by decide) (by omega)
      rw [List.length_cons]
      split at h
      · obtain ⟨j, hj, _⟩ := Option.map_eq_some_iff.1 h
        have := ih (e := e) (by omega) hj; omega
      · have := ih (e := e) hk h; omega

theorem split_dvd {n m : Nat} (h1 : 2 ^ m < n) : 2 ^ m ∣ split n := by
  have hp := Nat.two_pow_pos m
  obtain ⟨⟨c, hc⟩, h2, h3⟩ := split_spec (n := n) (by omega)
  rw [hc] at h2 h3 ⊢
  have : (2 : Nat) ^ m < 2 ^ (c + 1) := by rw [Nat.pow_succ]; omega
  have := (Nat.pow_lt_pow_iff_right (by decide : 1 < 2)).1 this
  exact Nat.pow_dvd_pow 2 (by omega)

theorem leafAt_depth_ge {D : List Bool} {n m i : Nat} (hn : 2 ^ m ∣ n) (h : leafAt D n = some i) :
    m ≤ D.length ∧ (2 ^ m < n → m < D.length) := by
  induction D generalizing n m i with
  | nil =>
    rw [leafAt] at h
    split at h
    · next h1 =>
      subst h1
      have := Nat.le_of_dvd (by decide) hn
      cases m with
      | zero => simp
      | succ m => have := Nat.two_pow_pos m; have : (2 : Nat) ^ (m + 1) = 2 ^ m + 2 ^ m := by ring
                  omega
    · cases h
  | cons b D ih =>
    rw [leafAt] at h
    split at h
    · cases h
    next h1 =>
    have hs := split_spec (n := n) (by omega)
    have hle := Nat.le_of_dvd (by omega) hn
    rw [List.length_cons]
    have key : 2 ^ m < n → m ≤ D.length := by
      intro hlt
      have hd := split_dvd hlt
      split at h
      · obtain ⟨j, hj, _⟩ := Option.map_eq_some_iff.1 h
        exact (ih (Nat.dvd_sub hn hd) hj).1
      · exact (ih hd h).1
    rcases Nat.lt_or_ge (2 ^ m) n with hlt | hge
    · have := key hlt
      exact ⟨by omega, fun _ => by omega⟩
    · have hnm : n = 2 ^ m := by omega
      refine ⟨?_, fun hlt => by omega⟩
      cases m with
      | zero => omega
      | succ m =>
        have e1 : (2 : Nat) ^ (m + 1) = 2 ^ m + 2 ^ m := by ring
        rw [hnm, split_two_pow, e1, Nat.add_sub_cancel] at h
        have : m ≤ D.length := by
          split at h
          · obtain ⟨j, hj, _⟩ := Option.map_eq_some_iff.1 h
            exact (ih (Nat.dvd_refl _) hj).1
          · exact (ih (Nat.dvd_refl _) h).1
        omega

/-- Directions starting with those forced for leaf `i` can only lead to leaf `i`. -/
theorem leafAt_sides (n : Nat) : ∀ i x j, n < 2 ^ 63 → i < n →
    leafAt (List.replicate x true ++ (forcedSides i n).reverse) n = some j → j = i := by
  induction n using Nat.strongRecOn with
  | _ n ih =>
    intro i x j hn hi h
    obtain ⟨e, he, rfl | ⟨h1, h2⟩⟩ := pow_bounds (n := n) (by omega) hn
    · rw [forcedSides_perfect he hi] at h
      have hl := leafAt_perfect h
      simp only [List.length_append, List.length_replicate, List.length_reverse, lowBits_length] at hl
      have : x = 0 := by omega
      subst this
      rw [List.replicate_zero, List.nil_append, leafAt_lowBits e i hi] at h
      injection h with h
      exact h.symm
    · have hp := Nat.two_pow_pos e
      have e1 : (2 : Nat) ^ (e + 1) = 2 ^ e + 2 ^ e := by ring
      have hs : split n = 2 ^ e := split_pow (by omega) (by omega)
      by_cases hlt : i < 2 ^ e
      · rw [forcedSides_left he h1 h2 hlt, List.reverse_append, List.reverse_singleton,
          List.singleton_append] at h
        cases x with
        | zero =>
          rw [List.replicate_zero, List.nil_append, leafAt, if_neg (by omega), if_neg (by simp), hs,
            leafAt_lowBits e i hlt] at h
          injection h with h
          exact h.symm
        | succ x =>
          rw [List.replicate_succ, List.cons_append, leafAt, if_neg (by omega), if_pos rfl, hs] at h
          obtain ⟨j', hj', _⟩ := Option.map_eq_some_iff.1 h
          have := leafAt_depth_le (e := e) (by omega) hj'
          simp [lowBits_length] at this
          omega
      · cases x with
        | succ x =>
          rw [forcedSides_right he h1 h2 (by omega) hi, List.replicate_succ, List.cons_append, leafAt,
            if_neg (by omega), if_pos rfl, hs] at h
          obtain ⟨j', hj', rfl⟩ := Option.map_eq_some_iff.1 h
          have := ih (n - 2 ^ e) (by omega) (i - 2 ^ e) x j' (by omega) (by omega) hj'
          omega
        | zero =>
          exfalso
          obtain ⟨b1, b2⟩ := blockHeight_right he h1 h2 (by omega) hi
          have hcomp := blockHeight_complete hi 64
          rw [← b1] at b2
          have hf : forcedSides i n = lowBits i (blockHeight i n 64) ++
            if (i / 2 ^ blockHeight i n 64 + 1) * 2 ^ blockHeight i n 64 = n then [] else [false] := rfl
          rw [List.replicate_zero, List.nil_append, hf] at h
          generalize blockHeight i n 64 = m at *
          have hme : 2 ^ m < 2 ^ e := Nat.pow_lt_pow_right (by decide) b2
          split at h
          · next heq =>
            rw [List.append_nil] at h
            have := (leafAt_depth_ge (m := m) (Dvd.intro_left _ heq) h).2 (by omega)
            simp [lowBits_length] at this
          · rw [List.reverse_append, List.reverse_singleton, List.singleton_append, leafAt,
              if_neg (by omega), if_neg (by simp), hs] at h
            have := leafAt_perfect h
            simp [lowBits_length] at this
            omega

/-! ### The root commits to the list -/

theorem mth_commits (H : HashFn) (n : Nat) : ∀ D D' : List Bytes, D.length = n → mth H D = mth H D' →
    D = D' ∨ Collide H (mthMsgs H D) (mthMsgs H D') := by
  induction n using Nat.strongRecOn with
  | _ n ih =>
    intro D D' hD h
    have long : ∀ D : List Bytes, 1 < D.length →
        ∃ r, mthMsgs H D = ([0x01] ++ (mth H (D.take (split D.length))).val ++
          (mth H (D.drop (split D.length))).val) :: r := fun D hD => ⟨_, mthMsgs_split H hD⟩
    match D, D', hD with
    | [], [], _ => exact Or.inl rfl
    | [], [d'], _ =>
      right
      rw [mth, mth] at h
      exact ⟨[], by simp [mthMsgs], [0x00] ++ d', by simp [mthMsgs], by simp, h⟩
    | [], d1 :: d2 :: ds, _ =>
      right
      rw [mth, mth] at h
      exact ⟨[], by simp [mthMsgs], _, by rw [mthMsgs]; exact List.mem_cons_self, by simp, h⟩
    | [d], [], _ =>
      right
      rw [mth, mth] at h
      exact ⟨[0x00] ++ d, by simp [mthMsgs], [], by simp [mthMsgs], by simp, h⟩
    | [d], [d'], _ =>
      rw [mth, mth] at h
      by_cases he : d = d'
      · left; rw [he]
      · right; exact ⟨[0x00] ++ d, by simp [mthMsgs], [0x00] ++ d', by simp [mthMsgs], by simpa using he, h⟩
    | [d], d1 :: d2 :: ds, _ =>
      right
      rw [mth, mth] at h
      exact ⟨[0x00] ++ d, by simp [mthMsgs], _, by rw [mthMsgs]; exact List.mem_cons_self, by simp, h⟩
    | d1 :: d2 :: ds, [], _ =>
      right
      rw [mth, mth] at h
      exact ⟨_, by rw [mthMsgs]; exact List.mem_cons_self, [], by simp [mthMsgs], by simp, h⟩
    | d1 :: d2 :: ds, [d'], _ =>
      right
      rw [mth, mth] at h
      exact ⟨_, by rw [mthMsgs]; exact List.mem_cons_self, [0x00] ++ d', by simp [mthMsgs], by simp, h⟩
    | d1 :: d2 :: ds, d1' :: d2' :: ds', hD =>
      generalize hE : d1 :: d2 :: ds = E at *
      generalize hE' : d1' :: d2' :: ds' = E' at *
      have hl : 1 < E.length := by rw [← hE]; simp
      have hl' : 1 < E'.length := by rw [← hE']; simp
      have hsp := split_spec hl
      have hpos : 0 < split E.length := by obtain ⟨⟨e, he⟩, _⟩ := hsp; rw [he]; exact Nat.two_pow_pos e
      rw [mth_split H hl, mth_split H hl'] at h
      rw [mthMsgs_split H hl, mthMsgs_split H hl']
      by_cases hm : [0x01] ++ (mth H (E.take (split E.length))).val ++ (mth H (E.drop (split E.length))).val =
          [0x01] ++ (mth H (E'.take (split E'.length))).val ++ (mth H (E'.drop (split E'.length))).val
      · simp only [List.append_assoc, List.append_cancel_left_eq] at hm
        obtain ⟨q1, q2⟩ := Bytes32.append_inj hm
        rcases ih (split E.length) (by omega) _ _ (by simp; omega) q1 with a1 | c
        · rcases ih (E.length - split E.length) (by omega) _ _ (by simp) q2 with a2 | c
          · left
            rw [← List.take_append_drop (split E.length) E, a1, a2, List.take_append_drop]
          · right; exact collide_mono c (by intro x hx; simp [hx]) (by intro x hx; simp [hx])
        · right; exact collide_mono c (by intro x hx; simp [hx]) (by intro x hx; simp [hx])
      · right
        exact ⟨_, List.mem_cons_self, _, List.mem_cons_self, hm, h⟩

end FuelMerkle
