import Verif.Spec.AnyStorageAppend
import Verif.Proofs.BinaryWhole

/-
Binary trees over one list of leaves on storage that never makes things up.
-/
namespace FuelMerkle
namespace Binary.Any
open Spec Binary
variable {S E : Type} {B : Backend S Nat Prim E} {seen : S → Nat → Prim → Prop} {H : HashFn} {L : List Bytes}

/-! ### The right records -/

open Classical in
/-- All records of the list. -/
noncomputable def canon (H : HashFn) (L : List Bytes) (x : Nat) : Option Prim :=
  if h : ∃ a : Nat × Nat, x = ioIndex a.1 a.2 ∧ (a.2 + 1) * 2 ^ a.1 ≤ L.length then some (nodeAt H L h.choose.1 h.choose.2).toPrim else none

theorem canon_agree (H : HashFn) (L : List Bytes) : Agree H L (canon H L) := by
  intro h k hk
  have hx : ∃ a : Nat × Nat, ioIndex h k = ioIndex a.1 a.2 ∧ (a.2 + 1) * 2 ^ a.1 ≤ L.length := ⟨(h, k), rfl, hk⟩
  unfold canon
  rw [dif_pos hx]
  obtain ⟨e1, e2⟩ := ioIndex_injective hx.choose_spec.1
  rw [← e1, ← e2]

theorem canon_some {x : Nat} {q : Prim} (h : canon H L x = some q) : ∃ h k, x = ioIndex h k ∧ (k + 1) * 2 ^ h ≤ L.length ∧ q = (nodeAt H L h k).toPrim := by
  unfold canon at h
  split at h
  · rename_i hx
    exact ⟨_, _, hx.choose_spec.1, hx.choose_spec.2, (Option.some.inj h).symm⟩
  · cases h

/-- What can come back is right. -/
def Pure (H : HashFn) (L : List Bytes) (seen : S → Nat → Prim → Prop) (s : S) : Prop :=
  ∀ x q q', seen s x q → canon H L x = some q' → q = q'

theorem trusted_pure {s : S} : Trusted H L seen s ↔ Pure H L seen s := by
  have e : ∀ h k, (nodeAt H L h k).toPrim = (ioIndex h k, mth H ((L.drop (k * 2 ^ h)).take (2 ^ h))) := fun h k => rfl
  constructor
  · intro ht x q q' hx hc
    obtain ⟨h, k, rfl, hk, rfl⟩ := canon_some hc
    have := ht h k hk q (by rw [subtreeKey_eq]; exact hx)
    rw [this, e, subtreeKey_eq]
  · intro ht h k hk q hx
    rw [subtreeKey_eq] at hx ⊢
    rw [ht _ _ _ hx (canon_agree H L h k hk), e]

theorem Pure.less {s s' : S} (h : Pure H L seen s) (hs : ∀ x q, seen s' x q → seen s x q) : Pure H L seen s' :=
  fun x q q' hx => h x q q' (hs x q hx)

/-- A write of a right record. -/
theorem insert_pure (hB : NoInvention B seen) {h k : Nat} (hk : (k + 1) * 2 ^ h ≤ L.length) (st : Tree S) (hv : Pure H L seen st.storage) :
    ∃ st', Pure H L seen st'.storage ∧ st'.head = st.head ∧ st'.leavesCount = st.leavesCount ∧
      ((∃ v, onStorage (B.insert (nodeAt H L h k).key (nodeAt H L h k).toPrim) st = (.ok v, st')) ∨
        ∃ e, onStorage (B.insert (nodeAt H L h k).key (nodeAt H L h k).toPrim) st = (.error (.err (.storageError e)), st')) := by
  have hp : Pure H L seen (B.insert (nodeAt H L h k).key (nodeAt H L h k).toPrim st.storage).2 := by
    intro x q q' hx hc
    rcases hB.insert hx with hx | ⟨rfl, rfl⟩
    · exact hv x q q' hx hc
    · have : canon H L (nodeAt H L h k).key = some (nodeAt H L h k).toPrim := canon_agree H L h k hk
      rw [this] at hc
      exact Option.some.inj hc
  unfold onStorage
  rcases hi : B.insert (nodeAt H L h k).key (nodeAt H L h k).toPrim st.storage with ⟨e | v, s⟩ <;> rw [hi] at hp
  · exact ⟨{ st with storage := s }, hp, rfl, rfl, .inr ⟨e, rfl⟩⟩
  · exact ⟨{ st with storage := s }, hp, rfl, rfl, .inl ⟨v, rfl⟩⟩

/-! ### Pushing -/

theorem joinAllLoop_any (hB : NoInvention B seen) (p : Profile) (hN : L.length ≤ 2 ^ 63) {ds es : List Bytes} (hL : L = ds ++ es) (rest : List Node) :
    ∀ (h j : Nat) (st : Tree S), Peaks H ds (j * 2 ^ h) rest → (j + 1) * 2 ^ h = ds.length →
      st.head = nodeAt H ds h j :: rest → Pure H L seen st.storage →
      ∃ st', Pure H L seen st'.storage ∧ st'.leavesCount = st.leavesCount ∧
        ((joinAllLoop B p H (nodeAt H ds h j) rest st = (.ok (), st') ∧ Peaks H ds ds.length st'.head) ∨
          ∃ e, joinAllLoop B p H (nodeAt H ds h j) rest st = (.error (.err (.storageError e)), st')) := by
  have hlen : ds.length ≤ L.length := by rw [hL]; simp
  induction rest with
  | nil =>
    intro h j st hp hj hh hv
    have : j * 2 ^ h = 0 := by
      generalize hz : j * 2 ^ h = z at hp
      cases hp; rfl
    have hj0 : j = 0 := by
      rcases Nat.mul_eq_zero.1 this with h0 | h0
      · exact h0
      · have := Nat.two_pow_pos h; omega
    subst hj0
    refine ⟨st, hv, rfl, .inl ⟨rfl, ?_⟩⟩
    rw [hh]
    exact .cons h 0 [] _ (by simpa using Peaks.nil) (by rw [← hj])
  | cons y rest ih =>
    intro h j st hp hj hh hv
    generalize hz : j * 2 ^ h = z at hp
    cases hp with
    | cons h' k' _ _ hr he =>
      have hposh := Nat.two_pow_pos h
      have hposh' := Nat.two_pow_pos h'
      have e1 : (j + 1) * 2 ^ h = j * 2 ^ h + 2 ^ h := by ring
      have e2 : (2 * k' + 1) * 2 ^ h' = 2 * k' * 2 ^ h' + 2 ^ h' := by ring
      have b1 := pos_bound (h := h) (k := j) (by omega)
      have b2 := pos_bound (h := h') (k := 2 * k') (by omega)
      rw [joinAllLoop]
      have hh1 : (nodeAt H ds h j).position.height = h := height_posOf b1.2
      have hh2 : (nodeAt H ds h' (2 * k')).position.height = h' := height_posOf b2.2
      rw [hh1, hh2]
      by_cases heq : h = h'
      · subst heq
        rw [if_pos rfl]
        have hjk : j = 2 * k' + 1 := Nat.eq_of_mul_eq_mul_right hposh (by omega)
        subst hjk
        have e3 : (2 * k' + 1 + 1) * 2 ^ h = (k' + 1) * 2 ^ (h + 1) := by ring
        rw [Exec.modify_bind, joinNodes_complete p (by omega) (by omega), Exec.liftRes_ok_bind]
        have hsame : nodeAt H ds (h + 1) k' = nodeAt H L (h + 1) k' := by rw [hL]; exact (nodeAt_append (by omega)).symm
        rw [hsame]
        obtain ⟨st1, v1, hd1, c1, hi⟩ := insert_pure (H := H) hB (h := h + 1) (k := k') (by omega) { st with head := [] } hv
        rcases hi with ⟨v, hi⟩ | ⟨e, hi⟩
        · rw [Exec.bind_ok hi, Exec.modify_bind, ← hsame]
          have hr' : Peaks H ds (k' * 2 ^ (h + 1)) rest := by
            have : k' * 2 ^ (h + 1) = 2 * k' * 2 ^ h := by ring
            rw [this]; exact hr
          obtain ⟨st2, v2, c2, h2⟩ := ih (h + 1) k' { st1 with head := nodeAt H ds (h + 1) k' :: rest } hr' (by omega) rfl v1
          exact ⟨st2, v2, c2.trans c1, h2⟩
        · rw [Exec.bind_error hi]
          exact ⟨st1, v1, c1, .inr ⟨e, rfl⟩⟩
      · rw [if_neg heq]
        have hjeven : j % 2 = 0 := by
          rcases Nat.mod_two_eq_zero_or_one j with h0 | h1
          · exact h0
          · exfalso
            apply heq
            have hj2 : j = 2 * (j / 2) + 1 := by omega
            apply (odd_mul_two_pow_inj (k := j / 2) (k' := k') _).1
            rw [← hj2]; omega
        have hj2 : j = 2 * (j / 2) := by omega
        generalize j / 2 = q at hj2
        subst hj2
        refine ⟨st, hv, rfl, .inl ⟨rfl, ?_⟩⟩
        rw [hh]
        exact .cons h q _ _ (by rw [hz]; exact .cons h' k' rest _ hr he) hj.symm

theorem push_any (hB : NoInvention B seen) (p : Profile) (hN : L.length ≤ 2 ^ 63) {ds es : List Bytes} {d : Bytes} (hL : L = ds ++ d :: es) (st : Tree S)
    (hc : st.leavesCount = ds.length) (hp : Peaks H ds ds.length st.head) (hv : Pure H L seen st.storage) :
    ∃ st', Pure H L seen st'.storage ∧
      ((push B p H d st = (.ok (), st') ∧ st'.leavesCount = ds.length + 1 ∧ Peaks H (ds ++ [d]) (ds.length + 1) st'.head) ∨
        ∃ e, push B p H d st = (.error (.err (.storageError e)), st')) := by
  have hlen : (ds ++ [d]).length = ds.length + 1 := by simp
  have hL' : L = (ds ++ [d]) ++ es := by simp [hL]
  have hle : ds.length + 1 ≤ L.length := by rw [hL', List.length_append, hlen]; omega
  have hsame : nodeAt H (ds ++ [d]) 0 ds.length = nodeAt H L 0 ds.length := by rw [hL']; exact (nodeAt_append (by simp)).symm
  have hleaf : Node.createLeaf p H st.leavesCount d = .ok (nodeAt H (ds ++ [d]) 0 ds.length) := by
    unfold Node.createLeaf nodeAt
    rw [hc, fromLeafIndex_ok p (by omega)]
    simp only [Res.ok_bind, Res.pure_eq, Nat.pow_zero, Nat.mul_one]
    rw [subHash_leaf (by simp)]
    simp
  unfold push
  rw [Exec.get_bind, hleaf, Exec.liftRes_ok_bind, hsame]
  obtain ⟨st1, v1, hd1, c1, hi⟩ := insert_pure (H := H) hB (h := 0) (k := ds.length) (by simpa using hle) st hv
  rcases hi with ⟨v, hi⟩ | ⟨e, hi⟩
  · rw [Exec.bind_ok hi, Exec.modify_bind, hd1, ← hsame]
    have hj : joinAllSubtrees B p H { st1 with head := nodeAt H (ds ++ [d]) 0 ds.length :: st.head } =
        joinAllLoop B p H (nodeAt H (ds ++ [d]) 0 ds.length) st.head { st1 with head := nodeAt H (ds ++ [d]) 0 ds.length :: st.head } := by
      unfold joinAllSubtrees
      rw [Exec.get_bind]
    obtain ⟨st2, v2, c2, h2⟩ := joinAllLoop_any hB p hN hL' st.head 0 ds.length { st1 with head := nodeAt H (ds ++ [d]) 0 ds.length :: st.head }
      (by simpa using hp.append [d] (Nat.le_refl _)) (by simp) rfl v1
    rcases h2 with ⟨h2, hp2⟩ | ⟨e, h2⟩
    · rw [Exec.bind_ok (hj.trans h2), Exec.get_bind]
      have hadd : u64Add p st2.leavesCount 1 = .ok (ds.length + 1) := by
        rw [c2]; simp only []; rw [c1, hc, u64Add, if_pos (by omega)]
      rw [hadd, Exec.liftRes_ok_bind, Exec.modify_apply]
      exact ⟨{ st2 with leavesCount := ds.length + 1 }, v2, .inl ⟨rfl, rfl, by rw [← hlen]; exact hp2⟩⟩
    · rw [Exec.bind_error (hj.trans h2)]
      exact ⟨st2, v2, .inr ⟨e, rfl⟩⟩
  · rw [Exec.bind_error hi]
    exact ⟨st1, v1, .inr ⟨e, rfl⟩⟩

/-! ### Reading -/

/-- What the one returns from storage that never makes things up, if it is no error of the storage, is what the
other one returns from storage that holds all records of the list. -/
def Mirrors (H : HashFn) (L : List Bytes) (seen : S → Nat → Prim → Prop) {α : Type} (x : TreeM S E α) (y : Binary.TreeM Unit α) : Prop :=
  ∀ (st : Tree S) (st' : Binary.Tree Unit), Pure H L seen st.storage → st'.storage.map = canon H L → st'.storage.Reliable →
    ∀ a st1', y st' = (.ok a, st1') → st1'.storage.map = canon H L ∧ st1'.storage.Reliable ∧
      ∃ st1, Pure H L seen st1.storage ∧ st1.head = st.head ∧ st1.leavesCount = st.leavesCount ∧
        (x st = (.ok a, st1) ∨ ∃ e, x st = (.error e, st1) ∧ FromStorage e)

variable {α β : Type}

theorem Mirrors.pure (a : α) : Mirrors (E := E) H L seen (Pure.pure a) (Pure.pure a) := by
  intro st st' hv hm hr a' st1' h
  cases h
  exact ⟨hm, hr, st, hv, rfl, rfl, .inl rfl⟩

theorem Mirrors.bind {x : TreeM S E α} {y : Binary.TreeM Unit α} {f : α → TreeM S E β} {g : α → Binary.TreeM Unit β}
    (hx : Mirrors H L seen x y) (hf : ∀ a, Mirrors H L seen (f a) (g a)) : Mirrors H L seen (x >>= f) (y >>= g) := by
  intro st st' hv hm hr b st2' h
  rcases hy : y st' with ⟨e | a, st1'⟩
  · rw [Exec.bind_error hy] at h; cases h
  · rw [Exec.bind_ok hy] at h
    obtain ⟨m1, r1, st1, v1, d1, c1, h1⟩ := hx st st' hv hm hr a st1' hy
    obtain ⟨m2, r2, st2, v2, d2, c2, h2⟩ := hf a st1 st1' v1 m1 r1 b st2' h
    rcases h1 with h1 | ⟨e, h1, he⟩
    · refine ⟨m2, r2, st2, v2, d2.trans d1, c2.trans c1, ?_⟩
      rw [Exec.bind_ok h1]
      exact h2
    · refine ⟨m2, r2, st1, v1, d1, c1, .inr ⟨e, ?_, he⟩⟩
      rw [Exec.bind_error h1]

theorem Mirrors.lift (r : Res α) : Mirrors (E := E) H L seen (Exec.liftRes r) (Exec.liftRes r) := by
  intro st st' hv hm hr a st1' h
  cases r with
  | error e => cases h
  | ok b => cases h; exact ⟨hm, hr, st, hv, rfl, rfl, .inl rfl⟩

theorem Mirrors.fails (x : TreeM S E α) (e : Fail (Error Unit)) : Mirrors H L seen x (Exec.throw e) := by
  intro st st' _ _ _ a st1' h
  cases h

/-- A record is read: if it is used only where it is needed. -/
theorem Mirrors.read (hB : NoInvention B seen) (x : Nat) {f : Option Prim → TreeM S E β} {g : Option Prim → Binary.TreeM Unit β}
    (hsome : ∀ q, canon H L x = some q → Mirrors H L seen (f (some q)) (g (some q)))
    (hnone : ∀ q, canon H L x = some q → ∀ st, (∃ e, f none st = (.error e, st) ∧ FromStorage e) ∨ f none = f (some q))
    (hany : canon H L x = none → ∀ q, Mirrors H L seen (f q) (g none)) :
    Mirrors H L seen (onStorage (B.get x) >>= f) (Binary.onStorage (Store.get x) >>= g) := by
  intro st st' hv hm hr b st2' h
  have hg : Binary.onStorage (Store.get x) st' = (.ok (canon H L x), { st' with storage := { st'.storage with clock := st'.storage.clock + 1 } }) := by
    rw [← hm]
    exact Binary.onStorage_ok (Store.get_none x (hr _))
  rw [Exec.bind_ok hg] at h
  have hless : Pure H L seen (B.get x st.storage).2 := hv.less fun _ _ => hB.get
  have hfound := @hB.found x st.storage
  rcases hi : B.get x st.storage with ⟨e | q, s⟩ <;> rw [hi] at hless hfound
  · have e1 : onStorage (B.get x) st = (.error (.err (.storageError e)), { st with storage := s }) := by unfold onStorage; rw [hi]
    cases hc : canon H L x with
    | none =>
      rw [hc] at h
      obtain ⟨m2, r2, _⟩ := hany hc none { st with storage := s } { st' with storage := { st'.storage with clock := st'.storage.clock + 1 } } hless hm hr b st2' h
      exact ⟨m2, r2, { st with storage := s }, hless, rfl, rfl, .inr ⟨_, Exec.bind_error e1, trivial⟩⟩
    | some q =>
      rw [hc] at h
      obtain ⟨m2, r2, _⟩ := hsome q hc { st with storage := s } { st' with storage := { st'.storage with clock := st'.storage.clock + 1 } } hless hm hr b st2' h
      exact ⟨m2, r2, { st with storage := s }, hless, rfl, rfl, .inr ⟨_, Exec.bind_error e1, trivial⟩⟩
  · have e1 : onStorage (B.get x) st = (.ok q, { st with storage := s }) := by unfold onStorage; rw [hi]
    rw [Exec.bind_ok e1]
    cases hc : canon H L x with
    | none =>
      rw [hc] at h
      exact hany hc q { st with storage := s } { st' with storage := { st'.storage with clock := st'.storage.clock + 1 } } hless hm hr b st2' h
    | some q0 =>
      rw [hc] at h
      have hs := hsome q0 hc { st with storage := s } { st' with storage := { st'.storage with clock := st'.storage.clock + 1 } } hless hm hr b st2' h
      cases q with
      | some q =>
        rw [hv x q q0 (hfound rfl) hc]
        exact hs
      | none =>
        rcases hnone q0 hc { st with storage := s } with ⟨e, h1, he⟩ | h1
        · exact ⟨hs.1, hs.2.1, { st with storage := s }, hless, rfl, rfl, .inr ⟨e, h1, he⟩⟩
        · rw [h1]; exact hs

theorem buildLoop_mirrors (hB : NoInvention B seen) : ∀ (ps : List Position) (hd : List Node),
    Mirrors H L seen (buildLoop B ps hd) (Binary.buildLoop ps hd) := by
  intro ps
  induction ps with
  | nil => intro hd; exact Mirrors.pure hd
  | cons x ps ih =>
    intro hd
    refine Mirrors.read hB _ (fun q _ => ih _) (fun q _ st => .inl ⟨_, rfl, trivial⟩) (fun _ q => Mirrors.fails _ _)

theorem proveSides_mirrors (hB : NoInvention B seen) (scratch : Scratch) : ∀ ps : List Position,
    Mirrors H L seen (proveSides B scratch ps) (Binary.proveSides scratch ps) := by
  intro ps
  induction ps with
  | nil => exact Mirrors.pure []
  | cons x ps ih =>
    have hgo : ∀ q : Prim, Mirrors (E := E) H L seen (do let rest ← proveSides B scratch ps; return (Node.ofPrim q).hash :: rest)
        (do let rest ← Binary.proveSides scratch ps; return (Node.ofPrim q).hash :: rest) :=
      fun q => Mirrors.bind ih fun _ => Mirrors.pure _
    rw [proveSides, Binary.proveSides]
    cases hs : scratch x.inOrderIndex with
    | some q0 => exact Mirrors.read hB _ (fun q _ => hgo q0) (fun q _ st => .inr rfl) (fun _ q => hgo q0)
    | none => exact Mirrors.read hB _ (fun q _ => hgo q) (fun q _ st => .inl ⟨_, rfl, trivial⟩) (fun _ q => Mirrors.fails _ _)

/-- `prove` behaves like the one on storage with all records. -/
theorem prove_mirrors (hB : NoInvention B seen) (p : Profile) (k : Nat) (st : Tree S) (st' : Binary.Tree Unit) (hv : Pure H L seen st.storage)
    (hm : st'.storage.map = canon H L) (hr : st'.storage.Reliable) (hd : st'.head = st.head) (hc : st'.leavesCount = st.leavesCount)
    {a : Bytes32 × List Bytes32} {st1' : Binary.Tree Unit} (h : Binary.prove p H k st' = (.ok a, st1')) :
    ∃ st1, Pure H L seen st1.storage ∧ st1.head = st.head ∧ st1.leavesCount = st.leavesCount ∧
        (prove B p H k st = (.ok a, st1) ∨ ∃ e, prove B p H k st = (.error e, st1) ∧ FromStorage e) := by
  unfold Binary.prove at h
  unfold prove
  rw [Exec.get_bind, hd, hc] at h
  rw [Exec.get_bind]
  refine (?_ : Mirrors H L seen _ _) st st' hv hm hr a st1' h |>.2.2
  refine Mirrors.bind (Mirrors.lift _) fun n => ?_
  split
  · exact Mirrors.fails _ _
  · refine Mirrors.bind (Mirrors.lift _) fun r => Mirrors.bind (Mirrors.lift _) fun l => ?_
    refine Mirrors.read hB _ (fun q _ => ?_) (fun q _ st => .inl ⟨_, rfl, trivial⟩) (fun _ q => Mirrors.fails _ _)
    refine Mirrors.bind (Mirrors.lift _) fun i => Mirrors.bind (Mirrors.lift _) fun rs => ?_
    obtain ⟨r, s⟩ := rs
    exact Mirrors.bind (Mirrors.lift _) fun n => Mirrors.bind (proveSides_mirrors hB _ _) fun _ => Mirrors.pure _

/-- A storage with all records of the list. -/
noncomputable def full (H : HashFn) (L : List Bytes) : BStore Unit := ⟨canon H L, fun _ => none, 0⟩

theorem full_reliable : (full H L).Reliable := fun _ => rfl

theorem load_any (hB : NoInvention B seen) (p : Profile) {n : Nat} (hn : n ≤ L.length) (hlim : n < p.leafLimit) (s : S) (hv : Pure H L seen s) :
    (∃ t, Tree.load B p s n = (.ok t, t.storage) ∧ Pure H L seen t.storage ∧ t.leavesCount = n ∧ Peaks H (L.take n) n t.head) ∨
      ∃ e s', Tree.load B p s n = (.error e, s') ∧ Pure H L seen s' ∧ FromStorage e := by
  obtain ⟨c, _, h | ⟨e, ⟨x, f, _, hx, _⟩, _⟩⟩ := load_agree p (full H L) (canon_agree H L) hlim hn
  · obtain ⟨l, hl, h⟩ := h
    unfold Binary.Tree.load Binary.build at h
    unfold Tree.load build
    simp only at h ⊢
    rw [Exec.get_bind] at h ⊢
    simp only at h ⊢
    cases hpk : peakPositions p n with
    | error e =>
      rw [hpk] at h
      cases h
    | ok ps =>
      rw [hpk, Exec.liftRes_ok_bind] at h
      rw [Exec.liftRes_ok_bind]
      rcases hb : Binary.buildLoop ps [] ⟨full H L, [], n⟩ with ⟨e | hd, t'⟩
      · rw [Exec.bind_error hb] at h; cases h
      · rw [Exec.bind_ok hb] at h
        obtain ⟨_, _, st1, v1, d1, c1, h1⟩ := buildLoop_mirrors hB ps [] ⟨s, [], n⟩ ⟨full H L, [], n⟩ hv rfl full_reliable hd t' hb
        have hdl : hd = l := by
          have h := (Prod.ext_iff.1 h).1
          have h := congrArg Binary.Tree.head (Except.ok.inj h)
          exact h
        subst hdl
        rcases h1 with h1 | ⟨e, h1, he⟩
        · left
          rw [Exec.bind_ok h1]
          exact ⟨_, rfl, v1, c1, hl⟩
        · right
          rw [Exec.bind_error h1]
          exact ⟨e, _, rfl, v1, he⟩
  · cases hx

/-! ### The invariant -/

/-- The tree has the first `n` leaves. -/
structure Grown (H : HashFn) (L : List Bytes) (head : List Node) (count n : Nat) : Prop where
  le : n ≤ L.length
  count : count = n
  peaks : Peaks H (L.take n) n head

theorem Grown.new : Grown H L [] 0 0 := ⟨Nat.zero_le _, rfl, by simpa using Peaks.nil⟩

theorem Grown.root (p : Profile) (hlim : L.length ≤ 2 ^ 63) {head : List Node} {count n : Nat} (h : Grown H L head count n) (s : S) :
    (⟨s, head, count⟩ : Tree S).root p H = .ok (if n = 0 then emptySum else mth H (L.take n)) := by
  have hle := h.le
  have hlen : (L.take n).length = n := by simp; omega
  have hr := root_spec p H (L.take n) (by omega) ⟨full H L, head, count⟩ (by rw [hlen]; exact h.peaks)
  have he : (L.take n = []) ↔ n = 0 := by
    rw [← List.length_eq_zero_iff, hlen]
  simp only [he] at hr
  exact hr

theorem Grown.prove (hB : NoInvention B seen) (p : Profile) (hlim : L.length < p.leafLimit) {head : List Node} {count n : Nat}
    (h : Grown H L head count n) {k : Nat} (hk : k < n) (s : S) (hv : Pure H L seen s) :
    ∃ st1 : Tree S, Pure H L seen st1.storage ∧ st1.head = head ∧ st1.leavesCount = count ∧
      (prove B p H k ⟨s, head, count⟩ = (.ok (mth H (L.take n), H ([0x00] ++ L[k]?.getD []) :: auditPath H k (L.take n)), st1) ∨
        ∃ e, prove B p H k ⟨s, head, count⟩ = (.error e, st1) ∧ FromStorage e) := by
  have hle := h.le
  have hlen : (L.take n).length = n := by simp; omega
  have hinv : Inv H (L.take n) (⟨full H L, head, count⟩ : Binary.Tree Unit) :=
    ⟨by rw [hlen]; exact h.count, by rw [hlen]; exact h.peaks, (canon_agree H L).take n⟩
  obtain ⟨t', _, hp | ⟨e, ⟨x, f, _, hx, _⟩, _⟩⟩ := prove_spec p H (L.take n) _ hinv (by omega) (i := k) (by omega)
  · have e1 : leafSum H ((L.take n)[k]'(by omega)) = H ([0x00] ++ L[k]?.getD []) := by
      rw [List.getElem_take, List.getElem?_eq_getElem (by omega)]
      rfl
    rw [e1] at hp
    exact prove_mirrors hB p k ⟨s, head, count⟩ ⟨full H L, head, count⟩ hv rfl full_reliable rfl rfl hp
  · cases hx

theorem prove_refused (B : Backend S Nat Prim E) (p : Profile) (H : HashFn) {i : Nat} (t : Tree S) (hi : i + 1 < 2 ^ 64) (hle : t.leavesCount ≤ i) :
    prove B p H i t = (.error (.err (.invalidProofIndex i)), t) := by
  unfold prove
  rw [Exec.get_bind, u64Add, if_pos hi, Exec.liftRes_ok_bind, if_pos (by omega)]
  rfl

/-- The storage is right, and every tree that was not given up has its leaves. -/
structure Good (H : HashFn) (L : List Bytes) (seen : S → Nat → Prim → Prop) (c : Watch S) : Prop where
  pure : Pure H L seen c.bench.storage
  grown : ∀ i n, c.count i = some n → Grown H L (c.bench.head i) (c.bench.count i) n

theorem grant_good (hB : NoInvention B seen) (p : Profile) (hlim : L.length < p.leafLimit) (w : Wish) (hw : w.InRange L) (c : Watch S)
    (hc : Good H L seen c) :
    Good H L seen (c.grant B p H L w).2 ∧ ∀ a o, (c.grant B p H L w).1 = some (a, o) → c.Right H L a o := by
  have hll := p.leafLimit_le
  unfold Watch.grant
  cases w with
  | new i =>
    simp only [Watch.asked, Bench.act, Watch.expect]
    refine ⟨⟨hc.pure, fun j n hj => ?_⟩, fun a o h => by cases h; rfl⟩
    by_cases hij : j = i
    · simp only [hij, if_true] at hj ⊢
      cases hj
      exact Grown.new
    · simp only [if_neg hij] at hj ⊢
      exact hc.grown j n hj
  | load i n =>
    simp only [Watch.asked, Bench.act]
    rcases load_any hB p hw (Nat.lt_of_le_of_lt hw hlim) c.bench.storage hc.pure with ⟨t, h1, v1, c1, p1⟩ | ⟨e, s', h1, v1, he⟩
    · simp only [h1, Watch.expect]
      refine ⟨⟨v1, fun j m hj => ?_⟩, fun a o h => by cases h; exact .inl rfl⟩
      by_cases hij : j = i
      · simp only [hij, if_true] at hj ⊢
        cases hj
        exact ⟨hw, c1, p1⟩
      · simp only [if_neg hij] at hj ⊢
        exact hc.grown j m hj
    · simp only [h1, Watch.expect]
      exact ⟨⟨v1, hc.grown⟩, fun a o h => by cases h; exact .inr ⟨e, rfl, he⟩⟩
  | push i =>
    cases hn : c.count i with
    | none =>
      simp only [Watch.asked, hn]
      exact ⟨hc, fun a o h => by cases h⟩
    | some n =>
      have hg := hc.grown i n hn
      cases hd : L[n]? with
      | none =>
        simp only [Watch.asked, hn, hd, Option.map_none]
        exact ⟨hc, fun a o h => by cases h⟩
      | some d =>
        obtain ⟨hlt, hd'⟩ := List.getElem?_eq_some_iff.1 hd
        have hL : L = L.take n ++ d :: L.drop (n + 1) := by
          rw [← hd', List.getElem_cons_drop, List.take_append_drop]
        have hlen : (L.take n).length = n := by simp; omega
        obtain ⟨st', v', h | ⟨e, h⟩⟩ := push_any (H := H) hB p (by omega) hL ⟨c.bench.storage, c.bench.head i, c.bench.count i⟩
          (by rw [hlen]; exact hg.count) (by rw [hlen]; exact hg.peaks) hc.pure
        · obtain ⟨h, hcount, hpk⟩ := h
          simp only [Watch.asked, hn, hd, Option.map_some, Bench.act, step, h, Watch.expect]
          refine ⟨⟨v', fun j m hj => ?_⟩, fun a o h => by cases h; exact .inl rfl⟩
          by_cases hij : j = i
          · simp only [hij, if_true] at hj ⊢
            cases hj
            refine ⟨hlt, by rw [hcount, hlen], ?_⟩
            rw [hlen] at hpk
            have : L.take (n + 1) = L.take n ++ [d] := by rw [List.take_add_one, hd]; rfl
            rw [this]
            exact hpk
          · simp only [if_neg hij] at hj ⊢
            exact hc.grown j m hj
        · simp only [Watch.asked, hn, hd, Option.map_some, Bench.act, step, h, Watch.expect]
          refine ⟨⟨v', fun j m hj => ?_⟩, fun a o h => by cases h; exact .inr ⟨e, rfl⟩⟩
          by_cases hij : j = i
          · simp only [hij, if_true] at hj
            cases hj
          · simp only [if_neg hij] at hj ⊢
            exact hc.grown j m hj
  | root i =>
    cases hn : c.count i with
    | none =>
      simp only [Watch.asked, hn, Option.map_none]
      exact ⟨hc, fun a o h => by cases h⟩
    | some n =>
      have hg := hc.grown i n hn
      have hr := hg.root p (by omega) c.bench.storage
      simp only [Watch.asked, hn, Option.map_some, Bench.act, step, hr, Watch.expect]
      refine ⟨⟨hc.pure, fun j m hj => ?_⟩, fun a o h => by cases h; exact ⟨n, hn, rfl⟩⟩
      have := hc.grown j m hj
      by_cases hij : j = i
      · subst hij; simp only [if_true]; exact this
      · simp only [if_neg hij]; exact this
  | prove i k =>
    cases hn : c.count i with
    | none =>
      simp only [Watch.asked, hn, Option.map_none]
      exact ⟨hc, fun a o h => by cases h⟩
    | some n =>
      have hg := hc.grown i n hn
      have keep : ∀ st1 : Tree S, Pure H L seen st1.storage → st1.head = c.bench.head i → st1.leavesCount = c.bench.count i →
          Good H L seen (⟨⟨st1.storage, fun j => if j = i then st1.head else c.bench.head j,
            fun j => if j = i then st1.leavesCount else c.bench.count j⟩, c.count⟩ : Watch S) := by
        intro st1 v1 d1 c1
        refine ⟨v1, fun j m hj => ?_⟩
        have := hc.grown j m hj
        by_cases hij : j = i
        · subst hij; simp only [if_true, d1, c1]; exact this
        · simp only [if_neg hij]; exact this
      by_cases hk : k < n
      · obtain ⟨st1, v1, d1, c1, h | ⟨e, h, he⟩⟩ := hg.prove hB p hlim hk c.bench.storage hc.pure
        · simp only [Watch.asked, hn, Option.map_some, Bench.act, step, h, Watch.expect]
          refine ⟨keep st1 v1 d1 c1, fun a o h => ?_⟩
          cases h
          refine ⟨n, hn, ?_⟩
          rw [if_pos hk]
          exact .inl rfl
        · simp only [Watch.asked, hn, Option.map_some, Bench.act, step, h, Watch.expect]
          refine ⟨keep st1 v1 d1 c1, fun a o h => ?_⟩
          cases h
          refine ⟨n, hn, ?_⟩
          rw [if_pos hk]
          exact .inr ⟨e, rfl, he⟩
      · have h := prove_refused B p H (i := k) ⟨c.bench.storage, c.bench.head i, c.bench.count i⟩ hw (by simp only [hg.count]; omega)
        simp only [Watch.asked, hn, Option.map_some, Bench.act, step, h, Watch.expect]
        refine ⟨keep ⟨c.bench.storage, c.bench.head i, c.bench.count i⟩ hc.pure rfl rfl, fun a o h => ?_⟩
        cases h
        refine ⟨n, hn, ?_⟩
        rw [if_neg hk]

theorem good_start {s : S} (hs : Trusted H L seen s) : Good H L seen (Watch.start s) :=
  ⟨trusted_pure.1 hs, fun i n h => by cases h; exact Grown.new⟩

theorem allRight (hB : NoInvention B seen) (p : Profile) (hlim : L.length < p.leafLimit) : ∀ (ws : List Wish) (c : Watch S),
    (∀ w ∈ ws, w.InRange L) → Good H L seen c → c.AllRight B p H L ws ∧ Good H L seen (c.after B p H L ws)
  | [], _, _, hc => ⟨trivial, hc⟩
  | w :: ws, c, hw, hc => by
    obtain ⟨h1, h2⟩ := grant_good hB p hlim w (hw w (by simp)) c hc
    obtain ⟨h3, h4⟩ := allRight hB p hlim ws (c.grant B p H L w).2 (fun w' h => hw w' (by simp [h])) h1
    exact ⟨⟨h2, h3⟩, h4⟩

end Binary.Any
end FuelMerkle
