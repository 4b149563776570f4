import Verif.Proofs.SparseMachine
import Verif.Spec.SparseLinked

/-
Updates write children before parents.
-/
namespace FuelMerkle
namespace Sparse
open Spec T
variable {E : Type} {H : HashFn} {M : Bytes → Prop} {U : Bytes32 → Prop}

/-- Nothing to store, or something stored. -/
def Held (m : Bytes32 → Option Prim) (x : Bytes32) : Prop := x ≠ zero32 → m x ≠ none

/-- What was stored still is. -/
def Keeps (m m' : Bytes32 → Option Prim) : Prop := ∀ x, m x ≠ none → m' x ≠ none

theorem Keeps.refl (m : Bytes32 → Option Prim) : Keeps m m := fun _ h => h
theorem Keeps.trans {a b c : Bytes32 → Option Prim} (h : Keeps a b) (h' : Keeps b c) : Keeps a c := fun x hx => h' x (h x hx)
theorem Held.keep {m m' : Bytes32 → Option Prim} {x : Bytes32} (h : Held m x) (hk : Keeps m m') : Held m' x := fun h0 => hk x (h h0)

theorem Keeps.upd (m : Bytes32 → Option Prim) (x : Bytes32) (q : Prim) : Keeps m (Store.upd m x (some q)) := by
  intro y hy
  unfold Store.upd
  split
  · simp
  · exact hy

/-- The children of a record are stored. -/
def Ready (m : Bytes32 → Option Prim) (q : Prim) : Prop := q.2.1 = 0x01 → Held m q.2.2.1 ∧ Held m q.2.2.2

theorem Linked.upd {m : Bytes32 → Option Prim} (h : Linked m) (x : Bytes32) {q : Prim} (hq : Ready m q) : Linked (Store.upd m x (some q)) := by
  intro y hh l r hy
  have hk := Keeps.upd m x q
  unfold Store.upd at hy
  split at hy
  · simp only [Option.some.injEq] at hy
    subst hy
    exact ⟨(hq rfl).1.keep hk, (hq rfl).2.keep hk⟩
  · obtain ⟨a, b⟩ := h y hh l r hy
    exact ⟨fun h0 => hk l (a h0), fun h0 => hk r (b h0)⟩

theorem insert_cases (x : Bytes32) (q : Prim) (s : SpStore E) :
    (∃ a s', Store.insert x q s = (.ok a, s') ∧ s'.map = Store.upd s.map x (some q)) ∨
      ∃ e s', Store.insert x q s = (.error e, s') ∧ (s'.map = s.map ∨ s'.map = Store.upd s.map x (some q)) := by
  cases hs : s.sched s.clock with
  | none => exact .inl ⟨_, _, Store.insert_none x q hs, rfl⟩
  | some f =>
    refine .inr ⟨_, _, Store.insert_fault x q hs, ?_⟩
    cases f.applied
    · exact .inl rfl
    · exact .inr rfl

/-- What a run of writes leaves: still linked, nothing lost. -/
structure Wrote (m m' : Bytes32 → Option Prim) : Prop where
  linked : Linked m'
  keeps : Keeps m m'

theorem Wrote.refl {m : Bytes32 → Option Prim} (h : Linked m) : Wrote m m := ⟨h, Keeps.refl m⟩
theorem Wrote.trans {a b c : Bytes32 → Option Prim} (h : Wrote a b) (h' : Wrote b c) : Wrote a c := ⟨h'.linked, h.keeps.trans h'.keeps⟩

theorem putAll_single (x : Bytes32) (q : Prim) (s : SpStore E) (h : Linked s.map) (hq : Ready s.map q) :
    Wrote s.map (putAll [(x, q)] s).2.map ∧ ((putAll [(x, q)] s).1 = none → (putAll [(x, q)] s).2.map x ≠ none) := by
  have hx : Store.upd s.map x (some q) x ≠ none := by unfold Store.upd; simp
  rcases insert_cases x q s with ⟨a, s', hi, hm⟩ | ⟨e, s', hi, hm⟩
  · simp only [putAll, hi]
    rw [hm]
    exact ⟨⟨h.upd x hq, Keeps.upd _ _ _⟩, fun _ => hx⟩
  · simp only [putAll, hi]
    refine ⟨?_, fun h => by cases h⟩
    rcases hm with hm | hm
    · rw [hm]; exact Wrote.refl h
    · rw [hm]; exact ⟨h.upd x hq, Keeps.upd _ _ _⟩

theorem putAll_append : ∀ (xs ys : List (Bytes32 × Prim)) (s : SpStore E), putAll (xs ++ ys) s =
    match putAll xs s with
    | (some e, s') => (some e, s')
    | (none, s') => putAll ys s' := by
  intro xs ys
  induction xs with
  | nil => intro s; rfl
  | cons x xs ih =>
    intro s
    rw [List.cons_append, putAll, putAll]
    rcases Store.insert x.1 x.2 s with ⟨e | a, s'⟩
    · rfl
    · exact ih s'

/-- Writing one run of records after another. -/
theorem wrote_append {xs ys : List (Bytes32 × Prim)} {s : SpStore E} (h1 : Wrote s.map (putAll xs s).2.map)
    {P : (Bytes32 → Option Prim) → Prop}
    (h2 : (putAll xs s).1 = none → Wrote (putAll xs s).2.map (putAll ys (putAll xs s).2).2.map ∧
      ((putAll ys (putAll xs s).2).1 = none → P (putAll ys (putAll xs s).2).2.map)) :
    Wrote s.map (putAll (xs ++ ys) s).2.map ∧ ((putAll (xs ++ ys) s).1 = none → P (putAll (xs ++ ys) s).2.map) := by
  rw [putAll_append]
  rcases hq : putAll xs s with ⟨_ | e, s'⟩
  · rw [hq] at h1 h2
    obtain ⟨a, b⟩ := h2 rfl
    exact ⟨h1.trans a, b⟩
  · rw [hq] at h1
    exact ⟨h1, fun h => by cases h⟩

/-- The records written for a tree along the bits of a key. -/
def wayPuts (H : HashFn) (k : Bytes32) (d : Nat) (t : T) : List (Bytes32 × Prim) := (innerNodes H k d t).map fun n => (n.hash H, n.toPrim)

/-- One branch more. -/
theorem wrote_nodeOn (env : Env H M U) (k : Bytes32) {d : Nat} {a b : T} (w : WF d (nodeOn (keyBit k d) a b))
    (hin : In H M (nodeOn (keyBit k d) a b)) (s : SpStore E) (hb : Held s.map (b.hash H))
    (ha : Wrote s.map (putAll (wayPuts H k (d + 1) a) s).2.map ∧
      ((putAll (wayPuts H k (d + 1) a) s).1 = none → Held (putAll (wayPuts H k (d + 1) a) s).2.map (a.hash H))) :
    Wrote s.map (putAll (wayPuts H k d (nodeOn (keyBit k d) a b)) s).2.map ∧
      ((putAll (wayPuts H k d (nodeOn (keyBit k d) a b)) s).1 = none →
        Held (putAll (wayPuts H k d (nodeOn (keyBit k d) a b)) s).2.map ((nodeOn (keyBit k d) a b).hash H)) := by
  have e : wayPuts H k d (nodeOn (keyBit k d) a b) = wayPuts H k (d + 1) a ++
      [((nodeOn (keyBit k d) a b).hash H, (toNode H d (nodeOn (keyBit k d) a b)).toPrim)] := by
    unfold wayPuts
    rw [innerNodes_nodeOn, List.map_append, List.map_cons, List.map_nil, hash_toNode env w hin]
  rw [e]
  refine wrote_append (P := fun m => Held m ((nodeOn (keyBit k d) a b).hash H)) ha.1 fun hn => ?_
  have h1 := ha.2 hn
  have h2 := hb.keep ha.1.keeps
  obtain ⟨h3, h4⟩ := putAll_single ((nodeOn (keyBit k d) a b).hash H) (toNode H d (nodeOn (keyBit k d) a b)).toPrim
    (putAll (wayPuts H k (d + 1) a) s).2 ha.1.linked (by
      intro _
      cases keyBit k d
      · exact ⟨h1, h2⟩
      · exact ⟨h2, h1⟩)
  exact ⟨h3, fun hn _ => h4 hn⟩

theorem wrote_fork (env : Env H M U) {k v k' v' : Bytes32} (hne : k ≠ k') (s : SpStore E) (hl : Linked s.map)
    (h1 : Held s.map ((leaf k v).hash H)) (h2 : Held s.map ((leaf k' v').hash H)) : ∀ (fuel d : Nat), fuel + d = 256 → agree d k k' →
    In H M (fork k v k' v' fuel d) →
    Wrote s.map (putAll (wayPuts H k d (fork k v k' v' fuel d)) s).2.map ∧
      ((putAll (wayPuts H k d (fork k v k' v' fuel d)) s).1 = none →
        Held (putAll (wayPuts H k d (fork k v k' v' fuel d)) s).2.map ((fork k v k' v' fuel d).hash H)) := by
  intro fuel
  induction fuel with
  | zero => intro d hd hag; exact absurd (eq_of_agree hag (by omega)) hne
  | succ fuel ih =>
    intro d hd hag hin
    have w := (fork_spec (v := v) (v' := v') hne (fuel + 1) d hd hag).1
    unfold fork at hin w ⊢
    split
    · rename_i hb
      rw [if_pos hb] at hin w
      exact wrote_nodeOn env k w hin s (fun h => absurd rfl h) (ih (d + 1) (by omega) (hag.succ hb) hin.nodeOn.1)
    · rename_i hb
      rw [if_neg hb] at hin w
      exact wrote_nodeOn env k w hin s h2 ⟨Wrote.refl hl, fun _ => h1⟩

theorem wrote_ins (env : Env H M U) {k v : Bytes32} (s : SpStore E) (hl : Linked s.map) (h1 : Held s.map ((leaf k v).hash H)) :
    ∀ (t : T) (d : Nat), WF d t → Ag d k t → d ≤ 256 → In H M (ins k v d t) → Held s.map (t.hash H) →
    (∀ x ∈ pairHashes H k d t, Held s.map x.1 ∧ Held s.map x.2) →
    Wrote s.map (putAll (wayPuts H k d (ins k v d t)) s).2.map ∧
      ((putAll (wayPuts H k d (ins k v d t)) s).1 = none →
        Held (putAll (wayPuts H k d (ins k v d t)) s).2.map ((ins k v d t).hash H)) := by
  intro t
  induction t with
  | empty => intro d _ _ _ _ _ _; exact ⟨Wrote.refl hl, fun _ => h1⟩
  | leaf k' v' =>
    intro d w hag hd hin ht _
    unfold ins at hin ⊢
    split
    · exact ⟨Wrote.refl hl, fun _ => h1⟩
    · rename_i hne
      rw [if_neg hne] at hin
      exact wrote_fork env hne s hl h1 ht (256 - d) d (by omega) (hag (k', v') (by simp [entries])).symm hin
  | node l r ihl ihr =>
    intro d w hag hd hin ht hp
    have w' := (ins_spec (v := v) w hag hd).1
    rw [pairHashes_node] at hp
    rw [ins_node] at hin w' ⊢
    obtain ⟨p1, p2⟩ := hp _ (List.mem_cons_self ..)
    have hp' := fun x hx => hp x (List.mem_cons_of_mem _ hx)
    refine wrote_nodeOn env k w' hin s p2 ?_
    have hi := hin.nodeOn.1
    have ww := WF_nodeOn.1 (node_eq_nodeOn (keyBit k d) l r ▸ w)
    have hag' : Ag (d + 1) k (if keyBit k d then r else l) := by
      intro x hx
      refine (hag x ?_).succ (ww.2.2.2.1 x hx)
      rw [node_eq_nodeOn (keyBit k d) l r, mem_nodeOn]
      exact .inl hx
    have wc := ww.2.1
    unfold onPath at p1 hp'
    revert hi hag' wc p1 hp'
    cases keyBit k d
    · intro p1 hp' hi hag' wc
      exact ihl (d + 1) wc hag' (by have := w.1; omega) hi p1 hp'
    · intro p1 hp' hi hag' wc
      exact ihr (d + 1) wc hag' (by have := w.1; omega) hi p1 hp'

/-! ### Reads that succeed -/

theorem seek_held {x : Bytes32} {s : SpStore E} (h : (seek x s).1 = none) : Held s.map x := by
  intro h0
  unfold seek Store.get at h
  rw [if_neg h0] at h
  intro hm
  rw [hm] at h
  revert h
  cases s.sched s.clock <;> simp

theorem seekAll_held : ∀ (xs : List (Bytes32 × Bytes32)) (s : SpStore E), (seekAll xs s).1 = none → ∀ x ∈ xs, Held s.map x.1 ∧ Held s.map x.2 := by
  intro xs
  induction xs with
  | nil => intro s _ x hx; cases hx
  | cons y ys ih =>
    intro s h x hx
    rw [seekAll] at h
    have hk := seekBoth_keeps y s
    rcases hq : seekBoth y s with ⟨⟨a, b⟩, s'⟩
    rw [hq] at h hk
    cases a with
    | some e => cases h
    | none =>
      cases b with
      | some e => cases ys <;> cases h
      | none =>
        rcases List.mem_cons.1 hx with rfl | hx
        · unfold seekBoth at hq
          simp only [Prod.mk.injEq] at hq
          refine ⟨seek_held hq.1.1, ?_⟩
          have := seek_held hq.1.2
          rwa [seek_keeps] at this
        · have := ih s' h x hx
          rwa [show s'.map = s.map from hk] at this

/-! ### Calls -/

theorem machine_linked (env : Env H M U) (op : Op) (hop : op.data ≠ none) {t : T} {kv : Entries Bytes} (w : WF 0 t) (he : Ent H t kv)
    (hin : In H M t) (s : SpStore E) (hf : Fits H M (op.target (⟨kv, s⟩ : Machine E))) (hl : Linked s.map) (hr : Held s.map (rootOf H kv)) :
    Wrote s.map (op.onMachine H ⟨kv, s⟩).2.storage.map ∧
      Held (op.onMachine H ⟨kv, s⟩).2.storage.map (rootOf H (op.onMachine H ⟨kv, s⟩).2.kv) := by
  obtain ⟨d, hd⟩ := Option.ne_none_iff_exists'.1 hop
  unfold Op.onMachine
  unfold Op.target at hf
  simp only [hd] at hf ⊢
  obtain ⟨w1, w2⟩ := wrote_append (xs := [(H (smtLeafMsg op.key (H d)), ((0, 0x00, op.key, H d) : Prim))]) (ys := [(op.key, ((0, 0x00, op.key, H d) : Prim))])
    (s := s) (P := fun m => Held m (H (smtLeafMsg op.key (H d)))) (putAll_single _ _ s hl (by intro h; cases h)).1 (fun hn => by
      have h1 := putAll_single (H (smtLeafMsg op.key (H d))) ((0, 0x00, op.key, H d) : Prim) s hl (by intro h; cases h)
      have h2 := putAll_single op.key ((0, 0x00, op.key, H d) : Prim) _ h1.1.linked (by intro h; cases h)
      exact ⟨h2.1, fun _ _ => h2.1.keeps _ (h1.2 hn)⟩)
  rw [List.singleton_append] at w1 w2
  rcases hq : putAll [(H (smtLeafMsg op.key (H d)), ((0, 0x00, op.key, H d) : Prim)), (op.key, ((0, 0x00, op.key, H d) : Prim))] s with ⟨_ | e, s1⟩
  · rw [hq] at w1 w2
    simp only []
    rcases hs : seekAll (wayPairs H op.key kv) s1 with ⟨_ | e, s2⟩
    · have hm : s2.map = s1.map := by have := seekAll_keeps (wayPairs H op.key kv) s1; rwa [hs] at this
      have hh := seekAll_held (wayPairs H op.key kv) s1 (by rw [hs])
      simp only []
      unfold Op.target finish
      simp only [hd]
      have he' := he.put w op.key d
      have w' := (ins_spec (k := op.key) (v := H d) w (Ag.zero _ _) (by omega)).1
      have hin' := he'.inn w' hf
      rw [← (he.way env op.key w hin).2.1] at hh
      rw [← (he'.way env op.key w' hin').2.2]
      have key := wrote_ins env (k := op.key) (v := H d) s2 (by rw [hm]; exact w1.linked) (by rw [hm]; exact w2 rfl) t 0 w (Ag.zero _ _) (by omega) hin'
        (by rw [hm, he.root w]; exact hr.keep w1.keeps) (fun x hx => by rw [hm]; exact hh x hx)
      unfold wayPuts at key
      rw [hm] at key
      rw [he'.root w'] at key
      rcases hp : putAll ((innerNodes H op.key 0 (ins op.key (H d) 0 t)).map fun n => (n.hash H, n.toPrim)) s2 with ⟨_ | e, s3⟩
      · rw [hp] at key ⊢
        exact ⟨w1.trans key.1, key.2 rfl⟩
      · rw [hp] at key ⊢
        exact ⟨w1.trans key.1, hr.keep (w1.trans key.1).keeps⟩
    · have hm : s2.map = s1.map := by have := seekAll_keeps (wayPairs H op.key kv) s1; rwa [hs] at this
      simp only [hm]
      exact ⟨w1, hr.keep w1.keeps⟩
  · rw [hq] at w1
    exact ⟨w1, hr.keep w1.keeps⟩

theorem triedMaps_take : ∀ (ops : List Op) (n : Nat) (m : Machine E), ∀ x ∈ triedMaps H (ops.take n) m, x ∈ triedMaps H ops m := by
  intro ops
  induction ops with
  | nil => intro n m x hx; rwa [List.take_nil] at hx
  | cons op ops ih =>
    intro n m x hx
    cases n with
    | zero =>
      simp only [List.take_zero, triedMaps, List.mem_singleton] at hx
      simp [triedMaps, hx]
    | succ n =>
      simp only [List.take_succ_cons, triedMaps, List.mem_cons] at hx ⊢
      rcases hx with h | h | h
      · exact .inl h
      · exact .inr (.inl h)
      · exact .inr (.inr (ih n _ x h))

/-- A history of updates. -/
theorem run_linked (p : Profile) (env : Env H M U) : ∀ (ops : List Op) {st : Tree E} {t : T} {kv : Entries Bytes}, Rep H M U st t kv →
    (∀ op ∈ ops, U op.key) → (∀ op ∈ ops, op.data ≠ none) → (∀ x ∈ triedMaps H ops (⟨kv, st.storage⟩ : Machine E), Fits H M x) →
    Linked st.storage.map → Held st.storage.map (rootOf H kv) →
    Wrote st.storage.map (runMachine H ops ⟨kv, st.storage⟩).2.storage.map ∧
      ∀ n, Held (runMachine H ops ⟨kv, st.storage⟩).2.storage.map (rootOf H (runMachine H (ops.take n) ⟨kv, st.storage⟩).2.kv) := by
  intro ops
  induction ops with
  | nil => intro st t kv h _ _ _ hl hr; exact ⟨Wrote.refl hl, fun n => by rw [List.take_nil]; exact hr⟩
  | cons op ops ih =>
    intro st t kv h hu hd hf hl hr
    have hft := hf _ (List.mem_cons_of_mem _ (List.mem_cons_self ..))
    obtain ⟨⟨_, a2⟩, t1, h1⟩ := op_agrees p env op (hu op (by simp)) h hft
    obtain ⟨m1, m2⟩ := machine_linked env op (hd op (by simp)) h.wf h.ent h.inn st.storage hft hl hr
    have e : (op.onMachine H ⟨kv, st.storage⟩).2 = ⟨(op.onMachine H ⟨kv, st.storage⟩).2.kv, (op.run p H st).2.storage⟩ := by rw [a2]
    rw [← a2] at m1 m2
    obtain ⟨b1, b2⟩ := ih h1 (fun o ho => hu o (by simp [ho])) (fun o ho => hd o (by simp [ho])) (fun x hx => hf x (by
      rw [triedMaps, e]
      simp [hx])) m1.linked m2
    rw [← e] at b1 b2
    refine ⟨m1.trans b1, fun n => ?_⟩
    cases n with
    | zero => exact hr.keep (m1.trans b1).keeps
    | succ n => exact b2 n

/-! ### A stored root is a stored tree -/

theorem Linked.stored (env : Env H M U) {m : Bytes32 → Option Prim} (hl : Linked m) (hv : Valid H M U m) : ∀ {t : T} {d : Nat}, WF d t → In H M t →
    Held m (t.hash H) → Stored H m d t := by
  have get : ∀ {t : T} {d : Nat}, WF d t → In H M t → t ≠ .empty → Held m (t.hash H) → m (t.hash H) = some (toNode H d t).toPrim := by
    intro t d w hin h0 hh
    obtain ⟨q, hq⟩ := Option.ne_none_iff_exists'.1 (hh (hin.hash_ne env h0))
    rw [hq, hv.get env w hin h0 hq]
  intro t
  induction t with
  | empty => intro d _ _ _; trivial
  | leaf k v => intro d w hin hh; exact get w hin (by simp) hh
  | node l r ihl ihr =>
    intro d w hin hh
    have hg := get w hin (by simp) hh
    obtain ⟨h1, h2⟩ := hl _ _ _ _ hg
    exact ⟨hg, ihl w.2.1 hin.left h1, ihr w.2.2.1 hin.right h2⟩

end Sparse
end FuelMerkle
