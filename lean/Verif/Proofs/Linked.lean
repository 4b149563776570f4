import Verif.Spec.LinkedNodes
import Verif.Proofs.Exec

/-
The trees with linked lists behave as the trees with lists.
-/
namespace FuelMerkle

namespace Subtree
variable {T : Type}

theorem toList_mk (n : T) (s : Option (Subtree T)) : (Subtree.mk n s).toList = n :: nodes s := by
  cases s <;> simp [toList, nodes]

theorem size_eq : ∀ s : Subtree T, s.size = s.toList.length
  | .mk n none => by simp [size, toList]
  | .mk n (some s) => by simp [size, toList, size_eq s]

end Subtree

/-- Two outcomes agree. -/
def Agree {ε α β : Type} (R : α → β → Prop) : Except ε α → Except ε β → Prop
  | .ok a, .ok b => R a b
  | .error e, .error e' => e = e'
  | _, _ => False

theorem Agree.eq {ε α : Type} {x y : Except ε α} (h : Agree (fun a b => a = b) x y) : x = y := by
  cases x <;> cases y <;> simp_all [Agree]

/-- The two computations agree from the state `s`. -/
def SimAt {σ τ ε α β : Type} (abs : σ → τ) (R : α → β → Prop) (m : Exec σ ε α) (m' : Exec τ ε β) (s : σ) : Prop :=
  Agree R (m s).1 (m' (abs s)).1 ∧ (m' (abs s)).2 = abs (m s).2

section
variable {σ τ ε α β γ δ : Type} {abs : σ → τ} {R : α → β → Prop} {Q : γ → δ → Prop}

theorem SimAt.bind {m : Exec σ ε α} {m' : Exec τ ε β} {f : α → Exec σ ε γ} {f' : β → Exec τ ε δ} {s : σ}
    (h : SimAt abs R m m' s) (hf : ∀ a b s', m s = (.ok a, s') → R a b → SimAt abs Q (f a) (f' b) s') : SimAt abs Q (m >>= f) (m' >>= f') s := by
  obtain ⟨h1, h2⟩ := h
  unfold SimAt
  rw [Exec.bind_apply, Exec.bind_apply]
  rcases e : m s with ⟨r, s1⟩
  rcases e' : m' (abs s) with ⟨r', s2⟩
  rw [e, e'] at h1 h2
  simp only at h1 h2
  subst h2
  cases r with
  | error x => cases r' with
    | error y => exact ⟨h1, rfl⟩
    | ok b => exact h1.elim
  | ok a => cases r' with
    | error y => exact h1.elim
    | ok b => exact hf a b s1 e h1

theorem SimAt.pure {a : α} {b : β} {s : σ} (h : R a b) : SimAt abs R (Pure.pure a : Exec σ ε α) (Pure.pure b : Exec τ ε β) s := ⟨h, rfl⟩
theorem SimAt.throw {e : ε} {s : σ} : SimAt abs R (Exec.throw e : Exec σ ε α) (Exec.throw e : Exec τ ε β) s := ⟨rfl, rfl⟩
theorem SimAt.get {s : σ} : SimAt abs (fun t t' => t = s ∧ t' = abs s) (Exec.get : Exec σ ε σ) (Exec.get : Exec τ ε τ) s := ⟨⟨rfl, rfl⟩, rfl⟩
theorem SimAt.modify {f : σ → σ} {f' : τ → τ} {s : σ} (h : f' (abs s) = abs (f s)) :
    SimAt abs (fun _ _ => True) (Exec.modify f : Exec σ ε Unit) (Exec.modify f' : Exec τ ε Unit) s := ⟨trivial, h⟩
end

theorem SimAt.lift {σ τ ε α β : Type} {abs : σ → τ} {R : α → β → Prop} {r : Res α} {r' : Res β} {s : σ} (h : Agree R r r') :
    SimAt abs R (Exec.liftRes r : Exec σ (Fail ε) α) (Exec.liftRes r' : Exec τ (Fail ε) β) s := by
  cases r <;> cases r' <;> simp_all [Agree, SimAt, Exec.liftRes]

theorem Agree.bind {ε α β γ δ : Type} {R : α → β → Prop} {Q : γ → δ → Prop} {x : Except ε α} {y : Except ε β} {f : α → Except ε γ} {g : β → Except ε δ}
    (h : Agree R x y) (hf : ∀ a b, R a b → Agree Q (f a) (g b)) : Agree Q (x >>= f) (y >>= g) := by
  cases x <;> cases y <;> simp_all [Agree, Bind.bind, Except.bind]

theorem Agree.refl {ε α : Type} (x : Except ε α) : Agree (fun a b => a = b) x x := by
  cases x <;> simp [Agree]

/-! ### Storage that cannot fail -/
namespace Infallible
variable {K V : Type} [DecidableEq K]

theorem sched (s : Store K V Empty) (t : Nat) : s.sched t = none := by
  cases h : s.sched t with
  | none => rfl
  | some f => exact f.err.elim

theorem get_eq (k : K) (s : Store K V Empty) : get k s = .ok (s.map k, { s with clock := s.clock + 1 }) := by
  unfold get; rw [Store.get_none _ (sched s _)]; rfl
theorem containsKey_eq (k : K) (s : Store K V Empty) : containsKey k s = .ok ((s.map k).isSome, { s with clock := s.clock + 1 }) := by
  unfold containsKey Store.containsKey; rw [sched s]; rfl
theorem insert_eq (k : K) (v : V) (s : Store K V Empty) :
    insert k v s = .ok (s.map k, { s with clock := s.clock + 1, map := Store.upd s.map k (some v) }) := by
  unfold insert; rw [Store.insert_none _ _ (sched s _)]; rfl
theorem remove_eq (k : K) (s : Store K V Empty) :
    remove k s = .ok (s.map k, { s with clock := s.clock + 1, map := Store.upd s.map k none }) := by
  unfold remove Store.remove; rw [sched s]; rfl
end Infallible

/-! ### The binary tree -/
namespace BinaryLinked
open Binary Subtree
variable {E : Type}

/-- The tree with its list. -/
def LTree.abs (t : LTree E) : Tree E := { storage := t.storage, head := nodes t.head, leavesCount := t.leavesCount }

theorem onStorage_sim {α : Type} (f : BStore E → Except E α × BStore E) (t : LTree E) :
    SimAt LTree.abs (fun a b => a = b) (onStorage f) (Binary.onStorage f) t := by
  unfold SimAt onStorage Binary.onStorage
  simp only [LTree.abs]
  rcases f t.storage with ⟨_ | _, s⟩ <;> simp [Agree, LTree.abs]

theorem buildRootLoop_sim (p : Profile) (H : HashFn) : ∀ (fuel : Nat) (n : Node) (s : Option (Subtree Node)) (sc : LScratch), (nodes s).length < fuel →
    Agree (fun a b => b = (a.1, a.2.map)) (buildRootLoop p H fuel (.mk n s) sc) (buildRootNode p H n (nodes s) sc.map) := by
  intro fuel
  induction fuel with
  | zero => intro n s sc h; omega
  | succ fuel ih =>
    intro n s sc h
    cases s with
    | none => simp [buildRootLoop, Subtree.next, Subtree.node, nodes, buildRootNode, Agree]
    | some c =>
      obtain ⟨n', s'⟩ := c
      rw [nodes, toList_mk] at h ⊢
      rw [buildRootLoop, buildRootNode]
      simp only [Subtree.next, Option.isSome_some, if_true, takeNext, setNext, runwrap, Res.ok_bind]
      unfold joinSubtrees joinNodes
      simp only [Subtree.node]
      cases Node.createNode p H n' n with
      | error q => simp [Agree]
      | ok j =>
        simp only [Res.ok_bind, Infallible.insert_eq, Subtree.new, takeNext, Subtree.next, Res.pure_eq]
        exact ih j s' _ (by simp only [List.length_cons] at h; omega)

theorem rootNode_sim (p : Profile) (H : HashFn) (head : Option (Subtree Node)) (sc : LScratch) :
    Agree (fun a b => b = (a.1, a.2.map)) (rootNode p H head sc) (Binary.rootNode p H (nodes head) sc.map) := by
  cases head with
  | none => simp [rootNode, Binary.rootNode, nodes, Agree]
  | some c =>
    obtain ⟨n, s⟩ := c
    unfold rootNode
    rw [nodes, toList_mk]
    unfold Binary.rootNode
    refine Agree.bind (buildRootLoop_sim p H _ n s sc (by rw [size_eq, toList_mk]; simp)) ?_
    rintro ⟨a, b⟩ _ rfl
    simp [Agree]

theorem root_eq (p : Profile) (H : HashFn) (t : LTree E) : t.root p H = Tree.root p H t.abs := by
  apply Agree.eq
  unfold LTree.root Tree.root
  refine Agree.bind (rootNode_sim p H t.head Store.empty) ?_
  rintro ⟨a, b⟩ _ rfl
  cases a <;> rfl

theorem proveSides_sim : ∀ (sides : List Position) (sc : LScratch) (t : LTree E),
    SimAt LTree.abs (fun a b => a = b) (proveSides sides sc) (Binary.proveSides sc.map sides) t := by
  intro sides
  induction sides with
  | nil => intro sc t; exact .pure rfl
  | cons side sides ih =>
    intro sc t
    rw [proveSides, Binary.proveSides]
    simp only [Infallible.get_eq]
    show SimAt LTree.abs _ (onStorage (Store.get side.inOrderIndex) >>= _) _ t
    refine (onStorage_sim _ t).bind ?_
    rintro a _ t' - rfl
    cases (sc.map side.inOrderIndex).or a with
    | none => exact .throw
    | some q =>
      refine (ih { sc with clock := sc.clock + 1 } t').bind ?_
      rintro a _ t' - rfl
      exact .pure rfl

theorem prove_sim (p : Profile) (H : HashFn) (i : Nat) (t : LTree E) : SimAt LTree.abs (fun a b => a = b) (prove p H i) (Binary.prove p H i) t := by
  unfold prove Binary.prove
  refine SimAt.get.bind ?_
  rintro t0 t0' t1 ht ⟨h0, h0'⟩
  cases ht
  subst h0'
  clear h0
  refine (SimAt.lift (Agree.refl _)).bind ?_
  rintro n _ t2 - rfl
  show SimAt _ _ (if n > t.leavesCount then _ else _) (if n > t.leavesCount then _ else _) _
  split
  · exact .throw
  · refine (SimAt.lift (Agree.refl _)).bind ?_
    rintro rp _ t3 - rfl
    refine (SimAt.lift (Agree.refl _)).bind ?_
    rintro lp _ t4 - rfl
    refine (onStorage_sim _ _).bind ?_
    rintro q _ t5 - rfl
    cases q with
    | none => exact .throw
    | some q =>
      refine (SimAt.lift (Agree.refl _)).bind ?_
      rintro items _ t6 - rfl
      refine (SimAt.lift (rootNode_sim p H t.head Store.empty)).bind ?_
      rintro ⟨a, sc⟩ _ t7 - rfl
      refine (SimAt.lift (Agree.refl _)).bind ?_
      rintro r _ t8 - rfl
      refine (proveSides_sim _ sc _).bind ?_
      rintro ss _ t9 - rfl
      exact .pure rfl

theorem buildLoop_sim : ∀ (peaks : List Position) (h : Option (Subtree Node)) (t : LTree E),
    SimAt LTree.abs (fun a b => b = nodes a) (buildLoop peaks h) (Binary.buildLoop peaks (nodes h)) t := by
  intro peaks
  induction peaks with
  | nil => intro h t; exact .pure rfl
  | cons x peaks ih =>
    intro h t
    rw [buildLoop, Binary.buildLoop]
    refine (onStorage_sim _ _).bind ?_
    rintro q _ t5 - rfl
    cases q with
    | none => exact .throw
    | some q =>
      have := ih (some (Subtree.new (Node.ofPrim q) h)) t5
      rw [nodes, Subtree.new, toList_mk] at this
      exact this

theorem build_sim (p : Profile) (t : LTree E) : SimAt LTree.abs (fun _ _ => True) (build p) (Binary.build p) t := by
  unfold build Binary.build
  refine SimAt.get.bind ?_
  rintro t0 _ t1 ht ⟨rfl, rfl⟩
  cases ht
  refine (SimAt.lift (Agree.refl _)).bind ?_
  rintro n _ t2 - rfl
  refine (buildLoop_sim _ none _).bind ?_
  rintro h _ t3 - rfl
  exact .modify rfl

theorem load_eq (p : Profile) (s : BStore E) (n : Nat) :
    Tree.load p s n = ((LTree.load p s n).1.map LTree.abs, (LTree.load p s n).2) := by
  have h := build_sim p (⟨s, none, n⟩ : LTree E)
  unfold SimAt at h
  unfold LTree.load Tree.load
  simp only
  have e : (⟨s, none, n⟩ : LTree E).abs = ⟨s, [], n⟩ := rfl
  rw [e] at h
  rcases h1 : build p (⟨s, none, n⟩ : LTree E) with ⟨r, t⟩
  rcases h2 : Binary.build p (⟨s, [], n⟩ : Tree E) with ⟨r', t'⟩
  rw [h1, h2] at h
  obtain ⟨h3, h4⟩ := h
  simp only at h3 h4
  subst h4
  cases r <;> cases r' <;> simp_all [Agree, Except.map, LTree.abs]

theorem joinAllLoop_sim (p : Profile) (H : HashFn) : ∀ (fuel : Nat) (n : Node) (s : Option (Subtree Node)) (t : LTree E), (nodes s).length < fuel →
    t.head = some (.mk n s) → SimAt LTree.abs (fun _ _ => True) (joinAllLoop p H fuel) (Binary.joinAllLoop p H n (nodes s)) t := by
  intro fuel
  induction fuel with
  | zero => intro n s t h; omega
  | succ fuel ih =>
    intro n s t h ht
    have hget : ∀ f : LTree E → LTreeM E Unit, (Exec.get >>= f) t = f t t := fun _ => rfl
    cases s with
    | none =>
      unfold SimAt
      rw [joinAllLoop, hget, ht]
      exact ⟨trivial, rfl⟩
    | some c =>
      obtain ⟨n', s'⟩ := c
      rw [nodes, toList_mk] at h ⊢
      rw [Binary.joinAllLoop]
      unfold SimAt
      rw [joinAllLoop, hget, ht]
      simp only [runwrap, Exec.liftRes_ok_bind, sameHeight, Subtree.next, Option.isSome_some, if_true, Subtree.nextNode, Option.map_some,
        Subtree.node, Res.ok_bind, Res.pure_eq]
      by_cases hh : n.position.height = n'.position.height
      · rw [if_pos (by simpa using hh), if_pos hh]
        rw [hget, ht]
        simp only [Exec.modify_bind, runwrap, Exec.liftRes_ok_bind, takeNext, Subtree.next, setNext]
        have key : SimAt LTree.abs (fun _ _ => True)
            (Exec.liftRes (joinSubtrees p H (.mk n' s') (.mk n none)) >>= fun joinedHead => onStorage (Store.insert joinedHead.node.key joinedHead.node.toPrim) >>= fun _ =>
              Exec.modify (fun t : LTree E => { t with head := some joinedHead }) >>= fun _ => joinAllLoop p H fuel)
            (Exec.liftRes (joinNodes p H n' n) >>= fun joined => Binary.onStorage (Store.insert joined.key joined.toPrim) >>= fun _ =>
              Exec.modify (fun t : Tree E => { t with head := joined :: nodes s' }) >>= fun _ => Binary.joinAllLoop p H joined (nodes s'))
            { t with head := none } := by
          refine (SimAt.lift (R := fun a b => a = .mk b s') ?_).bind ?_
          · unfold joinSubtrees joinNodes
            simp only [Subtree.node]
            cases Node.createNode p H n' n <;> simp [Agree, Subtree.new, takeNext, Subtree.next]
          · rintro _ j t2 - rfl
            refine (onStorage_sim _ _).bind ?_
            rintro q _ t3 - -
            refine (SimAt.modify ?_).bind ?_
            · simp only [LTree.abs, nodes, toList_mk]
            · rintro _ _ t4 ht4 -
              cases ht4
              exact ih j s' _ (by simp only [List.length_cons] at h; omega) rfl
        exact key
      · rw [if_neg (by simpa using hh), if_neg hh]
        exact ⟨trivial, rfl⟩

theorem push_sim (p : Profile) (H : HashFn) (d : Bytes) (t : LTree E) : SimAt LTree.abs (fun _ _ => True) (push p H d) (Binary.push p H d) t := by
  unfold push Binary.push
  refine SimAt.get.bind ?_
  rintro t0 _ t1 ht ⟨rfl, rfl⟩
  cases ht
  refine (SimAt.lift (Agree.refl _)).bind ?_
  rintro n _ t2 - rfl
  refine (onStorage_sim _ _).bind ?_
  rintro q _ t3 - -
  have key : SimAt LTree.abs (fun _ _ => True)
      (Exec.modify (fun t : LTree E => { t with head := some (Subtree.new n t3.head) }) >>= fun _ => joinAllLoop p H (Subtree.new n t3.head).size >>= fun _ =>
        Exec.get >>= fun t => Exec.liftRes (u64Add p t.leavesCount 1) >>= fun n => Exec.modify (fun t => { t with leavesCount := n }))
      (Exec.modify (fun t : Tree E => { t with head := n :: t.head }) >>= fun _ => joinAllSubtrees p H >>= fun _ =>
        Exec.get >>= fun t => Exec.liftRes (u64Add p t.leavesCount 1) >>= fun n => Exec.modify (fun t => { t with leavesCount := n })) t3 := by
    refine (SimAt.modify ?_).bind ?_
    · simp only [LTree.abs, nodes, Subtree.new, toList_mk]
    · rintro _ _ t4 ht4 -
      cases ht4
      refine SimAt.bind (R := fun _ _ => True) ?_ ?_
      · have := joinAllLoop_sim p H (Subtree.new n t3.head).size n t3.head { t3 with head := some (Subtree.new n t3.head) }
          (by rw [size_eq, Subtree.new, toList_mk]; simp) rfl
        unfold SimAt at this ⊢
        have e : joinAllSubtrees p H (LTree.abs { t3 with head := some (Subtree.new n t3.head) }) =
            Binary.joinAllLoop p H n (nodes t3.head) (LTree.abs { t3 with head := some (Subtree.new n t3.head) }) := by
          unfold joinAllSubtrees
          rw [Exec.get_bind]
          simp only [LTree.abs, nodes, Subtree.new, toList_mk]
        rw [e]
        exact this
      · rintro _ _ t5 - -
        refine SimAt.get.bind ?_
        rintro t0 t0' t6 ht ⟨h0, h0'⟩
        cases ht
        subst h0'
        refine (SimAt.lift (Agree.refl _)).bind ?_
        rintro m _ t7 - rfl
        exact .modify rfl
  exact key

end BinaryLinked

/-! ### The sum tree -/
namespace SumLinked
open FuelMerkle.Sum Subtree
variable {E : Type}

/-- The tree with its list. -/
def LTree.abs (t : LTree E) : Tree E := { storage := t.storage, head := nodes t.head }

theorem onStorage_sim {α : Type} (f : SStore E → Except E α × SStore E) (t : LTree E) :
    SimAt LTree.abs (fun a b => a = b) (onStorage f) (FuelMerkle.Sum.onStorage f) t := by
  unfold SimAt onStorage FuelMerkle.Sum.onStorage
  simp only [LTree.abs]
  rcases f t.storage with ⟨_ | _, s⟩ <;> simp [Agree]

theorem joinSubtrees_sim (p : Profile) (H : HashFn) (n' : Node) (s' : Option (Subtree Node)) (n : Node) (s : Option (Subtree Node)) (t : LTree E) :
    SimAt LTree.abs (fun a b => a = .mk b s') (joinSubtrees p H (.mk n' s') (.mk n s)) (FuelMerkle.Sum.joinSubtrees p H n' n) t := by
  unfold joinSubtrees FuelMerkle.Sum.joinSubtrees
  refine (SimAt.lift (Agree.refl _)).bind ?_
  rintro h _ t2 - rfl
  refine (SimAt.lift (Agree.refl _)).bind ?_
  rintro j _ t2 - rfl
  refine (onStorage_sim _ _).bind ?_
  rintro q _ t3 - -
  exact .pure rfl

theorem rootLoop_sim (p : Profile) (H : HashFn) : ∀ (fuel : Nat) (n : Node) (s : Option (Subtree Node)) (t : LTree E), (nodes s).length < fuel →
    SimAt LTree.abs (fun a b => a = b) (rootLoop p H fuel (.mk n s)) (FuelMerkle.Sum.rootLoop p H n (nodes s)) t := by
  intro fuel
  induction fuel with
  | zero => intro n s t h; omega
  | succ fuel ih =>
    intro n s t h
    cases s with
    | none => exact .pure rfl
    | some c =>
      obtain ⟨n', s'⟩ := c
      rw [nodes, toList_mk] at h ⊢
      rw [rootLoop, FuelMerkle.Sum.rootLoop]
      simp only [Subtree.next, Option.isSome_some, if_true, takeNext, setNext, runwrap]
      have key : SimAt LTree.abs (fun a b => a = b) (joinSubtrees p H (.mk n' s') (.mk n none) >>= fun c => rootLoop p H fuel c)
          (FuelMerkle.Sum.joinSubtrees p H n' n >>= fun j => FuelMerkle.Sum.rootLoop p H j (nodes s')) t := by
        refine (joinSubtrees_sim p H n' s' n none t).bind ?_
        rintro _ j t2 - rfl
        exact ih j s' _ (by simp only [List.length_cons] at h; omega)
      exact key

theorem rootNode_sim (p : Profile) (H : HashFn) (t : LTree E) : SimAt LTree.abs (fun a b => a = b) (rootNode p H) (FuelMerkle.Sum.rootNode p H) t := by
  unfold rootNode FuelMerkle.Sum.rootNode
  refine SimAt.get.bind ?_
  rintro t0 t0' t6 ht ⟨h0, h0'⟩
  cases ht
  subst h0'
  simp only [LTree.abs]
  cases t.head with
  | none => exact .pure rfl
  | some c =>
    obtain ⟨n, s⟩ := c
    simp only [nodes, toList_mk]
    refine (rootLoop_sim p H _ n s _ (by rw [size_eq, toList_mk]; simp)).bind ?_
    rintro a _ t2 - rfl
    exact .pure rfl

theorem root_sim (p : Profile) (H : HashFn) (t : LTree E) : SimAt LTree.abs (fun a b => a = b) (root p H) (FuelMerkle.Sum.root p H) t := by
  unfold root FuelMerkle.Sum.root
  refine (rootNode_sim p H t).bind ?_
  rintro a _ t2 - rfl
  cases a <;> exact .pure rfl

theorem joinAllLoop_sim (p : Profile) (H : HashFn) : ∀ (fuel : Nat) (n : Node) (s : Option (Subtree Node)) (t : LTree E), (nodes s).length < fuel →
    t.head = some (.mk n s) → SimAt LTree.abs (fun _ _ => True) (joinAllLoop p H fuel) (FuelMerkle.Sum.joinAllLoop p H n (nodes s)) t := by
  intro fuel
  induction fuel with
  | zero => intro n s t h; omega
  | succ fuel ih =>
    intro n s t h ht
    have hget : ∀ f : LTree E → LTreeM E Unit, (Exec.get >>= f) t = f t t := fun _ => rfl
    cases s with
    | none =>
      unfold SimAt
      rw [joinAllLoop, hget, ht]
      exact ⟨trivial, rfl⟩
    | some c =>
      obtain ⟨n', s'⟩ := c
      rw [nodes, toList_mk] at h ⊢
      rw [FuelMerkle.Sum.joinAllLoop]
      unfold SimAt
      rw [joinAllLoop, hget, ht]
      simp only [runwrap, Exec.liftRes_ok_bind, sameHeight, Subtree.next, Option.isSome_some, if_true, Subtree.nextNode, Option.map_some,
        Subtree.node, Res.ok_bind, Res.pure_eq]
      by_cases hh : n.height = n'.height
      · rw [if_pos (by simpa using hh), if_pos hh]
        rw [hget, ht]
        simp only [Exec.modify_bind, Exec.liftRes_ok_bind, takeNext, Subtree.next, setNext]
        have key : SimAt LTree.abs (fun _ _ => True)
            (joinSubtrees p H (.mk n' s') (.mk n none) >>= fun joinedHead =>
              Exec.modify (fun t : LTree E => { t with head := some joinedHead }) >>= fun _ => joinAllLoop p H fuel)
            (FuelMerkle.Sum.joinSubtrees p H n' n >>= fun joined =>
              Exec.modify (fun t : Tree E => { t with head := joined :: nodes s' }) >>= fun _ => FuelMerkle.Sum.joinAllLoop p H joined (nodes s'))
            { t with head := none } := by
          refine (joinSubtrees_sim p H n' s' n none _).bind ?_
          rintro _ j t2 - rfl
          refine (SimAt.modify ?_).bind ?_
          · simp only [LTree.abs, nodes, toList_mk]
          · rintro _ _ t4 ht4 -
            cases ht4
            exact ih j s' _ (by simp only [List.length_cons] at h; omega) rfl
        exact key
      · rw [if_neg (by simpa using hh), if_neg hh]
        exact ⟨trivial, rfl⟩

theorem push_sim (p : Profile) (H : HashFn) (fee : Nat) (d : Bytes) (t : LTree E) :
    SimAt LTree.abs (fun _ _ => True) (push p H fee d) (FuelMerkle.Sum.push p H fee d) t := by
  unfold push FuelMerkle.Sum.push
  refine (onStorage_sim _ _).bind ?_
  rintro q _ t3 - -
  have key : SimAt LTree.abs (fun _ _ => True)
      (Exec.modify (fun t : LTree E => { t with head := some (Subtree.new (Node.createLeaf H fee d) t3.head) }) >>= fun _ =>
        joinAllLoop p H (Subtree.new (Node.createLeaf H fee d) t3.head).size)
      (Exec.modify (fun t : Tree E => { t with head := Node.createLeaf H fee d :: t.head }) >>= fun _ => joinAllSubtrees p H) t3 := by
    refine (SimAt.modify ?_).bind ?_
    · simp only [LTree.abs, nodes, Subtree.new, toList_mk]
    · rintro _ _ t4 ht4 -
      cases ht4
      have := joinAllLoop_sim p H (Subtree.new (Node.createLeaf H fee d) t3.head).size _ t3.head { t3 with head := some (Subtree.new (Node.createLeaf H fee d) t3.head) }
        (by rw [size_eq, Subtree.new, toList_mk]; simp) rfl
      unfold SimAt at this ⊢
      have e : joinAllSubtrees p H (LTree.abs { t3 with head := some (Subtree.new (Node.createLeaf H fee d) t3.head) }) =
          FuelMerkle.Sum.joinAllLoop p H (Node.createLeaf H fee d) (nodes t3.head) (LTree.abs { t3 with head := some (Subtree.new (Node.createLeaf H fee d) t3.head) }) := by
        unfold joinAllSubtrees
        rw [Exec.get_bind]
        simp only [LTree.abs, nodes, Subtree.new, toList_mk]
      rw [e]
      exact this
  exact key

end SumLinked
end FuelMerkle
