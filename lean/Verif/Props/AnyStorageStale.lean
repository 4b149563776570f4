import Verif.Proofs.AnyStorageStale
import Verif.Props.AnyStorage
import Verif.Props.SparseMany

/-
C96: sparse trees on storage that never makes things up, but may forget and go back in time.
-/
namespace FuelMerkle.Props
open FuelMerkle Spec Sparse Sparse.Any
variable {S E : Type}

set_option maxRecDepth 100000

/-- The storage never makes up a record; the hash function behaves on everything hashed for the maps the requests
lead to or try to lead to, and on the keys of the calls; the maps loaded are maps; and no record that can come back
from before the start is wrong for all these maps and keys. -/
structure Honest (B : Backend S Bytes32 Prim E) (seen : S → Bytes32 → Prim → Prop) (p : Profile) (H : HashFn) (s : S) (rs : List Sparse.Request) : Prop where
  backend : NoInvention B seen
  ideal : Ideal H (((Watch.start s).aims B p H rs).flatMap (msgsOf H)) ((callsOf rs).map Op.key)
  calls : NoPhantom H (callsOf rs)
  loads : LoadsOk H rs
  sound : ∀ m : Bytes32 → Option Prim, (∀ x q, m x = some q → seen s x q) → Sound H m ((Watch.start s).aims B p H rs) ((callsOf rs).map Op.key)

section
variable {B : Backend S Bytes32 Prim E} {seen : S → Bytes32 → Prim → Prop} {p : Profile} {H : HashFn} {s : S} {rs : List Sparse.Request}

theorem Honest.env (h : Honest B seen p H s rs) :
    Env H (fun a => ∃ kv ∈ (Watch.start s).aims B p H rs, a ∈ msgsOf H kv) (· ∈ (callsOf rs).map Op.key) :=
  ⟨fun a b ha hb => h.ideal.distinct a (List.mem_flatMap.2 ha) b (List.mem_flatMap.2 hb), fun a ha => h.ideal.nonzero a (List.mem_flatMap.2 ha),
    fun a k ha => h.ideal.apart a (List.mem_flatMap.2 ha) k⟩

theorem Honest.solid (h : Honest B seen p H s rs) : ∀ kv ∈ (Watch.start s).aims B p H rs, (keysOf kv).Nodup ∧ Solid H kv :=
  watch_solid p rs _ (fun _ => ⟨by simp [Watch.start, keysOf], Solid.nil H⟩) h.calls h.loads

theorem Honest.run (h : Honest B seen p H s rs) : (Watch.start s).AllRight B p H rs ∧
    Watched H (fun a => ∃ kv ∈ (Watch.start s).aims B p H rs, a ∈ msgsOf H kv) (· ∈ (callsOf rs).map Op.key) seen ((Watch.start s).handleAll B p H rs).2 :=
  handleAll_watched h.backend p h.env rs (Watched.start fun m hm => (h.sound m hm).valid h.solid)
    (fun _ ho => List.mem_map.2 ⟨_, ho, rfl⟩) (fun kv hkv => ⟨fun _ hm => ⟨kv, hkv, hm⟩, (h.solid kv hkv).2⟩) h.loads

end

/-- **C96**. Any number of sparse trees are on a storage that never makes up a record, but may fail, lose records,
bring back lost, removed and overwritten ones, and answer differently from one call to the next. Trees are made new,
loaded at the roots of any maps that are not empty, called and asked for their roots, in any order. Then no request
panics; an error says that a storage call failed or that a record was not there, never that a record was bad; every
root answered is the root of the map of the tree; and in the end every tree has the root of its map. The map of a
tree is what `Watch.expect` says: that of the successful calls. -/
theorem C96_right {B : Backend S Bytes32 Prim E} {seen : S → Bytes32 → Prim → Prop} (p : Profile) (H : HashFn) (s : S) (rs : List Sparse.Request)
    (h : Honest B seen p H s rs) :
    (Watch.start s).AllRight B p H rs ∧
      ∀ i, (⟨((Watch.start s).handleAll B p H rs).2.bench.node i, ((Watch.start s).handleAll B p H rs).2.bench.storage⟩ : Any.Tree S).root H =
        rootOf H (((Watch.start s).handleAll B p H rs).2.kv i) := by
  obtain ⟨h1, h2⟩ := h.run
  exact ⟨h1, fun i => (h2.has i).root_eq h.env _⟩

theorem watch_bench {B : Backend S Bytes32 Prim E} (p : Profile) (H : HashFn) : ∀ (rs : List Sparse.Request) (c : Watch S),
    c.bench.handleAll B p H (rs.map (Sparse.Request.asked H)) = ((c.handleAll B p H rs).1, (c.handleAll B p H rs).2.bench) := by
  intro rs
  induction rs with
  | nil => intro c; rfl
  | cons r rs ih =>
    intro c
    have := ih (c.handle B p H r).2
    simp only [List.map_cons, Any.Bench.handleAll, Watch.handleAll]
    rw [show (c.bench.handle B p H (r.asked H)).2 = (c.handle B p H r).2.bench from rfl, this]
    rfl

theorem watch_fair {B : Backend S Bytes32 Prim E} (p : Profile) (H : HashFn) : ∀ (rs : List Sparse.Request) (c : Watch S), c.AllRight B p H rs →
    ∀ o ∈ (c.handleAll B p H rs).1, o.Fair := by
  intro rs
  induction rs with
  | nil => intro c _ o ho; cases ho
  | cons r rs ih =>
    intro c h o ho
    rcases List.mem_cons.1 ho with rfl | ho
    · exact h.1.1
    · exact ih _ h.2 o ho

/-- **C96**, what the program answers: the requests, as the program sees them, are answered fairly. The trees are those
of `Model/AnyStorage.lean`; the maps are not part of the program. -/
theorem C96_fair {B : Backend S Bytes32 Prim E} {seen : S → Bytes32 → Prim → Prop} (p : Profile) (H : HashFn) (s : S) (rs : List Sparse.Request)
    (h : Honest B seen p H s rs) (o : Answer E) (ho : o ∈ (Any.Bench.handleAll B p H (rs.map (Sparse.Request.asked H)) (.start s)).1) : o.Fair := by
  rw [show Any.Bench.start s = (Watch.start s).bench from rfl, watch_bench] at ho
  exact watch_fair p H rs _ h.run.1 o ho

/-- **C96**, a fresh start: from a state in which nothing can come back, nothing needs to be known of the contents. -/
theorem C96_fresh {B : Backend S Bytes32 Prim E} {seen : S → Bytes32 → Prim → Prop} (p : Profile) (H : HashFn) (s : S) (rs : List Sparse.Request)
    (hB : NoInvention B seen) (hs : ∀ x q, ¬ seen s x q)
    (hi : Ideal H (((Watch.start s).aims B p H rs).flatMap (msgsOf H)) ((callsOf rs).map Op.key)) (hc : NoPhantom H (callsOf rs)) (hl : LoadsOk H rs) :
    Honest B seen p H s rs := by
  refine ⟨hB, hi, hc, hl, fun m hm => ?_⟩
  have : m = fun _ => none := by
    funext x
    cases hx : m x with
    | none => rfl
    | some q => exact absurd (hm x q hx) (hs x q)
  rw [this]
  exact sound_new H _ _

/-- **C96** is about more storages than C94: one that behaves like a map never makes up a record. -/
theorem C96_mapLike {K V : Type} [DecidableEq K] {B : Backend S K V E} {ok : S → Prop} {view : S → K → Option V} (hB : MapLike B ok view) :
    NoInvention B (fun s k v => ok s → view s k = some v) where
  found h hs := (hB.get_ok hs h).2.1.symm
  get := by
    intro k s x v h hs
    rcases hg : B.get k s with ⟨e | r, s'⟩ <;> rw [hg] at h
    · rw [← (hB.get_error hs hg).2]; exact h (hB.get_error hs hg).1
    · rw [← (hB.get_ok hs hg).2.2]; exact h (hB.get_ok hs hg).1
  insert := by
    intro k w s x v h
    by_cases hs : ok s
    · have key : ∀ s', ok s' → (ok s' → view s' x = some v) → (view s' = view s ∨ ∀ x, view s' x = if x = k then some w else view s x) →
          (ok s → view s x = some v) ∨ (x = k ∧ v = w) := by
        intro s' hs' h1 h2
        have h1 := h1 hs'
        rcases h2 with h2 | h2
        · rw [h2] at h1; exact .inl fun _ => h1
        · rw [h2] at h1
          split at h1
          · cases h1; exact .inr ⟨‹_›, rfl⟩
          · exact .inl fun _ => h1
      rcases hg : B.insert k w s with ⟨e | r, s'⟩ <;> rw [hg] at h
      · exact key s' (hB.insert_error hs hg).1 h (hB.insert_error hs hg).2
      · exact key s' (hB.insert_ok hs hg).1 h (.inr (hB.insert_ok hs hg).2)
    · exact .inl fun h => absurd h hs
  remove := by
    intro k s x v h hs
    have key : ∀ s', ok s' → (ok s' → view s' x = some v) → (view s' = view s ∨ ∀ x, view s' x = if x = k then none else view s x) → view s x = some v := by
      intro s' hs' h1 h2
      have h1 := h1 hs'
      rcases h2 with h2 | h2
      · rw [h2] at h1; exact h1
      · rw [h2] at h1
        split at h1
        · cases h1
        · exact h1
    rcases hg : B.remove k s with ⟨e | r, s'⟩ <;> rw [hg] at h
    · exact key s' (hB.remove_error hs hg).1 h (hB.remove_error hs hg).2
    · exact key s' (hB.remove_ok hs hg).1 h (.inr (hB.remove_ok hs hg).2)

namespace AnyStorageStale

/-! ### The hypotheses can be met -/

/-- A storage of moods: all writes so far, newest first, and its mood at each of the next calls. -/
structure Moody (K V : Type) where
  past : List (K × V)
  mood : List Nat

variable {K V : Type} [DecidableEq K]

/-- The values ever written for a key, newest first. -/
def ever (k : K) (s : Moody K V) : List V := s.past.filterMap fun x => if x.1 = k then some x.2 else none

/-- `get` fails in the mood 8 and finds nothing in the mood 9; in the mood `n` it returns the value written `n`
writes before the newest one. Writes are always remembered, but in the mood 8 they report a failure. Nothing is
ever removed. -/
def moody : Backend (Moody K V) K V String where
  get k s :=
    let s' := { s with mood := s.mood.tail }
    match s.mood.headD 0 with
    | 8 => (.error "busy", s')
    | 9 => (.ok none, s')
    | n => (.ok (ever k s)[n]?, s')
  insert k v s := (if s.mood.headD 0 = 8 then .error "busy" else .ok none, ⟨(k, v) :: s.past, s.mood.tail⟩)
  remove _ s := (.ok none, { s with mood := s.mood.tail })

/-- It never makes up a record. -/
theorem moody_noInvention : NoInvention (moody (K := K) (V := V)) (fun s k v => (k, v) ∈ s.past) where
  found := by
    intro k s v s' h
    simp only [moody] at h
    split at h
    · cases h
    · cases h
    · have h := Except.ok.inj (Prod.ext_iff.1 h).1
      have := List.mem_of_getElem? h
      obtain ⟨x, hx, e⟩ := List.mem_filterMap.1 this
      split at e
      · rename_i hk; cases e; rw [← hk]; exact hx
      · cases e
  get := by
    intro k s x v h
    simp only [moody] at h
    split at h <;> exact h
  insert := by
    intro k w s x v h
    rcases List.mem_cons.1 h with h | h
    · cases h; exact .inr ⟨rfl, rfl⟩
    · exact .inl h
  remove := by intro k s x v h; exact h

/-- Two keys; a removal that finds no record for its key; the same again; the first key's value is changed while an
older record of it is returned; loads of older maps, whose records were removed; failures. -/
def sampleRequests : List Sparse.Request :=
  [.call 0 (.update (keyAt 0x00) [1]), .call 0 (.update (keyAt 0x80) [2]), .root 0, .call 0 (.delete (keyAt 0x80)),
    .call 0 (.delete (keyAt 0x80)), .load 1 [(keyAt 0x80, [2]), (keyAt 0x00, [1])], .call 1 (.update (keyAt 0x00) [3]),
    .call 1 (.update (keyAt 0xc0) [4]), .call 1 (.update (keyAt 0xc0) [4]), .call 1 (.delete (keyAt 0x00)), .root 1, .root 0]

/-- The moods of the storage. -/
def sampleStorage : Moody Bytes32 Prim := ⟨[], [0, 0, 0, 0, 0, 9, 0, 0, 0, 0, 0, 0, 0, 0, 0, 0, 0, 9, 0, 0, 0, 8, 0, 0, 1]⟩

/-- The build used in the example. -/
abbrev build : Profile := ⟨true, true, .w64⟩

/-- The hypotheses of the theorems are met. -/
theorem sample_honest : Honest moody (fun s k v => (k, v) ∈ s.past) build Tests.toyHash sampleStorage sampleRequests := by
  refine C96_fresh _ _ _ _ moody_noInvention (fun x q h => by cases h) ⟨by decide +kernel, by decide +kernel, by decide +kernel⟩
    (noPhantom_of_keys (by decide)) ?_
  have h : ∀ kv ∈ sampleRequests.flatMap (fun r => match r with | .load _ kv => [kv] | _ => []),
      kv ≠ [] ∧ (keysOf kv).Nodup ∧ (zero32, zero32) ∉ digests Tests.toyHash kv := by decide +kernel
  exact fun i kv hm => h kv (List.mem_flatMap.2 ⟨_, hm, by simp⟩)

/-- The first removal finds no record under its key and does nothing; the second one removes the key. The map with
both keys is loaded although records of it were removed. Then a call fails and the next one does not find a record. -/
example : ((Watch.start sampleStorage).handleAll moody build Tests.toyHash sampleRequests).1.map SparseMany.ending =
      [0, 0, 5, 0, 0, 0, 0, 1, 3, 0, 5, 5] ∧
    ((Watch.start sampleStorage).handleAll moody build Tests.toyHash (sampleRequests.take 4)).2.kv 0 = [(keyAt 0x80, [2]), (keyAt 0x00, [1])] ∧
    ((Watch.start sampleStorage).handleAll moody build Tests.toyHash (sampleRequests.take 5)).2.kv 0 = [(keyAt 0x00, [1])] ∧
    ((Watch.start sampleStorage).handleAll moody build Tests.toyHash (sampleRequests.take 7)).2.kv 1 = [(keyAt 0x00, [3]), (keyAt 0x80, [2])] ∧
    ((Watch.start sampleStorage).handleAll moody build Tests.toyHash sampleRequests).2.kv 1 = [(keyAt 0x80, [2])] := by
  decide +kernel

/-- Storage that behaves like a map is a case of it: the journal of `Props/AnyStorage.lean`. -/
example : NoInvention (AnyStorage.journal (K := Bytes32) (V := Prim) (some 5) (some 2)) (fun s k v => AnyStorage.Fresh s → AnyStorage.held s k = some v) :=
  C96_mapLike (AnyStorage.journal_mapLike _ _)

end AnyStorageStale
end FuelMerkle.Props
