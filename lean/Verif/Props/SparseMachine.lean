import Verif.Proofs.SparseMachine
import Verif.Props.SparseContents

/-
C85: every storage call of the sparse tree, on every storage.
-/
namespace FuelMerkle.Props
open FuelMerkle Spec Sparse
variable {E : Type}

set_option maxRecDepth 100000

/-- The hash function behaves on everything a history of calls, starting with this map and this storage,
hashes or uses as a key, also in the calls that fail. -/
structure IdealMachine (H : HashFn) (m : Machine E) (ops : List Op) : Prop where
  ideal : Ideal H ((triedMaps H ops m).flatMap (msgsOf H)) (ops.map Op.key)
  calls : NoPhantom H ops
  nodup : (keysOf m.kv).Nodup
  start : (zero32, zero32) ∉ digests H m.kv

theorem IdealMachine.env {H : HashFn} {m : Machine E} {ops : List Op} (h : IdealMachine H m ops) :
    Env H (fun a => ∃ kv ∈ triedMaps H ops m, a ∈ msgsOf H kv) (· ∈ ops.map Op.key) :=
  ⟨fun a b ha hb => h.ideal.distinct a (List.mem_flatMap.2 ha) b (List.mem_flatMap.2 hb), fun a ha => h.ideal.nonzero a (List.mem_flatMap.2 ha),
    fun a k ha => h.ideal.apart a (List.mem_flatMap.2 ha) k⟩

theorem IdealMachine.fits {H : HashFn} {m : Machine E} {ops : List Op} (h : IdealMachine H m ops) :
    ∀ kv ∈ triedMaps H ops m, Fits H (fun a => ∃ kv ∈ triedMaps H ops m, a ∈ msgsOf H kv) kv := fun kv hkv =>
  ⟨fun _ hm => ⟨kv, hkv, hm⟩, (triedMaps_solid ops m h.nodup h.start h.calls kv hkv).2⟩

theorem triedMaps_self (H : HashFn) (ops : List Op) (m : Machine E) : m.kv ∈ triedMaps H ops m := by
  cases ops <;> simp [triedMaps]

/-- The tree is open for the map: new for the empty map, else got by `load` from some storage with
the same contents. -/
def OpenAt (H : HashFn) (kv : Entries Bytes) (t : Tree E) : Prop :=
  ∃ s : SpStore E, s.map = t.storage.map ∧ Opens H kv s t

/-- **C85**. A tree open for a map, on storage with any contents that are not wrong (records may be
missing) and with any fates of future storage calls: any history of calls, going on after failures, has
exactly the results of the machine, leaves exactly its storage (contents, and number of calls made), and the
root of the machine's map. -/
theorem C85_machine (p : Profile) (H : HashFn) (kv : Entries Bytes) (t : Tree E) (ho : OpenAt H kv t) (ops : List Op)
    (hi : IdealMachine H ⟨kv, t.storage⟩ ops)
    (hs : Sound H t.storage.map (triedMaps H ops ⟨kv, t.storage⟩) (ops.map Op.key)) :
    (run p H ops t).1.map (·.out) = (runMachine H ops ⟨kv, t.storage⟩).1 ∧
      (run p H ops t).2.storage = (runMachine H ops ⟨kv, t.storage⟩).2.storage ∧
      (run p H ops t).2.root H = rootOf H (runMachine H ops ⟨kv, t.storage⟩).2.kv := by
  obtain ⟨s, hm, ho⟩ := ho
  have hv := hs.valid (triedMaps_solid _ _ hi.nodup hi.start hi.calls)
  have hfit := hi.fits kv (triedMaps_self H ops ⟨kv, t.storage⟩)
  obtain ⟨u, hrep⟩ := opens_rep hi.env hi.nodup hfit (s := s) (by rw [hm]; exact hv) ho
  obtain ⟨h1, h2, _, h3⟩ := run_agrees p hi.env ops hrep (fun op h => List.mem_map.2 ⟨op, h, rfl⟩) hi.fits
  exact ⟨h1, h2, h3.root_eq hi.env⟩

/-- **C85** for a new tree on empty storage. -/
theorem C85_new (p : Profile) (H : HashFn) (s : SpStore E) (hs : ∀ k, s.map k = none) (ops : List Op)
    (hi : IdealMachine H ⟨[], s⟩ ops) :
    (run p H ops (Tree.new s)).1.map (·.out) = (runMachine H ops ⟨[], s⟩).1 ∧
      (run p H ops (Tree.new s)).2.storage = (runMachine H ops ⟨[], s⟩).2.storage ∧
      (run p H ops (Tree.new s)).2.root H = rootOf H (runMachine H ops ⟨[], s⟩).2.kv :=
  C85_machine p H [] (Tree.new s) ⟨s, rfl, by simp [Opens]⟩ ops hi (by
    have : (Tree.new s).storage.map = fun _ => none := funext hs
    rw [this]
    exact sound_new H _ _)

namespace SparseMachine

/-! ### The hypotheses can be met -/

/-- Four updates, a removal, a removal of an unknown key and an update. -/
def sampleOps : List Op :=
  [.update (keyAt 0x00) [1], .update (keyAt 0x80) [2], .update (keyAt 0xc0) [3], .update (keyAt 0xc0) [4], .delete (keyAt 0x80),
    .delete (keyAt 0x40), .update (keyAt 0x80) [5]]

/-- A storage with two calls that fail: one of the third update, after its effect, and a read
on the way of the first removal. -/
def sampleStore : SpStore String where
  map := fun _ => none
  sched := fun c => if c = 9 then some ⟨"full", true⟩ else if c = 20 then some ⟨"lost", false⟩ else none
  clock := 0

/-- How a call ended: `0` well, `1` with an error of a write or of the first read, `2` with an error of
a later read, `3` because something was missing. -/
def ending : Except (Fail (Error E)) Unit → Nat
  | .ok _ => 0
  | .error (.err (.storageError _)) => 1
  | .error (.err (.childError (.childNotFound _))) => 3
  | .error (.err (.childError _)) => 2
  | _ => 4

def sampleMaps : List (Entries Bytes) := triedMaps Tests.toyHash sampleOps ⟨[], sampleStore⟩

theorem sample_ideal : IdealMachine Tests.toyHash ⟨[], sampleStore⟩ sampleOps :=
  ⟨⟨by decide +kernel, by decide +kernel, by decide +kernel⟩, noPhantom_of_keys (by decide), by decide, by decide⟩

/-- The third update fails and changes nothing, the fourth succeeds. The removal fails while reading; the
update after it succeeds. -/
example : (runMachine Tests.toyHash sampleOps ⟨[], sampleStore⟩).1.map ending = [0, 0, 1, 0, 2, 0, 0] ∧
    (runMachine Tests.toyHash sampleOps ⟨[], sampleStore⟩).2.kv = [(keyAt 0x80, [5]), (keyAt 0xc0, [4]), (keyAt 0x00, [1])] ∧
    (runMachine Tests.toyHash sampleOps ⟨[], sampleStore⟩).2.storage.clock = 30 := by
  decide +kernel

end SparseMachine
end FuelMerkle.Props
