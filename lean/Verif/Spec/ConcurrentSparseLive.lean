import Verif.Spec.ConcurrentSparse
import Verif.Spec.ConcurrentLive
import Verif.Spec.SparseLinked

/-
What is granted when processes with sparse trees share a storage that works. Used in the statements of the properties.
-/
namespace FuelMerkle.Sparse
open Spec
variable {E : Type}

/-- The request came true: a call does not fail, nor does a `load` of a map that was `there`. -/
def Request.Met (there : Entries Bytes → Prop) : Request → Answer E → Prop
  | .load _ kv, o => there kv → o = .done (.ok ())
  | .call _ _, o => o = .done (.ok ())
  | _, _ => True

namespace Any

/-- Every request came true, unless the process is still waiting for the storage. -/
def Watch.AllSucceed (cut : E) (p : Profile) (H : HashFn) (there : Entries Bytes → Prop) : List Sparse.Request → Watch (Tape Bytes32 Prim E) → Prop
  | [], _ => True
  | r :: rs, c =>
    ((c.handle (tape cut) p H r).2.bench.storage.waiting = none → r.Met there (c.handle (tape cut) p H r).1) ∧
      Watch.AllSucceed cut p H there rs (c.handle (tape cut) p H r).2

/-- Every request came true, unless the process is still waiting for the storage, or one of the storage calls made for
that very request failed. -/
def Watch.FailsOnlyWithStorage (cut : E) (p : Profile) (H : HashFn) (there : Entries Bytes → Prop) :
    List Sparse.Request → Watch (Tape Bytes32 Prim E) → Prop
  | [], _ => True
  | r :: rs, c =>
    ((c.handle (tape cut) p H r).2.bench.storage.waiting = none →
        c.bench.storage.Unharmed (c.handle (tape cut) p H r).2.bench.storage → r.Met there (c.handle (tape cut) p H r).1) ∧
      Watch.FailsOnlyWithStorage cut p H there rs (c.handle (tape cut) p H r).2

end Any
end FuelMerkle.Sparse
