import Verif.Model.Storage

/-
Histories of calls of a storage map, and the mathematical map they are compared with:
the value of a key is determined by looking back through the history.
-/
namespace FuelMerkle
namespace Spec
variable {K V : Type} [DecidableEq K]

/-- A call of the storage interface. -/
inductive MapOp (K V : Type) where
  | insert (k : K) (v : V)
  | remove (k : K)
  | get (k : K)
  | containsKey (k : K)

/-- What a call returns (`E` is the error type). -/
inductive MapOut (V E : Type) where
  | value (r : Except E (Option V))
  | present (r : Except E Bool)

/-- One call on the storage. -/
def mapStep {E : Type} (op : MapOp K V) (s : Store K V E) : MapOut V E × Store K V E :=
  match op with
  | .insert k v => let (r, s') := s.insert k v; (.value r, s')
  | .remove k => let (r, s') := s.remove k; (.value r, s')
  | .get k => let (r, s') := s.get k; (.value r, s')
  | .containsKey k => let (r, s') := s.containsKey k; (.present r, s')

/-- The storage after a list of calls. -/
def mapRun {E : Type} : List (MapOp K V) → Store K V E → Store K V E
  | [], s => s
  | op :: ops, s => mapRun ops (mapStep op s).2

/-- The value of `k` after a history, latest call first: the value of the latest `insert` of
`k`, unless `k` was removed later or never inserted. -/
def latest (k : K) : List (MapOp K V) → Option V
  | [] => none
  | .insert k' v :: hist => if k' = k then some v else latest k hist
  | .remove k' :: hist => if k' = k then none else latest k hist
  | .get _ :: hist => latest k hist
  | .containsKey _ :: hist => latest k hist

/-- What a call must return after a history (latest call first). -/
def mapExpect {E : Type} (hist : List (MapOp K V)) : MapOp K V → MapOut V E
  | .insert k _ => .value (.ok (latest k hist))
  | .remove k => .value (.ok (latest k hist))
  | .get k => .value (.ok (latest k hist))
  | .containsKey k => .present (.ok (latest k hist).isSome)

end Spec
end FuelMerkle
