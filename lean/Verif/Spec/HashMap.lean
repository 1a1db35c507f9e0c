import Verif.Model.HashMap
/-!
Specification for C01: what a finite map is expected to answer, told by history.
Uses only the operation alphabet `Op` of the model.
-/
namespace Slimcc.Spec
open Slimcc.HashMap

/-- `latest h k`: given the history `h`, most recent operation first, the value a lookup
of `k` must return (0 = `NULL`: never put, or deleted since). -/
def latest : List Op → Key → Val
  | [], _ => 0
  | .put k' v :: h, k => if k' = k then v else latest h k
  | .delete k' :: h, k => if k' = k then 0 else latest h k
  | .get _ :: h, k => latest h k

/-- Number of `put`s in a history. -/
def putCount (h : List Op) : Nat :=
  h.countP fun o => match o with | .put _ _ => true | _ => false

end Slimcc.Spec
