/- Solvers that return poses. -/
import Verif.Spec.Lie
import Verif.Spec.Progress

namespace Jaxfg.Spec
open Ext (fin)

/-- The assignments `a`, in the storage order `l`, hold a pose for every variable of the factors. -/
def HoldsPoses (C : Ty → VarClass ℝ) (K : Ty → LieType) (fs : List Factor) (l : Layout) (a : Assign ℝ) : Prop :=
  a.layout = l ∧ ∃ vars pose, Holds C fs vars (poseValue K pose) a ∧ ∀ v ∈ vars, (K v.ty).Valid (pose v)

/-- From `a`, `solve` returns after at most `max(1, N)` steps, without raising; it returns poses (so no infinity and no NaN) for the
variables `vars`, in the order of `a`. -/
def ReturnsPoses (C : Ty → VarClass ℝ) (K : Ty → LieType) (fs : List Factor)
    (solve : Nat → Assign Ext → Py (Option (Assign Ext × List (Msg Ext)))) (N : Int) (vars : List Var) (a : Assign ℝ) : Prop :=
  ∃ (o : Assign ℝ) (log : List (Msg Ext)) (pose : Var → List ℝ), o.layout = a.layout ∧ Holds C fs vars (poseValue K pose) o ∧
    (∀ v ∈ vars, (K v.ty).Valid (pose v)) ∧ ∀ fuel : Nat, max 1 N ≤ fuel → solve fuel (a.map fin) = .ok (some (o.map fin, log))

end Jaxfg.Spec
