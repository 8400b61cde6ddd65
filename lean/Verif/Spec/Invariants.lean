/- Values that solvers reach, and what they return. -/
import Verif.Model.Solver
import Verif.Model.Lift

namespace Jaxfg.Spec

/-- Values that come from `x` by retractions, one after the other. -/
inductive Reached (V : VarClass ℝ) (x : Value ℝ) : Value ℝ → Prop
  | start : Reached V x x
  | step {y : Value ℝ} (d : List ℝ) (hd : d.length = V.localDim) (h : Reached V x y) : Reached V x (V.retract y d)

/-- Whenever `solve` returns from `a`, it returns finite numbers, and the assignments satisfy `O`. -/
def ReturnsOnly (solve : Nat → Assign Ext → Py (Option (Assign Ext × List (Msg Ext)))) (a : Assign ℝ) (O : Assign ℝ → Prop) : Prop :=
  ∀ fuel out log, solve fuel (a.map Ext.fin) = .ok (some (out, log)) → ∃ o, out = o.map Ext.fin ∧ O o

end Jaxfg.Spec
