/- Random measurement errors. -/
import Verif.Spec.SolverReal
import Mathlib.MeasureTheory.Integral.Bochner.Basic

namespace Jaxfg.Spec
open MeasureTheory

/-- The first `m` entries of the random list `w` have mean zero, variance one, and are uncorrelated. -/
structure White {Ω : Type} [MeasurableSpace Ω] (μ : Measure Ω) (m : Nat) (w : Ω → List ℝ) : Prop where
  integrable : ∀ i < m, Integrable (fun ω => (w ω).getD i 0) μ
  products : ∀ i < m, ∀ j < m, Integrable (fun ω => (w ω).getD i 0 * (w ω).getD j 0) μ
  mean : ∀ i < m, ∫ ω, (w ω).getD i 0 ∂μ = 0
  covariance : ∀ i < m, ∀ j < m, ∫ ω, (w ω).getD i 0 * (w ω).getD j 0 ∂μ = if i = j then 1 else 0

/-- `b` is a global minimum of the cost of the graph among the assignments of `ws` in the graph's order. -/
def IsMinimum (C : Ty → VarClass ℝ) (g : GraphOps ℝ) (ws : List Var) (b : Assign ℝ) : Prop :=
  ∀ c r e c' r', g.computeCost b = .ok (c, r) → IsAssignmentOf C ws e → e.layout = g.layout → g.computeCost e = .ok (c', r') → c ≤ c'

end Jaxfg.Spec
