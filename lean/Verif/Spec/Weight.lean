/- Giving all measurements another weight. -/
import Verif.Model.Solver
import Verif.Model.Factor
import Verif.Spec.Sparse
import Verif.Spec.Graph
import Verif.Spec.Symmetry

namespace Jaxfg.Spec
open Ext (fin)

/-- The noise model whose square root precision is `w` times as large; the threshold of a Huber wrapper is on the same scale. -/
noncomputable def weightNoise (w : ℝ) : Noise → Noise
  | .gaussian W => .gaussian ⟨W.shape, W.data.map (w * ·)⟩
  | .diagonal d => .diagonal ⟨d.shape, d.data.map (w * ·)⟩
  | .huber N δ => .huber (weightNoise w N) ⟨δ.shape, δ.data.map (w * ·)⟩

/-- The factor with this noise model. -/
noncomputable def weightFactor (w : ℝ) (f : Factor) : Factor := { f with noise := weightNoise w f.noise }

/-- Residuals and Jacobians do not depend on the noise model of the factor. -/
def IgnoresNoise (F : Nat → FactorClass) (f : Factor) : Prop :=
  ∀ N vals, (F f.cls).residual ⟨f.vars.map (·.ty), N, f.params⟩ vals = (F f.cls).residual f.self vals ∧
    (F f.cls).jacobians ⟨f.vars.map (·.ty), N, f.params⟩ vals = (F f.cls).jacobians f.self vals

/-- Settings that fit the weight. The gradient test (jaxfg/solvers/_mixins.py:75-89) compares a gradient, which is proportional to
the squared weight, with a tolerance. It must be switched off, or the tolerance must change with the weight; the latter makes
sense for values that are added to. -/
def WeightedSettings (C : Ty → VarClass ℝ) (vars : List Var) (w : ℝ) (t t' : Criteria ℝ) : Prop :=
  (t' = t ∧ 0 < t.gradientToleranceStartStep ∧ t.maxIterations ≤ t.gradientToleranceStartStep) ∨
    ((∀ v ∈ vars, C v.ty = .euclidean (C v.ty).default) ∧ t' = { t with gradientTolerance := w ^ 2 * t.gradientTolerance })

/-- The matrix times `w`. -/
def weightCoo (w : ℝ) (A : Coo ℝ) : Coo ℝ := { A with values := A.values.map (w * ·) }

/-- The printed line with a cost `κ` times as large. -/
noncomputable def weightMsg (κ : ℝ) : Msg Ext → Msg Ext
  | .iteration i m c d => .iteration i m (fin κ * c) d
  | .terminated i c => .terminated i (fin κ * c)

/-- The solvers return the same assignments; the second one prints costs that are `w²` times as large. -/
def SolvesWeighted (w : ℝ) (solve solve' : Nat → Assign Ext → Py (Option (Assign Ext × List (Msg Ext)))) (a : Assign ℝ) : Prop :=
  ∀ fuel out log, solve fuel (a.map fin) = .ok (some (out, log)) →
    solve' fuel (a.map fin) = .ok (some (out, log.map (weightMsg (w ^ 2))))

/-- The matrix with the columns in other units: column `j` times `s j`. -/
def scaleColumns (s : Nat → ℝ) (A : Coo ℝ) : Coo ℝ := { A with values := List.zipWith (fun v j => v * s j) A.values A.cols }

/-- A linear solver that gives the same step when all measurements are weighted by `w`. -/
def WeightFree (L : LinSolver ℝ) : Prop :=
  ∀ w : ℝ, 0 < w → ∀ A b l i, L (weightCoo w A) (b.map (w ^ 2 * ·)) l i = L A b l i

end Jaxfg.Spec
