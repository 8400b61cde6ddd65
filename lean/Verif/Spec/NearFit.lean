/- What solvers return near an exact fit, and why they stop. -/
import Verif.Model.Solver
import Verif.Spec.Noise

namespace Jaxfg.Spec

/-- Why a solver stops after `k` steps with the delta `d'`: the budget is used up, or the gradient is being tested, or the parameters
changed so little in the step from `a₀` that the delta is small. -/
def NearStop (C : Ty → VarClass ℝ) (t : Criteria ℝ) (l : Layout) (e : Assign ℝ) (κ δ : ℝ) (k : Nat) (d' : List ℝ) : Prop :=
  t.maxIterations ≤ k ∨ t.gradientToleranceStartStep < k ∨ ∃ (d₀ : List ℝ) (a₀ : Assign ℝ), d₀.length = l.dim ∧
    e.manifoldRetract C ⟨d₀, l⟩ = .ok a₀ ∧ √(sqNorm d₀) ≤ δ ∧
    √(sqNorm d') ≤ κ / (1 - κ) * ((√(sqNorm a₀.storage) + t.parameterTolerance) * t.parameterTolerance)

/-- What a solver with the tests `t` may return when it starts at `e` retracted by `d`: after some number of steps, `e` retracted by a
delta that is smaller by the power of `κ`; and why it stopped, if the cost tolerance is at most `τ`. -/
def ReturnsNear (C : Ty → VarClass ℝ) (t : Criteria ℝ) (l : Layout) (e : Assign ℝ) (κ τ : ℝ) (d : List ℝ) (b : Assign ℝ) : Prop :=
  ∃ (k : Nat) (d' : List ℝ), 1 ≤ k ∧ d'.length = l.dim ∧ e.manifoldRetract C ⟨d', l⟩ = .ok b ∧ √(sqNorm d') ≤ κ ^ k * √(sqNorm d) ∧
    (t.costTolerance ≤ τ → NearStop C t l e κ √(sqNorm d) k d' ∨ sqNorm d' = 0)

end Jaxfg.Spec
