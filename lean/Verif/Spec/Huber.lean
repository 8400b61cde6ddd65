/- Robust losses of factors, as functions of the norm of the residual whitened by the wrapped noise model. -/
import Verif.Spec.Graph
import Mathlib.Analysis.SpecialFunctions.Pow.Real

namespace Jaxfg.Spec

/-- The Huber loss with threshold `δ`: quadratic below the threshold, linear above it. -/
noncomputable def huberLoss (δ n : ℝ) : ℝ := if n < δ then n ^ 2 else 2 * δ * n - δ ^ 2

/-- A loss that grows with exponent 5/4 above the threshold. -/
noncomputable def fiveFourthsLoss (δ n : ℝ) : ℝ :=
  if n < δ then n ^ 2 else 8 / 5 * δ ^ (3 / 4 : ℝ) * n ^ (5 / 4 : ℝ) - 3 / 5 * δ ^ 2

/-- The loss of one factor when the variables have the values `val`: with a Huber wrapper, `ρ` of the threshold and of the norm
of the residual whitened by the wrapped model; without, the squared norm of the whitened residual. (Whitening does not raise for
well-formed factors.) -/
noncomputable def factorLoss (ρ : ℝ → ℝ → ℝ) (F : Nat → FactorClass) (val : Var → Value ℝ) (f : Factor) : ℝ :=
  match f.noise with
  | .huber N δ =>
    match N.whiten ((F f.cls).residual f.self (f.vars.map val)) with
    | .ok u => ρ (δ.data.getD 0 0) (Real.sqrt (sqNorm u))
    | .error _ => 0
  | N =>
    match N.whiten ((F f.cls).residual f.self (f.vars.map val)) with
    | .ok u => sqNorm u
    | .error _ => 0

/-- A Gaussian model, or one Huber wrapper around a Gaussian model. -/
def NoiseSimple : Noise → Prop
  | .huber N _ => NoiseGaussian N
  | _ => True

end Jaxfg.Spec
