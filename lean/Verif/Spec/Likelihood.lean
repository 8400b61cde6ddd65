/- Gaussian densities: the meaning of noise models. -/
import Verif.Spec.Graph
import Mathlib.MeasureTheory.Integral.Bochner.Basic
import Mathlib.MeasureTheory.Constructions.Pi
import Mathlib.MeasureTheory.Measure.Lebesgue.Basic

namespace Jaxfg.Spec
open Matrix
open MeasureTheory

/-- `exp(-½ xᵀ P x)`. -/
noncomputable def gaussianWeight {n : Nat} (P : Matrix (Fin n) (Fin n) ℝ) (x : Fin n → ℝ) : ℝ := Real.exp (-(x ⬝ᵥ P *ᵥ x) / 2)

/-- The density of the centred Gaussian distribution with precision matrix `P` (inverse of the covariance): the multiple of
`exp(-½ xᵀ P x)` with integral one. -/
noncomputable def gaussianDensity {n : Nat} (P : Matrix (Fin n) (Fin n) ℝ) (x : Fin n → ℝ) : ℝ :=
  gaussianWeight P x / ∫ y, gaussianWeight P y

/-- The joint density of the factors' errors, when the variables have the values `val`: for every factor, the density at its residual of
the Gaussian distribution that its noise model describes; a noise model with square root precision matrix `W` describes the centred
distribution with precision `Wᵀ W`. -/
noncomputable def likelihood (F : Nat → FactorClass) (fs : List Factor) (val : Var → Value ℝ) : ℝ :=
  (fs.map fun f => gaussianDensity ((noiseMat f.noise (rdim f) (rdim f))ᵀ * noiseMat f.noise (rdim f) (rdim f))
    (vec ((F f.cls).residual f.self (f.vars.map val)) (rdim f))).prod

end Jaxfg.Spec
