/- Integrals of Gaussian densities. -/
import Verif.Spec.Likelihood
import Mathlib.Analysis.SpecialFunctions.Gaussian.GaussianIntegral
import Mathlib.MeasureTheory.Integral.Pi
import Mathlib.MeasureTheory.Measure.Haar.OfBasis

namespace Jaxfg
open Matrix
open Spec MeasureTheory

theorem gaussianWeight_sq {n : Nat} (W : Matrix (Fin n) (Fin n) ℝ) (x : Fin n → ℝ) :
    gaussianWeight (Wᵀ * W) x = ∏ i, Real.exp (-(1 / 2) * ((W *ᵥ x) i) ^ 2) := by
  unfold gaussianWeight
  rw [← mulVec_mulVec, dotProduct_mulVec, vecMul_transpose, ← Real.exp_sum]
  congr 1
  simp only [dotProduct, neg_div, Finset.sum_div, ← Finset.sum_neg_distrib]
  exact Finset.sum_congr rfl fun i _ => by ring

theorem integral_standard (n : Nat) : ∫ x : Fin n → ℝ, ∏ i, Real.exp (-(1 / 2) * (x i) ^ 2) = √(2 * Real.pi) ^ n := by
  rw [integral_fintype_prod_volume_eq_pow (fun x : ℝ => Real.exp (-(1 / 2) * x ^ 2)), integral_gaussian, Fintype.card_fin]
  congr 2
  ring

/-- The normalising integral. -/
theorem integral_gaussianWeight {n : Nat} {W : Matrix (Fin n) (Fin n) ℝ} (hW : W.det ≠ 0) :
    ∫ x, gaussianWeight (Wᵀ * W) x = √(2 * Real.pi) ^ n * |W.det|⁻¹ := by
  have h1 : ∀ x, gaussianWeight (Wᵀ * W) x = (fun y : Fin n → ℝ => ∏ i, Real.exp (-(1 / 2) * (y i) ^ 2)) (toLin' W x) := by
    intro x
    rw [gaussianWeight_sq, toLin'_apply]
  simp only [h1]
  have hc : Continuous (toLin' W) := LinearMap.continuous_on_pi _
  rw [← integral_map (f := fun y : Fin n → ℝ => ∏ i, Real.exp (-(1 / 2) * (y i) ^ 2)) hc.aemeasurable
    (Continuous.aestronglyMeasurable (by fun_prop)), Real.map_matrix_volume_pi_eq_smul_volume_pi hW, integral_smul_measure,
    integral_standard, ENNReal.toReal_ofReal (abs_nonneg _), abs_inv, smul_eq_mul, mul_comm]

theorem integral_gaussianWeight_pos {n : Nat} {W : Matrix (Fin n) (Fin n) ℝ} (hW : W.det ≠ 0) :
    0 < ∫ x, gaussianWeight (Wᵀ * W) x := by
  rw [integral_gaussianWeight hW]
  have := Real.pi_pos
  have := abs_pos.2 hW
  positivity

theorem gaussianDensity_pos {n : Nat} {W : Matrix (Fin n) (Fin n) ℝ} (hW : W.det ≠ 0) (x : Fin n → ℝ) :
    0 < gaussianDensity (Wᵀ * W) x := div_pos (Real.exp_pos _) (integral_gaussianWeight_pos hW)

theorem integral_gaussianDensity {n : Nat} {W : Matrix (Fin n) (Fin n) ℝ} (hW : W.det ≠ 0) :
    ∫ x, gaussianDensity (Wᵀ * W) x = 1 := by
  unfold gaussianDensity
  rw [integral_div, div_self (integral_gaussianWeight_pos hW).ne']

/-- The log-determinant of the covariance. -/
theorem logdet_covariance {n : Nat} {W : Matrix (Fin n) (Fin n) ℝ} (hW : W.det ≠ 0) :
    Real.log ((Wᵀ * W)⁻¹).det = -2 * Real.log |W.det| := by
  rw [det_nonsing_inv, Ring.inverse_eq_inv', det_mul, det_transpose, Real.log_inv, Real.log_mul hW hW, Real.log_abs]
  ring

theorem log_gaussianDensity {n : Nat} {W : Matrix (Fin n) (Fin n) ℝ} (hW : W.det ≠ 0) (x : Fin n → ℝ) :
    x ⬝ᵥ (Wᵀ * W) *ᵥ x + Real.log ((Wᵀ * W)⁻¹).det = -2 * Real.log (gaussianDensity (Wᵀ * W) x) - n * Real.log (2 * Real.pi) := by
  have hpi : 0 < 2 * Real.pi := by have := Real.pi_pos; positivity
  have h1 : √(2 * Real.pi) ^ n ≠ 0 := pow_ne_zero _ (Real.sqrt_pos.2 hpi).ne'
  have h2 : |W.det|⁻¹ ≠ 0 := inv_ne_zero (abs_pos.2 hW).ne'
  rw [gaussianDensity, integral_gaussianWeight hW, gaussianWeight, Real.log_div (Real.exp_pos _).ne' (mul_ne_zero h1 h2), Real.log_exp,
    Real.log_mul h1 h2, Real.log_pow, Real.log_sqrt hpi.le, Real.log_inv, logdet_covariance hW]
  ring

end Jaxfg
