/- Damped steps and short steps achieve their share of the predicted decrease. -/
import Verif.Spec.Acceptance
import Verif.Lemmas.Decrease
import Verif.Lemmas.LocalRate

namespace Jaxfg
open Spec Matrix
open Ext (fin)
variable {m n : Nat}

/-- A step with a negative predicted change that achieves its share of it is accepted. -/
theorem accepts_share {qmin c cost pred : ℝ} (h : pred < cost) (hs : qmin * (cost - pred) ≤ cost - c) :
    Scal.le (fin qmin) (fin (c - cost) / fin (pred - cost)) = true := by
  refine accept_fin.2 (.inl ⟨by linarith, ?_⟩)
  rw [le_div_iff_of_neg (by linarith)]
  linarith

/-- Predicted decrease and length of a damped step. -/
theorem damped_bounds {M : Matrix (Fin m) (Fin n) ℝ} {D : Matrix (Fin n) (Fin n) ℝ} {ν : ℝ}
    (hle : ∀ v, ν * (v ⬝ᵥ v) ≤ v ⬝ᵥ D *ᵥ v) {r : Fin m → ℝ} {x : Fin n → ℝ} (hx : (Mᵀ * M + D) *ᵥ x = descent M r) :
    2 * ν * (x ⬝ᵥ x) ≤ r ⬝ᵥ r - modelCost M r x ∧ 4 * ν * (x ⬝ᵥ x) ≤ r ⬝ᵥ r := by
  have h1 : (M *ᵥ x) ⬝ᵥ (M *ᵥ x) + x ⬝ᵥ D *ᵥ x = x ⬝ᵥ descent M r := by
    rw [← hx, add_mulVec, dotProduct_add, dot_gram]
  have h2 : x ⬝ᵥ descent M r = -((M *ᵥ x) ⬝ᵥ r) := by
    rw [descent, dotProduct_mulVec, vecMul_transpose, dotProduct_neg]
  have h3 := hle x
  have h4 : modelCost M r x = (M *ᵥ x) ⬝ᵥ (M *ᵥ x) + 2 * ((M *ᵥ x) ⬝ᵥ r) + r ⬝ᵥ r := by
    unfold modelCost
    rw [add_dotProduct, dotProduct_add, dotProduct_add, dotProduct_comm r]
    ring
  have h5 := dot_self_nonneg ((2 : ℝ) • (M *ᵥ x) + r)
  have h6 : ((2 : ℝ) • (M *ᵥ x) + r) ⬝ᵥ ((2 : ℝ) • (M *ᵥ x) + r) = 4 * ((M *ᵥ x) ⬝ᵥ (M *ᵥ x)) + 4 * ((M *ᵥ x) ⬝ᵥ r) + r ⬝ᵥ r := by
    rw [add_dotProduct, dotProduct_add, dotProduct_add, dotProduct_comm r]
    simp only [smul_dotProduct, dotProduct_smul, smul_eq_mul]
    ring
  have h7 := dot_self_nonneg (M *ᵥ x)
  exact ⟨by linarith, by linarith⟩

/-- The cost after a step, from the error of the linearization. -/
theorem cost_after {c' pred cost K t : ℝ} (hp : 0 ≤ pred) (hpc : pred ≤ cost) (hK : 0 ≤ K) (ht : 0 ≤ t) (hc : 0 ≤ c')
    (h : √c' ≤ √pred + K / 2 * t) : c' ≤ pred + t * (K * √cost + K ^ 2 / 4 * t) := by
  have h1 := pow_le_pow_left₀ (Real.sqrt_nonneg _) h 2
  rw [Real.sq_sqrt hc] at h1
  have h2 : (√pred + K / 2 * t) ^ 2 = pred + K * t * √pred + K ^ 2 / 4 * t ^ 2 := by
    rw [add_sq, Real.sq_sqrt hp]; ring
  have h3 : K * t * √pred ≤ K * t * √cost := mul_le_mul_of_nonneg_left (Real.sqrt_le_sqrt hpc) (by positivity)
  nlinarith

/-- With enough damping a step achieves its share. -/
theorem damped_share {c' pred cost K t ν q : ℝ} (hp : 0 ≤ pred) (hK : 0 ≤ K) (ht : 0 ≤ t) (hc : 0 ≤ c') (hν : 0 < ν) (hq0 : 0 ≤ q)
    (hq : q ≤ 1) (hdec : 2 * ν * t ≤ cost - pred) (hlen : 4 * ν * t ≤ cost) (h : √c' ≤ √pred + K / 2 * t)
    (hbig : K * √cost ≤ ν * (1 - q)) : q * (cost - pred) ≤ cost - c' := by
  have hpc : pred ≤ cost := by nlinarith
  have hcost : 0 ≤ cost := hp.trans hpc
  have h1 := cost_after hp hpc hK ht hc h
  have h2 : (K * √cost) ^ 2 ≤ (ν * (1 - q)) ^ 2 := pow_le_pow_left₀ (by positivity) hbig 2
  rw [mul_pow, Real.sq_sqrt hcost] at h2
  have h3 : K ^ 2 / 4 * t ≤ ν * (1 - q) := by
    have a1 : K ^ 2 * (4 * ν * t) ≤ K ^ 2 * cost := mul_le_mul_of_nonneg_left hlen (sq_nonneg K)
    have a2 : (ν * (1 - q)) ^ 2 ≤ ν * (ν * (1 - q)) := by
      have : ν * (1 - q) ≤ ν := by nlinarith
      have h0 : 0 ≤ ν * (1 - q) := mul_nonneg hν.le (by linarith)
      nlinarith
    have a3 : ν * (K ^ 2 / 4 * t) ≤ ν * (ν * (1 - q)) := by
      have := sq_nonneg K
      nlinarith
    exact le_of_mul_le_mul_left a3 hν
  have h4 : t * (K * √cost + K ^ 2 / 4 * t) ≤ t * (2 * (ν * (1 - q))) := mul_le_mul_of_nonneg_left (by linarith) ht
  have h5 : (1 - q) * (2 * ν * t) ≤ (1 - q) * (cost - pred) := mul_le_mul_of_nonneg_left hdec (by linarith)
  nlinarith

end Jaxfg
