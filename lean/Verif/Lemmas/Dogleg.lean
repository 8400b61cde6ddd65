/- Geometry of least-squares steps. -/
import Verif.Spec.SolverReal
import Mathlib.Analysis.SpecialFunctions.Pow.NNReal
import Mathlib.Algebra.Order.Star.Real
import Mathlib.Tactic.NormNum
import Mathlib.Tactic.Linarith
import Mathlib.Tactic.FieldSimp

namespace Jaxfg
open Matrix Spec
variable {m n : Nat}

theorem dot_self_nonneg (v : Fin n → ℝ) : 0 ≤ v ⬝ᵥ v := Finset.sum_nonneg fun _ _ => mul_self_nonneg _

theorem dot_self_pos {v : Fin n → ℝ} (h : v ≠ 0) : 0 < v ⬝ᵥ v :=
  lt_of_le_of_ne (dot_self_nonneg v) fun h0 => h (dotProduct_self_eq_zero.1 h0.symm)

/-- The linearized cost is a quadratic function. -/
theorem modelCost_expand (M : Matrix (Fin m) (Fin n) ℝ) (r : Fin m → ℝ) (x : Fin n → ℝ) :
    modelCost M r x = r ⬝ᵥ r - 2 * (x ⬝ᵥ descent M r) + (M *ᵥ x) ⬝ᵥ (M *ᵥ x) := by
  unfold modelCost descent
  have h : x ⬝ᵥ Mᵀ *ᵥ (-r) = -((M *ᵥ x) ⬝ᵥ r) := by
    rw [mulVec_neg, dotProduct_neg, mulVec_transpose, dotProduct_comm, ← dotProduct_mulVec, dotProduct_comm]
  rw [h, add_dotProduct, dotProduct_add, dotProduct_add, dotProduct_comm r (M *ᵥ x)]
  ring

theorem modelCost_zero (M : Matrix (Fin m) (Fin n) ℝ) (r : Fin m → ℝ) : modelCost M r 0 = r ⬝ᵥ r := by
  unfold modelCost; simp

/-- A regular damped step does not increase the linearized cost, and decreases it unless the gradient vanishes. -/
theorem SolvesDamped.descends {M : Matrix (Fin m) (Fin n) ℝ} {r : Fin m → ℝ} {x : Fin n → ℝ} (h : SolvesDamped M r x) :
    (descent M r = 0 → x = 0) ∧ (descent M r ≠ 0 → modelCost M r x < r ⬝ᵥ r) := by
  obtain ⟨D, hD, hH, hx⟩ := h
  constructor
  · intro h0
    rw [h0] at hx
    by_contra hne
    have h2 : 0 < x ⬝ᵥ (Mᵀ * M + D) *ᵥ x := by simpa using hH.dotProduct_mulVec_pos hne
    rw [hx, dotProduct_zero] at h2
    exact lt_irrefl _ h2
  · intro hne
    have hxne : x ≠ 0 := by
      rintro rfl
      rw [mulVec_zero] at hx
      exact hne hx.symm
    have h1 : 0 < x ⬝ᵥ (Mᵀ * M + D) *ᵥ x := by simpa using hH.dotProduct_mulVec_pos hxne
    have h2 : 0 ≤ x ⬝ᵥ D *ᵥ x := by simpa using hD.dotProduct_mulVec_nonneg x
    have h3 : x ⬝ᵥ (Mᵀ * M + D) *ᵥ x = (M *ᵥ x) ⬝ᵥ (M *ᵥ x) + x ⬝ᵥ D *ᵥ x := by
      rw [add_mulVec, dotProduct_add, ← mulVec_mulVec, mulVec_transpose, dotProduct_comm, ← dotProduct_mulVec]
    rw [modelCost_expand, ← hx]
    rw [h3] at h1 ⊢
    linarith

/-- Convexity along a segment. -/
theorem modelCost_segment (M : Matrix (Fin m) (Fin n) ℝ) (r : Fin m → ℝ) (a b : Fin n → ℝ) {t : ℝ} (h0 : 0 ≤ t) (h1 : t ≤ 1) :
    modelCost M r (a + t • (b - a)) ≤ (1 - t) * modelCost M r a + t * modelCost M r b := by
  have key : modelCost M r (a + t • (b - a)) = (1 - t) * modelCost M r a + t * modelCost M r b
      - t * (1 - t) * ((M *ᵥ (b - a)) ⬝ᵥ (M *ᵥ (b - a))) := by
    unfold modelCost
    simp only [mulVec_add, mulVec_smul, mulVec_sub, add_dotProduct, dotProduct_add, sub_dotProduct, dotProduct_sub, smul_dotProduct,
      dotProduct_smul, smul_eq_mul]
    rw [dotProduct_comm (M *ᵥ b) (M *ᵥ a), dotProduct_comm r (M *ᵥ a), dotProduct_comm r (M *ᵥ b)]
    ring
  rw [key]
  have : 0 ≤ t * (1 - t) * ((M *ᵥ (b - a)) ⬝ᵥ (M *ᵥ (b - a))) :=
    mul_nonneg (mul_nonneg h0 (by linarith)) (dot_self_nonneg _)
  linarith

/-- If the gradient does not vanish, neither does its image. -/
theorem image_descent_pos {M : Matrix (Fin m) (Fin n) ℝ} {r : Fin m → ℝ} (h : descent M r ≠ 0) :
    0 < (M *ᵥ descent M r) ⬝ᵥ (M *ᵥ descent M r) := by
  apply dot_self_pos
  intro h0
  have h1 : descent M r ⬝ᵥ descent M r = 0 := by
    conv_lhs => rhs; unfold descent
    rw [mulVec_neg, dotProduct_neg, mulVec_transpose, dotProduct_comm, ← dotProduct_mulVec, h0, dotProduct_zero, neg_zero]
  exact h (dotProduct_self_eq_zero.1 h1)

/-- The step length that the solver computes gives the Cauchy point. -/
theorem isCauchyPoint {M : Matrix (Fin m) (Fin n) ℝ} {r : Fin m → ℝ} (h : descent M r ≠ 0) :
    IsCauchyPoint M r (((descent M r ⬝ᵥ descent M r) / ((M *ᵥ descent M r) ⬝ᵥ (M *ᵥ descent M r))) • descent M r) := by
  refine ⟨⟨_, rfl⟩, fun t => ?_⟩
  have hp := image_descent_pos h
  rw [modelCost_expand, modelCost_expand]
  simp only [mulVec_smul, smul_dotProduct, dotProduct_smul, smul_eq_mul]
  set P := (M *ᵥ descent M r) ⬝ᵥ (M *ᵥ descent M r)
  set G := descent M r ⬝ᵥ descent M r
  have : G / P * P = G := div_mul_cancel₀ _ hp.ne'
  have e : (r ⬝ᵥ r - 2 * (t * G) + t * (t * P)) - (r ⬝ᵥ r - 2 * (G / P * G) + G / P * (G / P * P)) = P * (t - G / P) ^ 2 := by
    rw [this]
    have : G = G / P * P := this.symm
    field_simp
    ring
  have : 0 ≤ P * (t - G / P) ^ 2 := mul_nonneg hp.le (sq_nonneg _)
  linarith

/-- On the way to the Cauchy point the linearized cost is below its value at the start. -/
theorem cauchy_descends {M : Matrix (Fin m) (Fin n) ℝ} {r : Fin m → ℝ} (h : descent M r ≠ 0) {t : ℝ} (h0 : 0 < t) (h1 : t ≤ 1) :
    modelCost M r (t • (((descent M r ⬝ᵥ descent M r) / ((M *ᵥ descent M r) ⬝ᵥ (M *ᵥ descent M r))) • descent M r)) < r ⬝ᵥ r := by
  have hp := image_descent_pos h
  have hg := dot_self_pos h
  rw [modelCost_expand]
  simp only [mulVec_smul, smul_dotProduct, dotProduct_smul, smul_eq_mul]
  set P := (M *ᵥ descent M r) ⬝ᵥ (M *ᵥ descent M r)
  set G := descent M r ⬝ᵥ descent M r
  have : G / P * P = G := div_mul_cancel₀ _ hp.ne'
  rw [this]
  have h3 : 0 < G / P * G := mul_pos (div_pos hg hp) hg
  have h4 : t * (t * (G / P * G)) ≤ t * (G / P * G) := by
    have : t * (G / P * G) ≤ 1 * (G / P * G) := mul_le_mul_of_nonneg_right h1 h3.le
    nlinarith
  nlinarith

/-- Both forms of the blending parameter solve the quadratic equation for the step that ends on the boundary of the trust region. -/
theorem blending {D c K : ℝ} (hK : 0 < K) (hD : 0 < D) (hout : K < D + 2 * c) :
    let root := Real.sqrt (c * c + D * K)
    (-c + root) / D = K / (c + root) ∧ 0 < c + root ∧ 0 ≤ (-c + root) / D ∧ (-c + root) / D ≤ 1 ∧
      D * ((-c + root) / D) ^ 2 + 2 * c * ((-c + root) / D) = K := by
  intro root
  have hnn : 0 ≤ c * c + D * K := add_nonneg (mul_self_nonneg c) (mul_pos hD hK).le
  have hsq : root * root = c * c + D * K := Real.mul_self_sqrt hnn
  have hr0 : 0 ≤ root := Real.sqrt_nonneg _
  have habs : |c| < root := by
    apply Real.lt_sqrt_of_sq_lt
    rw [sq_abs]
    have := mul_pos hD hK
    nlinarith
  have h1 := (abs_lt.1 habs).1
  have h2 := (abs_lt.1 habs).2
  have hpos : 0 < c + root := by linarith
  have hneg : 0 < -c + root := by linarith
  refine ⟨?_, hpos, (div_pos hneg hD).le, ?_, ?_⟩
  · rw [div_eq_div_iff hD.ne' hpos.ne']
    nlinarith
  · rw [div_le_one hD]
    have : root ≤ D + c := by
      apply Real.sqrt_le_iff.2
      constructor
      · linarith
      · nlinarith
    linarith
  · field_simp
    nlinarith

end Jaxfg
