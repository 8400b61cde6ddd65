/- Damped least-squares steps. -/
import Verif.Spec.DampedStep
import Verif.Lemmas.LinearRate

namespace Jaxfg
open Spec Matrix
variable {m n : Nat}

/-- A step with damping `μ` is the minimum of cost plus `μ |x|²`; the excess of any other point. -/
theorem ridge_excess {M : Matrix (Fin m) (Fin n) ℝ} {r : Fin m → ℝ} {μ : ℝ} {x : Fin n → ℝ}
    (h : (Mᵀ * M + μ • (1 : Matrix (Fin n) (Fin n) ℝ)) *ᵥ x = descent M r) (y : Fin n → ℝ) :
    modelCost M r y + μ * (y ⬝ᵥ y) = modelCost M r x + μ * (x ⬝ᵥ x) + ((M *ᵥ (y - x)) ⬝ᵥ (M *ᵥ (y - x)) + μ * ((y - x) ⬝ᵥ (y - x))) := by
  have e : ∀ v, v ⬝ᵥ descent M r = (M *ᵥ v) ⬝ᵥ (M *ᵥ x) + μ * (v ⬝ᵥ x) := by
    intro v
    rw [← h, add_mulVec, smul_mulVec, one_mulVec, dotProduct_add, dot_gram, dotProduct_smul, smul_eq_mul]
  rw [modelCost_expand, modelCost_expand, e, e]
  simp only [mulVec_sub, sub_dotProduct, dotProduct_sub]
  rw [dotProduct_comm (M *ᵥ x) (M *ᵥ y), dotProduct_comm x y]
  ring

/-- Among the points that are not longer, a damped step is the one and only with the least cost. -/
theorem ridge_trust {M : Matrix (Fin m) (Fin n) ℝ} {r : Fin m → ℝ} {μ : ℝ} (hμ : 0 < μ) {x : Fin n → ℝ}
    (h : (Mᵀ * M + μ • (1 : Matrix (Fin n) (Fin n) ℝ)) *ᵥ x = descent M r) {y : Fin n → ℝ} (hy : y ⬝ᵥ y ≤ x ⬝ᵥ x) :
    modelCost M r x ≤ modelCost M r y ∧ (modelCost M r y = modelCost M r x → y = x) := by
  have e := ridge_excess h y
  have h1 := dot_self_nonneg (M *ᵥ (y - x))
  have h2 := mul_nonneg hμ.le (dot_self_nonneg (y - x))
  have h3 := mul_le_mul_of_nonneg_left hy hμ.le
  refine ⟨by linarith, fun he => ?_⟩
  have h4 : μ * ((y - x) ⬝ᵥ (y - x)) = 0 := by linarith
  have h5 : (y - x) ⬝ᵥ (y - x) = 0 := by
    rcases mul_eq_zero.1 h4 with h | h
    · exact absurd h hμ.ne'
    · exact h
  exact sub_eq_zero.1 (dotProduct_self_eq_zero.1 h5)

/-- More damping: shorter step, higher cost of the linearized problem. -/
theorem ridge_mono {M : Matrix (Fin m) (Fin n) ℝ} {r : Fin m → ℝ} {μ μ' : ℝ} (hμ : 0 < μ) (hlt : μ < μ') {x x' : Fin n → ℝ}
    (h : (Mᵀ * M + μ • (1 : Matrix (Fin n) (Fin n) ℝ)) *ᵥ x = descent M r)
    (h' : (Mᵀ * M + μ' • (1 : Matrix (Fin n) (Fin n) ℝ)) *ᵥ x' = descent M r) :
    x' ⬝ᵥ x' ≤ x ⬝ᵥ x ∧ modelCost M r x ≤ modelCost M r x' ∧ (descent M r ≠ 0 → x' ⬝ᵥ x' < x ⬝ᵥ x ∧ modelCost M r x < modelCost M r x') := by
  have e := ridge_excess h x'
  have e' := ridge_excess h' x
  have h1 := dot_self_nonneg (M *ᵥ (x' - x))
  have h2 := mul_nonneg hμ.le (dot_self_nonneg (x' - x))
  have h3 := dot_self_nonneg (M *ᵥ (x - x'))
  have h4 := mul_nonneg (hμ.trans hlt).le (dot_self_nonneg (x - x'))
  have hle : x' ⬝ᵥ x' ≤ x ⬝ᵥ x := by
    have : (μ' - μ) * (x' ⬝ᵥ x') ≤ (μ' - μ) * (x ⬝ᵥ x) := by linarith
    exact le_of_mul_le_mul_left this (by linarith)
  have hc := ridge_trust hμ h hle
  refine ⟨hle, hc.1, fun hne => ?_⟩
  have hx : x' ≠ x := by
    rintro rfl
    have h5 : (μ' - μ) • x' = 0 := by
      have : μ' • x' = μ • x' := by
        rw [add_mulVec, smul_mulVec, one_mulVec] at h h'
        exact add_left_cancel (h'.trans h.symm)
      rw [sub_smul, this, sub_self]
    rcases smul_eq_zero.1 h5 with h6 | h6
    · linarith
    · rw [h6, mulVec_zero] at h
      exact hne h.symm
  have hlt1 : modelCost M r x < modelCost M r x' := lt_of_le_of_ne hc.1 fun he => hx (hc.2 he.symm)
  refine ⟨lt_of_le_of_ne hle fun he => ?_, hlt1⟩
  have := (ridge_trust (hμ.trans hlt) h' he.ge).1
  linarith

/-- The distance between a damped solution and the solution. -/
theorem ridge_error {M : Matrix (Fin m) (Fin n) ℝ} {σ μ : ℝ} (hσ : 0 ≤ σ) (hμ : 0 < μ) (hM : ∀ v, σ * (v ⬝ᵥ v) ≤ (M *ᵥ v) ⬝ᵥ (M *ᵥ v))
    {b x y : Fin n → ℝ} (h : (Mᵀ * M + μ • (1 : Matrix (Fin n) (Fin n) ℝ)) *ᵥ x = b) (hy : (Mᵀ * M) *ᵥ y = b) :
    √((x - y) ⬝ᵥ (x - y)) ≤ μ / (σ + μ) * √(y ⬝ᵥ y) := by
  have e : (Mᵀ * M + μ • (1 : Matrix (Fin n) (Fin n) ℝ)) *ᵥ (x - y) = -(μ • y) := by
    rw [mulVec_sub, h, add_mulVec, hy, smul_mulVec, one_mulVec]
    abel
  have e1 : (M *ᵥ (x - y)) ⬝ᵥ (M *ᵥ (x - y)) + μ * ((x - y) ⬝ᵥ (x - y)) = -(μ * ((x - y) ⬝ᵥ y)) := by
    have := congrArg (fun v => (x - y) ⬝ᵥ v) e
    simpa only [add_mulVec, smul_mulVec, one_mulVec, dotProduct_add, dot_gram, dotProduct_smul, smul_eq_mul, dotProduct_neg] using this
  have e2 := hM (x - y)
  have e3 := dot_sq_le (x - y) y
  have n1 := dot_self_nonneg (x - y)
  have n2 := dot_self_nonneg y
  have hpos : 0 < σ + μ := by linarith
  generalize (x - y) ⬝ᵥ (x - y) = E at *
  generalize (x - y) ⬝ᵥ y = P at *
  generalize y ⬝ᵥ y = Y at *
  have e4 : (σ + μ) * E ≤ μ * -P := by linarith
  have e5 : -P ≤ √E * √Y := by
    rw [← Real.sqrt_mul n1]
    exact Real.le_sqrt_of_sq_le (by rw [neg_sq]; exact e3)
  rw [div_mul_eq_mul_div, le_div_iff₀ hpos]
  rcases (Real.sqrt_nonneg E).eq_or_lt with h0 | h0
  · rw [← h0, zero_mul]; positivity
  · have e6 : (σ + μ) * (√E * √E) ≤ μ * (√E * √Y) := by
      rw [Real.mul_self_sqrt n1]
      exact e4.trans (mul_le_mul_of_nonneg_left e5 hμ.le)
    have : √E * (√E * (σ + μ)) ≤ √E * (μ * √Y) := by linarith
    exact le_of_mul_le_mul_left this h0

/-- How far a damped step is from the scaled gradient. -/
theorem ridge_gradient {M : Matrix (Fin m) (Fin n) ℝ} {κ μ : ℝ} (hκ : 0 ≤ κ) (hμ : 0 < μ) (hM : ∀ v, (M *ᵥ v) ⬝ᵥ (M *ᵥ v) ≤ κ * (v ⬝ᵥ v))
    {b x : Fin n → ℝ} (h : (Mᵀ * M + μ • (1 : Matrix (Fin n) (Fin n) ℝ)) *ᵥ x = b) :
    √((b - μ • x) ⬝ᵥ (b - μ • x)) ≤ κ / (κ + μ) * √(b ⬝ᵥ b) := by
  have hG : (Mᵀ * M).PosSemidef := by
    have := Matrix.posSemidef_conjTranspose_mul_self M
    rwa [conjTranspose_eq_transpose_of_trivial] at this
  have e : b - μ • x = (Mᵀ * M) *ᵥ x := by
    rw [← h, add_mulVec, smul_mulVec, one_mulVec]
    abel
  have hsq := psd_sq_le hG hκ (fun v => by rw [dot_gram]; exact hM v) x
  rw [e]
  have e2 : b ⬝ᵥ b = ((Mᵀ * M) *ᵥ x) ⬝ᵥ ((Mᵀ * M) *ᵥ x) + 2 * μ * (x ⬝ᵥ (Mᵀ * M) *ᵥ x) + μ ^ 2 * (x ⬝ᵥ x) := by
    rw [← h, add_mulVec, smul_mulVec, one_mulVec]
    simp only [add_dotProduct, dotProduct_add, smul_dotProduct, dotProduct_smul, smul_eq_mul]
    rw [dotProduct_comm _ x]
    ring
  have hcs := dot_sq_le x ((Mᵀ * M) *ᵥ x)
  have n1 := dot_self_nonneg ((Mᵀ * M) *ᵥ x)
  have n2 := dot_self_nonneg x
  have n3 : 0 ≤ x ⬝ᵥ (Mᵀ * M) *ᵥ x := by rw [dot_gram]; exact dot_self_nonneg _
  have hle : x ⬝ᵥ (Mᵀ * M) *ᵥ x ≤ κ * (x ⬝ᵥ x) := by rw [dot_gram]; exact hM x
  rw [e2]
  have hpos : 0 < κ + μ := by linarith
  generalize ((Mᵀ * M) *ᵥ x) ⬝ᵥ ((Mᵀ * M) *ᵥ x) = G at *
  generalize x ⬝ᵥ (Mᵀ * M) *ᵥ x = P at *
  generalize x ⬝ᵥ x = N at *
  rw [div_mul_eq_mul_div, le_div_iff₀ hpos]
  have k1 : G * (κ + μ) ^ 2 ≤ κ ^ 2 * (G + 2 * μ * P + μ ^ 2 * N) := by
    have s1 : G ≤ κ ^ 2 * N := hsq.trans (by nlinarith)
    nlinarith [mul_nonneg hμ.le hκ, mul_le_mul_of_nonneg_left s1 (sq_nonneg μ), mul_le_mul_of_nonneg_left hsq (mul_nonneg hμ.le hκ)]
  have k2 := Real.sqrt_le_sqrt k1
  rwa [Real.sqrt_mul n1, Real.sqrt_sq hpos.le, Real.sqrt_mul (sq_nonneg κ), Real.sqrt_sq hκ] at k2

/-- Cauchy-Schwarz in the norm of a positive semidefinite matrix. -/
theorem psd_dot_sq_le {H : Matrix (Fin n) (Fin n) ℝ} (hH : H.PosSemidef) (u v : Fin n → ℝ) :
    (u ⬝ᵥ H *ᵥ v) ^ 2 ≤ (u ⬝ᵥ H *ᵥ u) * (v ⬝ᵥ H *ᵥ v) := by
  have key : ∀ t : ℝ, 0 ≤ (v ⬝ᵥ H *ᵥ v) * (t * t) + 2 * (u ⬝ᵥ H *ᵥ v) * t + u ⬝ᵥ H *ᵥ u := by
    intro t
    have h1 : 0 ≤ (u + t • v) ⬝ᵥ H *ᵥ (u + t • v) := by simpa using hH.dotProduct_mulVec_nonneg (u + t • v)
    have e : v ⬝ᵥ H *ᵥ u = u ⬝ᵥ H *ᵥ v := by rw [dot_symm hH, dotProduct_comm]
    simp only [mulVec_add, mulVec_smul, add_dotProduct, dotProduct_add, smul_dotProduct, dotProduct_smul, smul_eq_mul, e] at h1
    linarith
  have := discrim_le_zero key
  unfold discrim at this
  nlinarith

/-- The decrease that a damped step predicts. -/
theorem damped_decrease {M : Matrix (Fin m) (Fin n) ℝ} {D : Matrix (Fin n) (Fin n) ℝ} (hD : D.PosSemidef) {κ μ : ℝ}
    (hM : ∀ v, (M *ᵥ v) ⬝ᵥ (M *ᵥ v) ≤ κ * (v ⬝ᵥ v)) (hle : ∀ v, v ⬝ᵥ D *ᵥ v ≤ μ * (v ⬝ᵥ v)) {r : Fin m → ℝ} {x : Fin n → ℝ}
    (hx : (Mᵀ * M + D) *ᵥ x = descent M r) :
    descent M r ⬝ᵥ descent M r ≤ (κ + μ) * (r ⬝ᵥ r - modelCost M r x) := by
  have hG : (Mᵀ * M).PosSemidef := by
    have := Matrix.posSemidef_conjTranspose_mul_self M
    rwa [conjTranspose_eq_transpose_of_trivial] at this
  have hH : (Mᵀ * M + D).PosSemidef := hG.add hD
  obtain ⟨b, hb⟩ : ∃ b, b = descent M r := ⟨_, rfl⟩
  rw [← hb] at hx ⊢
  have h1 := psd_dot_sq_le hH b x
  rw [hx] at h1
  have h2 : b ⬝ᵥ (Mᵀ * M + D) *ᵥ b ≤ (κ + μ) * (b ⬝ᵥ b) := by
    rw [add_mulVec, dotProduct_add, dot_gram, add_mul]
    exact add_le_add (hM b) (hle b)
  have h3 : x ⬝ᵥ b = (M *ᵥ x) ⬝ᵥ (M *ᵥ x) + x ⬝ᵥ D *ᵥ x := by
    rw [← hx, add_mulVec, dotProduct_add, dot_gram]
  have h4 : r ⬝ᵥ r - modelCost M r x = x ⬝ᵥ b + x ⬝ᵥ D *ᵥ x := by
    rw [modelCost_expand, ← hb]
    linarith
  have h5 : 0 ≤ x ⬝ᵥ D *ᵥ x := by simpa using hD.dotProduct_mulVec_nonneg x
  have h6 := dot_self_nonneg (M *ᵥ x)
  have h7 := dot_self_nonneg b
  have h8 : 0 ≤ x ⬝ᵥ b := by linarith
  rw [h4]
  rcases h7.eq_or_lt with h0 | h0
  · rw [← h0]
    have : b = 0 := dotProduct_self_eq_zero.1 h0.symm
    rw [this, dotProduct_zero] at h3 ⊢
    have hd : x ⬝ᵥ D *ᵥ x = 0 := by linarith
    rw [hd]; simp
  · have hκμ : 0 ≤ κ + μ := by
      by_contra hneg
      have h9 : 0 ≤ b ⬝ᵥ (Mᵀ * M + D) *ᵥ b := by simpa using hH.dotProduct_mulVec_nonneg b
      nlinarith
    have h9 : b ⬝ᵥ b * (b ⬝ᵥ b) ≤ (κ + μ) * (x ⬝ᵥ b) * (b ⬝ᵥ b) := by
      have := mul_le_mul_of_nonneg_right h2 h8
      nlinarith
    have h10 := le_of_mul_le_mul_right h9 h0
    nlinarith

/-- The right-hand side is bounded by the step. -/
theorem damped_rhs_le {M : Matrix (Fin m) (Fin n) ℝ} {D : Matrix (Fin n) (Fin n) ℝ} (hD : D.PosSemidef) {κ μ : ℝ} (hκμ : 0 ≤ κ + μ)
    (hM : ∀ v, (M *ᵥ v) ⬝ᵥ (M *ᵥ v) ≤ κ * (v ⬝ᵥ v)) (hle : ∀ v, v ⬝ᵥ D *ᵥ v ≤ μ * (v ⬝ᵥ v)) {b x : Fin n → ℝ}
    (hx : (Mᵀ * M + D) *ᵥ x = b) : √(b ⬝ᵥ b) ≤ (κ + μ) * √(x ⬝ᵥ x) := by
  have hG : (Mᵀ * M).PosSemidef := by
    have := Matrix.posSemidef_conjTranspose_mul_self M
    rwa [conjTranspose_eq_transpose_of_trivial] at this
  have hH : (Mᵀ * M + D).PosSemidef := hG.add hD
  have hle' : ∀ v, v ⬝ᵥ (Mᵀ * M + D) *ᵥ v ≤ (κ + μ) * (v ⬝ᵥ v) := fun v => by
    rw [add_mulVec, dotProduct_add, dot_gram, add_mul]
    exact add_le_add (hM v) (hle v)
  have h1 := psd_sq_le hH hκμ hle' x
  rw [hx] at h1
  have h2 := hle' x
  rw [hx] at h2
  have h3 : b ⬝ᵥ b ≤ (κ + μ) ^ 2 * (x ⬝ᵥ x) := by nlinarith
  have := Real.sqrt_le_sqrt h3
  rwa [Real.sqrt_mul (sq_nonneg _), Real.sqrt_sq hκμ] at this

end Jaxfg
