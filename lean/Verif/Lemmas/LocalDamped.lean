/- Damped steps near a solution. -/
import Verif.Spec.LocalDamped
import Verif.Lemmas.Acceptance

namespace Jaxfg
open Spec Matrix
variable {m n : Nat}

/-- A step with damping `μ` near a solution at `E`, with the residual `re` there. -/
theorem local_damped {M : Matrix (Fin m) (Fin n) ℝ} {σ μ : ℝ} (hσ : 0 < σ) (hμ : 0 ≤ μ)
    (hM : ∀ v, σ * (v ⬝ᵥ v) ≤ (M *ᵥ v) ⬝ᵥ (M *ᵥ v)) {r : Fin m → ℝ} {x : Fin n → ℝ}
    (hx : (Mᵀ * M + μ • (1 : Matrix (Fin n) (Fin n) ℝ)) *ᵥ x = descent M r) (E : Fin n → ℝ) (re : Fin m → ℝ) :
    eucl (x - E) ≤ eucl (re - r - M *ᵥ E) / √σ + (eucl (Mᵀ *ᵥ re) + μ * eucl E) / (σ + μ) := by
  obtain ⟨w, hw⟩ : ∃ w, w = x - E := ⟨_, rfl⟩
  obtain ⟨u, hu⟩ : ∃ u, u = re - r - M *ᵥ E := ⟨_, rfl⟩
  rw [← hw, ← hu]
  have hs : 0 < √σ := Real.sqrt_pos.2 hσ
  have hss : √σ * √σ = σ := Real.mul_self_sqrt hσ.le
  have hsm : 0 < σ + μ := by linarith
  have W0 := eucl_nonneg w
  have X0 := eucl_nonneg (M *ᵥ w)
  have U0 := eucl_nonneg u
  have T0 := eucl_nonneg (Mᵀ *ᵥ re)
  have E0 := eucl_nonneg E
  have hB : 0 ≤ (eucl (Mᵀ *ᵥ re) + μ * eucl E) / (σ + μ) := by positivity
  -- the equation for `w`
  have heq : (Mᵀ * M) *ᵥ w + μ • w = Mᵀ *ᵥ u - Mᵀ *ᵥ re - μ • E := by
    have h1 : (Mᵀ * M) *ᵥ x + μ • x = -(Mᵀ *ᵥ r) := by
      rw [add_mulVec, smul_mulVec, one_mulVec] at hx
      rw [hx, descent, mulVec_neg]
    have h2 : Mᵀ *ᵥ u = Mᵀ *ᵥ re - Mᵀ *ᵥ r - (Mᵀ * M) *ᵥ E := by
      rw [hu, mulVec_sub, mulVec_sub, mulVec_mulVec]
    rw [h2, hw, mulVec_sub, smul_sub]
    have h3 : (Mᵀ * M) *ᵥ x = -(Mᵀ *ᵥ r) - μ • x := by rw [← h1]; abel
    rw [h3]
    abel
  have hdot : eucl (M *ᵥ w) ^ 2 + μ * eucl w ^ 2 = (M *ᵥ w) ⬝ᵥ u - w ⬝ᵥ Mᵀ *ᵥ re - μ * (w ⬝ᵥ E) := by
    have h1 := congrArg (fun v => w ⬝ᵥ v) heq
    simp only [dotProduct_add, dotProduct_sub, dotProduct_smul, smul_eq_mul] at h1
    rw [dot_gram, ← eucl_sq, ← eucl_sq] at h1
    rw [h1]
    congr 2
    rw [dotProduct_mulVec, vecMul_transpose]
  have k1 := dot_le_eucl (M *ᵥ w) u
  have k2 := dot_le_eucl (-w) (Mᵀ *ᵥ re)
  have k3 := dot_le_eucl (-w) E
  rw [eucl_neg, neg_dotProduct] at k2 k3
  have k3' := mul_le_mul_of_nonneg_left k3 hμ
  have hX : √σ * eucl w ≤ eucl (M *ᵥ w) := by
    refine abs_le_of_sq_le_sq' ?_ X0 |>.2
    rw [mul_pow, Real.sq_sqrt hσ.le, eucl_sq, eucl_sq]
    exact hM w
  by_cases hcase : √σ * eucl w ≤ eucl u / 2
  · have : eucl w ≤ eucl u / √σ := by
      rw [le_div_iff₀ hs]
      linarith
    linarith
  · rw [not_le] at hcase
    -- `X² - X U` is increasing from `√σ w` on
    have hinc : (√σ * eucl w) ^ 2 - √σ * eucl w * eucl u ≤ eucl (M *ᵥ w) ^ 2 - eucl (M *ᵥ w) * eucl u := by
      have : 0 ≤ (eucl (M *ᵥ w) - √σ * eucl w) * (eucl (M *ᵥ w) + √σ * eucl w - eucl u) :=
        mul_nonneg (by linarith) (by linarith)
      linarith
    rw [mul_pow, Real.sq_sqrt hσ.le] at hinc
    have hW : 0 < eucl w := by
      by_contra hneg
      have : eucl w = 0 := le_antisymm (not_lt.1 hneg) W0
      rw [this, mul_zero] at hcase
      linarith
    have hmain : eucl w * ((σ + μ) * eucl w) ≤ eucl w * (√σ * eucl u + (eucl (Mᵀ *ᵥ re) + μ * eucl E)) := by
      nlinarith only [hinc, hdot, k1, k2, k3']
    have hmain' := le_of_mul_le_mul_left hmain hW
    have h1 : eucl w ≤ (√σ * eucl u + (eucl (Mᵀ *ᵥ re) + μ * eucl E)) / (σ + μ) := by
      rw [le_div_iff₀ hsm]; linarith
    rw [add_div] at h1
    have h2 : √σ * eucl u / (σ + μ) ≤ eucl u / √σ := by
      rw [div_le_div_iff₀ hsm hs]
      nlinarith
    linarith

/-- Predicted decrease and length of a damped step where the Jacobian is stiff. -/
theorem stiff_bounds {M : Matrix (Fin m) (Fin n) ℝ} {σ μ : ℝ} (hμ : 0 ≤ μ)
    (hM : ∀ v, σ * (v ⬝ᵥ v) ≤ (M *ᵥ v) ⬝ᵥ (M *ᵥ v)) {r : Fin m → ℝ} {x : Fin n → ℝ}
    (hx : (Mᵀ * M + μ • (1 : Matrix (Fin n) (Fin n) ℝ)) *ᵥ x = descent M r) :
    σ * (x ⬝ᵥ x) ≤ r ⬝ᵥ r - modelCost M r x ∧ σ * (x ⬝ᵥ x) ≤ r ⬝ᵥ r := by
  have h1 : (M *ᵥ x) ⬝ᵥ (M *ᵥ x) + μ * (x ⬝ᵥ x) = x ⬝ᵥ descent M r := by
    rw [← hx, add_mulVec, dotProduct_add, dot_gram, smul_mulVec, one_mulVec, dotProduct_smul, smul_eq_mul]
  have h2 : x ⬝ᵥ descent M r = -((M *ᵥ x) ⬝ᵥ r) := by
    rw [descent, dotProduct_mulVec, vecMul_transpose, dotProduct_neg]
  have h3 := hM x
  have h4 : modelCost M r x = (M *ᵥ x) ⬝ᵥ (M *ᵥ x) + 2 * ((M *ᵥ x) ⬝ᵥ r) + r ⬝ᵥ r := by
    unfold modelCost
    rw [add_dotProduct, dotProduct_add, dotProduct_add, dotProduct_comm r]
    ring
  have h5 : 0 ≤ modelCost M r x := dot_self_nonneg _
  have h6 := mul_nonneg hμ (dot_self_nonneg x)
  exact ⟨by linarith, by linarith⟩

/-- Where the Jacobian is stiff and the cost small, a step achieves its share of the predicted decrease. -/
theorem stiff_share {c' pred cost K t σ q : ℝ} (hp : 0 ≤ pred) (hK : 0 ≤ K) (ht : 0 ≤ t) (hc : 0 ≤ c') (hσ : 0 < σ) (hq0 : 0 ≤ q)
    (hq : q ≤ 1) (hdec : σ * t ≤ cost - pred) (hlen : σ * t ≤ cost) (h : √c' ≤ √pred + K / 2 * t)
    (hbig : K * √cost ≤ 3 / 4 * (1 - q) * σ) : q * (cost - pred) ≤ cost - c' := by
  have hpc : pred ≤ cost := by nlinarith
  have hcost : 0 ≤ cost := hp.trans hpc
  have h1 := cost_after hp hpc hK ht hc h
  have hx0 : 0 ≤ 3 / 4 * (1 - q) * σ := mul_nonneg (by linarith) hσ.le
  have h2 : (K * √cost) ^ 2 ≤ (3 / 4 * (1 - q) * σ) ^ 2 := pow_le_pow_left₀ (by positivity) hbig 2
  rw [mul_pow, Real.sq_sqrt hcost] at h2
  have h3 : K ^ 2 / 4 * t ≤ 1 / 4 * (1 - q) * σ := by
    have a1 : K ^ 2 * (σ * t) ≤ K ^ 2 * cost := mul_le_mul_of_nonneg_left hlen (sq_nonneg K)
    have a2 : (3 / 4 * (1 - q) * σ) ^ 2 ≤ σ * ((1 - q) * σ) := by
      have e1 : (3 / 4 * (1 - q) * σ) ^ 2 = 9 / 16 * (1 - q) ^ 2 * σ ^ 2 := by ring
      have e2 : (1 - q) ^ 2 ≤ 1 - q := by nlinarith
      have e3 : 0 ≤ σ ^ 2 := sq_nonneg σ
      have e4 : 0 ≤ (1 - q) ^ 2 := sq_nonneg _
      nlinarith
    have a3 : σ * (K ^ 2 / 4 * t) ≤ σ * (1 / 4 * (1 - q) * σ) := by linarith
    exact le_of_mul_le_mul_left a3 hσ
  have h4 : t * (K * √cost + K ^ 2 / 4 * t) ≤ t * ((1 - q) * σ) := mul_le_mul_of_nonneg_left (by linarith) ht
  have h5 : (1 - q) * (σ * t) ≤ (1 - q) * (cost - pred) := mul_le_mul_of_nonneg_left hdec (by linarith)
  linarith

end Jaxfg
