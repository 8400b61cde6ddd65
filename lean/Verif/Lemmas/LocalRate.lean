/- One damped step near a solution of a nonlinear least-squares problem. -/
import Verif.Spec.LocalRate
import Verif.Lemmas.LinearRate
import Mathlib.Analysis.Calculus.Deriv.MeanValue
import Mathlib.Analysis.Calculus.Deriv.Pow

namespace Jaxfg
open Spec Matrix
variable {m n : Nat}

theorem eucl_nonneg (v : Fin n → ℝ) : 0 ≤ eucl v := Real.sqrt_nonneg _

theorem eucl_sq (v : Fin n → ℝ) : eucl v ^ 2 = v ⬝ᵥ v := Real.sq_sqrt (dot_self_nonneg v)

theorem dot_le_eucl (u v : Fin n → ℝ) : u ⬝ᵥ v ≤ eucl u * eucl v := by
  have h := dot_sq_le u v
  rw [← eucl_sq, ← eucl_sq, ← mul_pow] at h
  exact le_of_abs_le (abs_le_of_sq_le_sq h (mul_nonneg (eucl_nonneg _) (eucl_nonneg _)))

/-- Triangle inequality. -/
theorem eucl_add_le (u v : Fin n → ℝ) : eucl (u + v) ≤ eucl u + eucl v := by
  refine abs_le_of_sq_le_sq' ?_ (add_nonneg (eucl_nonneg _) (eucl_nonneg _)) |>.2
  have h := dot_le_eucl u v
  rw [add_sq, eucl_sq, eucl_sq, eucl_sq, add_dotProduct, dotProduct_add, dotProduct_add, dotProduct_comm v u]
  linarith

theorem eucl_neg (v : Fin n → ℝ) : eucl (-v) = eucl v := by
  unfold eucl; rw [neg_dotProduct_neg]

theorem eucl_psd {D : Matrix (Fin n) (Fin n) ℝ} (hD : D.PosSemidef) {μ : ℝ} (hμ : 0 ≤ μ)
    (hle : ∀ v, v ⬝ᵥ D *ᵥ v ≤ μ * (v ⬝ᵥ v)) (w : Fin n → ℝ) : eucl (D *ᵥ w) ≤ μ * eucl w := by
  apply le_of_sq_le_sq _ (mul_nonneg hμ (eucl_nonneg _))
  rw [mul_pow, eucl_sq, eucl_sq]
  have h1 := psd_sq_le hD hμ hle w
  have h2 := mul_le_mul_of_nonneg_left (hle w) hμ
  nlinarith

/-- How far the end of a damped step is from the target `E`: the error of the linearization, the gradient at the target and the
damping all contribute. -/
theorem local_step {M : Matrix (Fin m) (Fin n) ℝ} {D : Matrix (Fin n) (Fin n) ℝ} (hD : D.PosSemidef) {σ μ : ℝ} (hσ : 0 < σ)
    (hμ : 0 ≤ μ) (hM : ∀ v, σ * (v ⬝ᵥ v) ≤ (M *ᵥ v) ⬝ᵥ (M *ᵥ v)) (hle : ∀ v, v ⬝ᵥ D *ᵥ v ≤ μ * (v ⬝ᵥ v)) {r : Fin m → ℝ}
    {x : Fin n → ℝ} (hx : (Mᵀ * M + D) *ᵥ x = descent M r) (E : Fin n → ℝ) (re : Fin m → ℝ) :
    eucl (x - E) ≤ eucl (re - r - M *ᵥ E) / √σ + (eucl (Mᵀ *ᵥ re) + μ * eucl E) / σ := by
  obtain ⟨w, hw⟩ : ∃ w, w = x - E := ⟨_, rfl⟩
  obtain ⟨u, hu⟩ : ∃ u, u = re - r - M *ᵥ E := ⟨_, rfl⟩
  rw [← hw, ← hu]
  have hs : 0 < √σ := Real.sqrt_pos.2 hσ
  have hss : √σ ^ 2 = σ := Real.sq_sqrt hσ.le
  have e1 : (Mᵀ * M + D) *ᵥ w = Mᵀ *ᵥ u - Mᵀ *ᵥ re - D *ᵥ E := by
    rw [hw, mulVec_sub, hx, descent, hu, add_mulVec, ← mulVec_mulVec]
    simp only [mulVec_sub, mulVec_neg]
    abel
  have e2 : (M *ᵥ w) ⬝ᵥ (M *ᵥ w) + w ⬝ᵥ D *ᵥ w = (M *ᵥ w) ⬝ᵥ u - w ⬝ᵥ Mᵀ *ᵥ re - w ⬝ᵥ D *ᵥ E := by
    have := congrArg (w ⬝ᵥ ·) e1
    simp only [add_mulVec, dotProduct_add, dotProduct_sub, dot_gram] at this
    rw [this]
    congr 2
    rw [dotProduct_mulVec, vecMul_transpose]
  have h0 : 0 ≤ w ⬝ᵥ D *ᵥ w := by simpa using hD.dotProduct_mulVec_nonneg w
  have h1 := dot_le_eucl (M *ᵥ w) u
  have h2 := dot_le_eucl (-w) (Mᵀ *ᵥ re)
  have h3 := dot_le_eucl (-w) (D *ᵥ E)
  rw [neg_dotProduct, eucl_neg] at h2 h3
  have h4 := eucl_psd hD hμ hle E
  have h5 : √σ * eucl w ≤ eucl (M *ᵥ w) := by
    apply le_of_sq_le_sq _ (eucl_nonneg _)
    rw [mul_pow, hss, eucl_sq, eucl_sq]
    exact hM w
  have k := eucl_nonneg w
  have k' := eucl_nonneg (M *ᵥ w)
  obtain ⟨G, hG⟩ : ∃ G, G = eucl (Mᵀ *ᵥ re) + μ * eucl E := ⟨_, rfl⟩
  have hG0 : 0 ≤ G := by rw [hG]; exact add_nonneg (eucl_nonneg _) (mul_nonneg hμ (eucl_nonneg _))
  have h6 : eucl (M *ᵥ w) ^ 2 ≤ eucl (M *ᵥ w) * eucl u + eucl w * G := by
    have : eucl w * eucl (D *ᵥ E) ≤ eucl w * (μ * eucl E) := mul_le_mul_of_nonneg_left h4 k
    rw [eucl_sq, hG]
    nlinarith
  have h7 : eucl w ≤ eucl (M *ᵥ w) / √σ := by rw [le_div_iff₀ hs]; linarith
  have h8 : eucl (M *ᵥ w) ≤ eucl u + G / √σ := by
    rcases k'.eq_or_lt with h | h
    · rw [← h]; exact add_nonneg (eucl_nonneg _) (div_nonneg hG0 hs.le)
    · have : eucl (M *ᵥ w) * eucl (M *ᵥ w) ≤ eucl (M *ᵥ w) * (eucl u + G / √σ) := by
        have := mul_le_mul_of_nonneg_right h7 hG0
        calc _ = eucl (M *ᵥ w) ^ 2 := (sq _).symm
          _ ≤ _ := h6
          _ ≤ eucl (M *ᵥ w) * eucl u + eucl (M *ᵥ w) / √σ * G := by linarith
          _ = _ := by ring
      exact le_of_mul_le_mul_left this h
  rw [← hG]
  calc eucl w ≤ eucl (M *ᵥ w) / √σ := h7
    _ ≤ (eucl u + G / √σ) / √σ := div_le_div_of_nonneg_right h8 hs.le
    _ = eucl u / √σ + G / (√σ ^ 2) := by field_simp
    _ = _ := by rw [hss]

theorem storageDist_eq {a b : Assign ℝ} (ha : a.storage.length = n) (hb : b.storage.length = n) :
    storageDist a b = eucl (Spec.vec a.storage n - Spec.vec b.storage n) := by
  unfold storageDist eucl
  rw [sqNorm_eq (n := n) (by simp [ha, hb]), vec_sub_list ha hb]

/-- Taylor's theorem along a path: if the derivative at `t` differs from that at `0` by at most `K t`, the linearization at `0` is
wrong by at most `K/2` at `1`. -/
theorem taylor_bound {h h' : ℝ → Fin m → ℝ} (hd : ∀ t, HasDerivAt h (h' t) t) {K : ℝ}
    (hK : ∀ t, 0 ≤ t → t ≤ 1 → eucl (h' t - h' 0) ≤ K * t) : eucl (h 1 - h 0 - h' 0) ≤ K / 2 := by
  obtain ⟨u, hu⟩ : ∃ u, u = h 1 - h 0 - h' 0 := ⟨_, rfl⟩
  rw [← hu]
  have hdot : ∀ t, HasDerivAt (fun t => u ⬝ᵥ h t) (u ⬝ᵥ h' t) t := fun t => by
    simp only [dotProduct]
    exact HasDerivAt.fun_sum fun i _ => ((hasDerivAt_pi.1 (hd t)) i).const_mul (u i)
  let ψ : ℝ → ℝ := fun t => eucl u * (K / 2) * t ^ 2 - (u ⬝ᵥ h t - (u ⬝ᵥ h' 0) * t)
  have hψ : ∀ t, HasDerivAt ψ (eucl u * (K / 2) * (2 * t) - (u ⬝ᵥ h' t - (u ⬝ᵥ h' 0) * 1)) t := fun t => by
    refine HasDerivAt.sub ?_ ((hdot t).sub ((hasDerivAt_id t).const_mul _))
    simpa using (hasDerivAt_pow 2 t).const_mul (eucl u * (K / 2))
  have hmono : MonotoneOn ψ (Set.Icc 0 1) := by
    refine monotoneOn_of_deriv_nonneg (convex_Icc 0 1) (fun t _ => (hψ t).continuousAt.continuousWithinAt)
      (fun t _ => (hψ t).differentiableAt.differentiableWithinAt) fun t ht => ?_
    rw [interior_Icc] at ht
    rw [(hψ t).deriv]
    have k1 := dot_le_eucl u (h' t - h' 0)
    rw [dotProduct_sub] at k1
    have k2 := mul_le_mul_of_nonneg_left (hK t ht.1.le ht.2.le) (eucl_nonneg u)
    nlinarith
  have h01 := hmono (Set.left_mem_Icc.2 zero_le_one) (Set.right_mem_Icc.2 zero_le_one) zero_le_one
  have e : eucl u ^ 2 = u ⬝ᵥ h 1 - u ⬝ᵥ h 0 - u ⬝ᵥ h' 0 := by
    rw [eucl_sq]; conv_lhs => rw [show u ⬝ᵥ u = u ⬝ᵥ (h 1 - h 0 - h' 0) by rw [← hu]]
    rw [dotProduct_sub, dotProduct_sub]
  simp only [ψ] at h01
  have k := eucl_nonneg u
  rcases k.eq_or_lt with h0 | h0
  · rw [← h0]
    have := (eucl_nonneg _).trans (hK 1 zero_le_one le_rfl)
    linarith
  · have : eucl u * eucl u ≤ eucl u * (K / 2) := by nlinarith
    exact le_of_mul_le_mul_left this h0

/-- A bound for a matrix bounds its transpose. -/
theorem eucl_transpose {B : Matrix (Fin m) (Fin n) ℝ} {K : ℝ} (hK : 0 ≤ K) (hB : ∀ v, eucl (B *ᵥ v) ≤ K * eucl v) (w : Fin m → ℝ) :
    eucl (Bᵀ *ᵥ w) ≤ K * eucl w := by
  have k := eucl_nonneg (Bᵀ *ᵥ w)
  have h1 : eucl (Bᵀ *ᵥ w) ^ 2 = (B *ᵥ (Bᵀ *ᵥ w)) ⬝ᵥ w := by
    rw [eucl_sq, dotProduct_mulVec, vecMul_transpose]
  have h2 := dot_le_eucl (B *ᵥ (Bᵀ *ᵥ w)) w
  have h3 := mul_le_mul_of_nonneg_right (hB (Bᵀ *ᵥ w)) (eucl_nonneg w)
  rcases k.eq_or_lt with h0 | h0
  · rw [← h0]; exact mul_nonneg hK (eucl_nonneg w)
  · have : eucl (Bᵀ *ᵥ w) * eucl (Bᵀ *ᵥ w) ≤ eucl (Bᵀ *ᵥ w) * (K * eucl w) := by nlinarith
    exact le_of_mul_le_mul_left this h0

end Jaxfg
