/- How much a dogleg step, and an accepted step, lowers the cost. -/
import Verif.Lemmas.DampedStep
import Verif.Lemmas.SolverReal

namespace Jaxfg
open Spec Matrix
open Ext (fin)
variable {m n : Nat}

/-- An accepted step with a negative predicted change achieves its share of it. -/
theorem accepted_share {qmin c cost pred : ℝ} (hacc : Scal.le (fin qmin) (fin (c - cost) / fin (pred - cost)) = true)
    (h : pred < cost) : qmin * (cost - pred) ≤ cost - c := by
  rcases accept_fin.1 hacc with ⟨-, h2⟩ | ⟨h1, -⟩
  · rw [le_div_iff_of_neg (by linarith)] at h2
    linarith
  · linarith

/-- The step to `t` times the Cauchy point. -/
theorem cauchy_part {M : Matrix (Fin m) (Fin n) ℝ} {r : Fin m → ℝ} (h : descent M r ≠ 0) (t : ℝ) :
    let b := descent M r
    let α := (b ⬝ᵥ b) / ((M *ᵥ b) ⬝ᵥ (M *ᵥ b))
    modelCost M r (t • (α • b)) = r ⬝ᵥ r - (2 * t - t ^ 2) * (α * (b ⬝ᵥ b)) := by
  intro b α
  have hp : 0 < (M *ᵥ b) ⬝ᵥ (M *ᵥ b) := image_descent_pos h
  have e : α * ((M *ᵥ b) ⬝ᵥ (M *ᵥ b)) = b ⬝ᵥ b := div_mul_cancel₀ _ hp.ne'
  rw [modelCost_expand]
  simp only [mulVec_smul, smul_dotProduct, dotProduct_smul, smul_eq_mul]
  have e2 : t * (α * (t * (α * ((M *ᵥ b) ⬝ᵥ (M *ᵥ b))))) = t ^ 2 * (α * (b ⬝ᵥ b)) := by rw [e]; ring
  rw [show descent M r = b from rfl, e2]
  ring

/-- A dogleg step achieves the decrease of a damped step or, at the boundary of the region, the product of the radius and the norm of
the gradient. -/
theorem dogleg_decrease {M : Matrix (Fin m) (Fin n) ℝ} {D : Matrix (Fin n) (Fin n) ℝ} (hD : D.PosSemidef) {κ μ : ℝ} (hμ : 0 ≤ μ)
    (hM : ∀ v, (M *ᵥ v) ⬝ᵥ (M *ᵥ v) ≤ κ * (v ⬝ᵥ v)) (hle : ∀ v, v ⬝ᵥ D *ᵥ v ≤ μ * (v ⬝ᵥ v)) {r : Fin m → ℝ} {x d : Fin n → ℝ}
    (hx : (Mᵀ * M + D) *ᵥ x = descent M r) (h0 : descent M r ≠ 0)
    (hd : let a := ((descent M r ⬝ᵥ descent M r) / ((M *ᵥ descent M r) ⬝ᵥ (M *ᵥ descent M r))) • descent M r
      (∃ t : ℝ, 0 < t ∧ t ≤ 1 ∧ d = t • a) ∨ (∃ t : ℝ, 0 ≤ t ∧ t ≤ 1 ∧ d = a + t • (x - a))) :
    descent M r ⬝ᵥ descent M r ≤ (κ + μ) * (r ⬝ᵥ r - modelCost M r d) ∨
      √(d ⬝ᵥ d) * √(descent M r ⬝ᵥ descent M r) ≤ r ⬝ᵥ r - modelCost M r d := by
  have hb := dot_self_pos h0
  have hp := image_descent_pos h0
  have hc := cauchy_part h0
  have hMb := hM (descent M r)
  have hdec := damped_decrease hD hM hle hx
  obtain ⟨b, hbe⟩ : ∃ b, b = descent M r := ⟨_, rfl⟩
  simp only [← hbe] at hb hp hc hMb hdec hd ⊢
  obtain ⟨α, hα⟩ : ∃ α, α = (b ⬝ᵥ b) / ((M *ᵥ b) ⬝ᵥ (M *ᵥ b)) := ⟨_, rfl⟩
  simp only [← hα] at hc hd
  have hα0 : 0 < α := by rw [hα]; exact div_pos hb hp
  have e : α * ((M *ᵥ b) ⬝ᵥ (M *ᵥ b)) = b ⬝ᵥ b := by rw [hα]; exact div_mul_cancel₀ _ hp.ne'
  have hκα : 1 ≤ κ * α := by
    have h1 : b ⬝ᵥ b ≤ (κ * α) * (b ⬝ᵥ b) := by
      have := mul_le_mul_of_nonneg_left hMb hα0.le
      rw [e] at this
      linarith
    by_contra hlt
    have := mul_lt_mul_of_pos_right (not_le.1 hlt) hb
    linarith
  rcases hd with ⟨t, t0, t1, ht⟩ | ⟨t, t0, t1, ht⟩
  · right
    rw [ht, hc t]
    have e1 : √((t • (α • b)) ⬝ᵥ (t • (α • b))) = t * α * √(b ⬝ᵥ b) := by
      simp only [smul_dotProduct, dotProduct_smul, smul_eq_mul]
      rw [show t * (α * (t * (α * (b ⬝ᵥ b)))) = (t * α) ^ 2 * (b ⬝ᵥ b) by ring, Real.sqrt_mul (sq_nonneg _), Real.sqrt_sq (by positivity)]
    have e2 : t * α * √(b ⬝ᵥ b) * √(b ⬝ᵥ b) = t * (α * (b ⬝ᵥ b)) := by
      rw [mul_assoc, Real.mul_self_sqrt hb.le]; ring
    rw [e1, e2]
    have h3 : 0 ≤ t * (1 - t) * (α * (b ⬝ᵥ b)) := mul_nonneg (mul_nonneg t0.le (by linarith)) (by positivity)
    nlinarith only [h3]
  · left
    have hseg := modelCost_segment M r (α • b) x t0 t1
    rw [← ht] at hseg
    have h1 := hc 1
    rw [one_smul] at h1
    rw [h1] at hseg
    have hκμ : 0 < κ + μ := by
      by_contra hn
      have : κ * α ≤ 0 := mul_nonpos_of_nonpos_of_nonneg (by linarith) hα0.le
      linarith
    have h2 : b ⬝ᵥ b ≤ (κ + μ) * (α * (b ⬝ᵥ b)) := by
      have h3 : 1 ≤ (κ + μ) * α := by nlinarith only [hκα, mul_nonneg hμ hα0.le]
      calc b ⬝ᵥ b = 1 * (b ⬝ᵥ b) := (one_mul _).symm
        _ ≤ ((κ + μ) * α) * (b ⬝ᵥ b) := mul_le_mul_of_nonneg_right h3 hb.le
        _ = _ := by ring
    have h4 : (1 - t) * (α * (b ⬝ᵥ b)) + t * (r ⬝ᵥ r - modelCost M r x) ≤ r ⬝ᵥ r - modelCost M r d := by
      nlinarith only [hseg]
    calc b ⬝ᵥ b = (1 - t) * (b ⬝ᵥ b) + t * (b ⬝ᵥ b) := by ring
      _ ≤ (1 - t) * ((κ + μ) * (α * (b ⬝ᵥ b))) + t * ((κ + μ) * (r ⬝ᵥ r - modelCost M r x)) :=
        add_le_add (mul_le_mul_of_nonneg_left h2 (by linarith)) (mul_le_mul_of_nonneg_left hdec t0)
      _ = (κ + μ) * ((1 - t) * (α * (b ⬝ᵥ b)) + t * (r ⬝ᵥ r - modelCost M r x)) := by ring
      _ ≤ _ := mul_le_mul_of_nonneg_left h4 hκμ.le

theorem assign_map_inj {a b : Assign ℝ} (h : a.map fin = b.map fin) : a = b := by
  cases a; cases b
  simp only [Assign.map, Assign.mk.injEq] at h
  rw [List.map_injective_iff.2 fin_injective h.1, h.2]

theorem state_map_inj {p q : State ℝ} (h : p.map fin = q.map fin) : p = q := by
  cases p; cases q
  simp only [State.map, State.mk.injEq] at h
  obtain ⟨h1, h2, h3, h4, h5⟩ := h
  rw [h1, assign_map_inj h2, fin_injective h3, List.map_injective_iff.2 fin_injective h4, h5]

theorem lmState_map_inj {p q : LMState ℝ} (h : p.map fin = q.map fin) : p = q := by
  cases p; cases q
  simp only [LMState.map, LMState.mk.injEq] at h
  rw [state_map_inj h.1, fin_injective h.2]

theorem doglegState_map_inj {p q : DoglegState ℝ} (h : p.map fin = q.map fin) : p = q := by
  cases p; cases q
  simp only [DoglegState.map, DoglegState.mk.injEq] at h
  rw [state_map_inj h.1, fin_injective h.2]

end Jaxfg
