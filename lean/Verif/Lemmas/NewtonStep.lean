/- A Gauss-Newton step near an exact fit, in local coordinates in which two steps add up only to first order. -/
import Verif.Lemmas.LocalDamped
import Verif.Spec.DefaultJacobian
import Mathlib.Analysis.Calculus.FDeriv.Basic
import Mathlib.Topology.Instances.Matrix

namespace Jaxfg
open Spec Filter Topology
open Matrix hiding vec
variable {m n : Nat}

theorem norm_le_eucl (v : Fin n → ℝ) : ‖v‖ ≤ eucl v := by
  rw [pi_norm_le_iff_of_nonneg (eucl_nonneg v)]
  intro i
  rw [Real.norm_eq_abs]
  refine abs_le_of_sq_le_sq ?_ (eucl_nonneg v)
  rw [eucl_sq, dotProduct, sq]
  exact Finset.single_le_sum (f := fun i => v i * v i) (fun i _ => mul_self_nonneg _) (Finset.mem_univ i)

theorem eucl_le_norm (v : Fin n → ℝ) : eucl v ≤ √n * ‖v‖ := by
  apply Real.sqrt_le_iff.2
  refine ⟨by positivity, ?_⟩
  rw [mul_pow, Real.sq_sqrt (by positivity), dotProduct]
  refine (Finset.sum_le_sum (g := fun _ => ‖v‖ ^ 2) fun i _ => ?_).trans (by simp)
  have := norm_le_pi_norm v i
  rw [Real.norm_eq_abs] at this
  rw [← sq, ← sq_abs]
  exact pow_le_pow_left₀ (abs_nonneg _) this 2

theorem eucl_frob (M : Matrix (Fin m) (Fin n) ℝ) (v : Fin n → ℝ) : eucl (M *ᵥ v) ≤ √(∑ i, ∑ j, M i j * M i j) * eucl v := by
  have h0 : 0 ≤ ∑ i, ∑ j, M i j * M i j := Finset.sum_nonneg fun i _ => Finset.sum_nonneg fun j _ => mul_self_nonneg _
  unfold eucl
  rw [← Real.sqrt_mul h0]
  refine Real.sqrt_le_sqrt ?_
  rw [Finset.sum_mul]
  show ∑ i, _ ≤ _
  refine Finset.sum_le_sum fun i _ => ?_
  have := dot_sq_le (fun j => M i j) v
  rw [sq] at this
  exact this

/-- Matrices whose entries converge are near the limit as maps. -/
theorem near_matrix {A : (Fin n → ℝ) → Matrix (Fin m) (Fin n) ℝ} {A₀ : Matrix (Fin m) (Fin n) ℝ}
    (hA : ∀ k j, Tendsto (fun d => A d k j) (𝓝 0) (𝓝 (A₀ k j))) {η : ℝ} (hη : 0 < η) :
    ∀ᶠ d in 𝓝 0, ∀ v, eucl (A d *ᵥ v - A₀ *ᵥ v) ≤ η * eucl v := by
  have h1 : Tendsto (fun d => √(∑ i, ∑ j, (A d - A₀) i j * (A d - A₀) i j)) (𝓝 0) (𝓝 0) := by
    have h2 : Tendsto (fun d => ∑ i, ∑ j, (A d - A₀) i j * (A d - A₀) i j) (𝓝 0) (𝓝 (∑ i : Fin m, ∑ j : Fin n, (0 : ℝ))) := by
      refine tendsto_finsetSum _ fun i _ => tendsto_finsetSum _ fun j _ => ?_
      have h3 : Tendsto (fun d => (A d - A₀) i j) (𝓝 0) (𝓝 0) := by
        have := (hA i j).sub_const (A₀ i j)
        simpa using this
      simpa using h3.mul h3
    have h4 := h2.sqrt
    simpa using h4
  filter_upwards [h1.eventually (gt_mem_nhds hη)] with d hd v
  rw [← sub_mulVec]
  exact (eucl_frob _ v).trans (mul_le_mul_of_nonneg_right hd.le (eucl_nonneg v))

/-- A function that is zero at zero and has a derivative there, in Euclidean norms. -/
theorem near_linear {r : (Fin n → ℝ) → Fin m → ℝ} {A₀ : Matrix (Fin m) (Fin n) ℝ} (hr : HasFDerivAt r (mulVecL A₀) 0) (h0 : r 0 = 0)
    {η : ℝ} (hη : 0 < η) : ∀ᶠ d in 𝓝 0, eucl (r d - A₀ *ᵥ d) ≤ η * eucl d := by
  have h1 := hr.isLittleO
  have hpos : 0 < η / (√m + 1) := by positivity
  filter_upwards [h1.def hpos] with d hd
  rw [h0, sub_zero, sub_zero] at hd
  have hd' : ‖r d - A₀ *ᵥ d‖ ≤ η / (√m + 1) * ‖d‖ := hd
  have h2 := norm_le_eucl d
  calc eucl (r d - A₀ *ᵥ d) ≤ √m * ‖r d - A₀ *ᵥ d‖ := eucl_le_norm _
    _ ≤ (√m + 1) * (η / (√m + 1) * ‖d‖) := by
      refine mul_le_mul (by linarith) hd' (norm_nonneg _) (by positivity)
    _ = η * ‖d‖ := by field_simp
    _ ≤ η * eucl d := mul_le_mul_of_nonneg_left h2 hη.le

/-- A step that solves the normal equations with damping at most `μ` at the local coordinates `d` goes back by `d`, up to a factor that
is as close to `μ / (σ + μ)` as one likes. -/
theorem newton_step {r : (Fin n → ℝ) → Fin m → ℝ} {A : (Fin n → ℝ) → Matrix (Fin m) (Fin n) ℝ} {A₀ : Matrix (Fin m) (Fin n) ℝ}
    (hr : HasFDerivAt r (mulVecL A₀) 0) (h0 : r 0 = 0) (hA : ∀ k j, Tendsto (fun d => A d k j) (𝓝 0) (𝓝 (A₀ k j))) {σ μ κ : ℝ}
    (hσ : 0 < σ) (hμ : 0 ≤ μ) (hst : ∀ v, σ * (v ⬝ᵥ v) ≤ (A₀ *ᵥ v) ⬝ᵥ (A₀ *ᵥ v)) (hκ : μ / (σ + μ) < κ) :
    ∀ᶠ d in 𝓝 0, ∀ ν, 0 ≤ ν → ν ≤ μ → ∀ x, ((A d)ᵀ * A d + ν • (1 : Matrix (Fin n) (Fin n) ℝ)) *ᵥ x = descent (A d) (r d) →
      eucl (d + x) ≤ κ * eucl d := by
  have hs : 0 < √σ := Real.sqrt_pos.2 hσ
  have hss : √σ ^ 2 = σ := Real.sq_sqrt hσ.le
  obtain ⟨η, ⟨hη1, hη2⟩, hη0⟩ : ∃ η : ℝ, (2 * η / (√σ - η) + μ / ((√σ - η) ^ 2 + μ) < κ ∧ η < √σ) ∧ 0 < η := by
    have hc : ContinuousAt (fun η : ℝ => 2 * η / (√σ - η) + μ / ((√σ - η) ^ 2 + μ)) 0 := by
      refine ContinuousAt.add (ContinuousAt.div (by fun_prop) (by fun_prop) (by simpa using hs.ne'))
        (ContinuousAt.div (by fun_prop) (by fun_prop) ?_)
      rw [sub_zero, hss]
      linarith
    have e1 : ∀ᶠ η in 𝓝 (0 : ℝ), 2 * η / (√σ - η) + μ / ((√σ - η) ^ 2 + μ) < κ := by
      refine hc.eventually (gt_mem_nhds ?_)
      simp only [mul_zero, zero_div, zero_add, sub_zero, hss]
      exact hκ
    have e2 : ∀ᶠ η in 𝓝 (0 : ℝ), η < √σ := gt_mem_nhds hs
    have e3 : ∀ᶠ η in 𝓝[>] (0 : ℝ), (2 * η / (√σ - η) + μ / ((√σ - η) ^ 2 + μ) < κ ∧ η < √σ) ∧ 0 < η :=
      (((e1.and e2).filter_mono nhdsWithin_le_nhds)).and self_mem_nhdsWithin
    exact e3.exists
  filter_upwards [near_matrix hA hη0, near_linear hr h0 hη0] with d h1 h2 ν hν hνμ x hx
  have hpos : 0 < √σ - η := by linarith
  have hst' : ∀ v, (√σ - η) ^ 2 * (v ⬝ᵥ v) ≤ (A d *ᵥ v) ⬝ᵥ (A d *ᵥ v) := by
    intro v
    rw [← eucl_sq, ← eucl_sq, ← mul_pow]
    refine pow_le_pow_left₀ (mul_nonneg hpos.le (eucl_nonneg v)) ?_ 2
    have k1 : √σ * eucl v ≤ eucl (A₀ *ᵥ v) := by
      refine le_of_sq_le_sq ?_ (eucl_nonneg _)
      rw [mul_pow, hss, eucl_sq, eucl_sq]
      exact hst v
    have k2 := eucl_add_le (A d *ᵥ v) (-(A d *ᵥ v - A₀ *ᵥ v))
    rw [eucl_neg, show A d *ᵥ v + -(A d *ᵥ v - A₀ *ᵥ v) = A₀ *ᵥ v by abel] at k2
    linarith [h1 v]
  have key := local_damped (by positivity : 0 < (√σ - η) ^ 2) hν hst' hx (-d) 0
  rw [Real.sqrt_sq hpos.le, mulVec_zero, eucl_neg, sub_neg_eq_add, add_comm x d, zero_sub, mulVec_neg, sub_neg_eq_add] at key
  have hz : eucl (0 : Fin n → ℝ) = 0 := by simp [eucl]
  rw [hz, zero_add] at key
  have k3 : eucl (-r d + A d *ᵥ d) ≤ 2 * η * eucl d := by
    have k4 := eucl_add_le (-(r d - A₀ *ᵥ d)) (A d *ᵥ d - A₀ *ᵥ d)
    rw [eucl_neg, show -(r d - A₀ *ᵥ d) + (A d *ᵥ d - A₀ *ᵥ d) = -r d + A d *ᵥ d by abel] at k4
    linarith [h1 d]
  have k5 : ν / ((√σ - η) ^ 2 + ν) ≤ μ / ((√σ - η) ^ 2 + μ) := by
    have hsq : 0 < (√σ - η) ^ 2 := by positivity
    rw [div_le_div_iff₀ (by linarith) (by linarith)]
    nlinarith
  calc eucl (d + x) ≤ eucl (-r d + A d *ᵥ d) / (√σ - η) + ν * eucl d / ((√σ - η) ^ 2 + ν) := key
    _ = eucl (-r d + A d *ᵥ d) / (√σ - η) + ν / ((√σ - η) ^ 2 + ν) * eucl d := by ring
    _ ≤ 2 * η * eucl d / (√σ - η) + μ / ((√σ - η) ^ 2 + μ) * eucl d :=
      add_le_add (div_le_div_of_nonneg_right k3 hpos.le) (mul_le_mul_of_nonneg_right k5 (eucl_nonneg d))
    _ = (2 * η / (√σ - η) + μ / ((√σ - η) ^ 2 + μ)) * eucl d := by ring
    _ ≤ κ * eucl d := mul_le_mul_of_nonneg_right hη1.le (eucl_nonneg d)

/-- The same if the step `x` from the coordinates `d` leads to coordinates that are `d + x` only to first order. -/
theorem newton_contracts {r : (Fin n → ℝ) → Fin m → ℝ} {A : (Fin n → ℝ) → Matrix (Fin m) (Fin n) ℝ} {A₀ : Matrix (Fin m) (Fin n) ℝ}
    (hr : HasFDerivAt r (mulVecL A₀) 0) (h0 : r 0 = 0) (hA : ∀ k j, Tendsto (fun d => A d k j) (𝓝 0) (𝓝 (A₀ k j))) {σ μ κ : ℝ}
    (hσ : 0 < σ) (hμ : 0 ≤ μ) (hst : ∀ v, σ * (v ⬝ᵥ v) ≤ (A₀ *ᵥ v) ⬝ᵥ (A₀ *ᵥ v)) (hκ : μ / (σ + μ) < κ)
    {R : (Fin n → ℝ) → (Fin n → ℝ) → (Fin n → ℝ) → Prop}
    (hR : ∀ θ > 0, ∀ᶠ p : (Fin n → ℝ) × (Fin n → ℝ) in 𝓝 0, ∃ d', R p.1 p.2 d' ∧ eucl (d' - (p.1 + p.2)) ≤ θ * (eucl p.1 + eucl p.2)) :
    ∃ ε > 0, ∀ d, eucl d < ε → ∀ x, ((A d)ᵀ * A d + μ • (1 : Matrix (Fin n) (Fin n) ℝ)) *ᵥ x = descent (A d) (r d) →
      ∃ d', R d x d' ∧ eucl d' ≤ κ * eucl d := by
  obtain ⟨ρ, hρ⟩ : ∃ ρ, ρ = (μ / (σ + μ) + κ) / 2 := ⟨_, rfl⟩
  have hρ1 : μ / (σ + μ) < ρ := by linarith
  have hρ2 : ρ < κ := by linarith
  have hμσ : 0 ≤ μ / (σ + μ) := by positivity
  have hθ : 0 < (κ - ρ) / (2 + ρ) := div_pos (by linarith) (by linarith)
  obtain ⟨ε₁, hε₁, h1⟩ := Metric.eventually_nhds_iff.1 (newton_step hr h0 hA hσ hμ hst hρ1)
  obtain ⟨ε₂, hε₂, h2⟩ := Metric.eventually_nhds_iff.1 (hR _ hθ)
  refine ⟨min ε₁ (ε₂ / (1 + ρ)), lt_min hε₁ (div_pos hε₂ (by linarith)), fun d hd x hx => ?_⟩
  have hd1 : eucl d < ε₁ := hd.trans_le (min_le_left _ _)
  have hd2 : eucl d < ε₂ / (1 + ρ) := hd.trans_le (min_le_right _ _)
  rw [lt_div_iff₀ (by linarith)] at hd2
  have hn := eucl_nonneg d
  have k1 := h1 (y := d) (by rw [dist_zero_right]; exact (norm_le_eucl d).trans_lt hd1) μ hμ le_rfl x hx
  have k2 : eucl x ≤ (1 + ρ) * eucl d := by
    have := eucl_add_le (d + x) (-d)
    rw [eucl_neg, show d + x + -d = x by abel] at this
    linarith
  obtain ⟨d', hd', k3⟩ := h2 (y := (d, x)) (by
    rw [dist_zero_right, Prod.norm_def]
    refine max_lt ((norm_le_eucl d).trans_lt ?_) ((norm_le_eucl x).trans_lt ?_)
    · nlinarith
    · linarith)
  refine ⟨d', hd', ?_⟩
  have k4 := eucl_add_le (d + x) (d' - (d + x))
  rw [add_sub_cancel] at k4
  have k5 : (κ - ρ) / (2 + ρ) * (eucl d + eucl x) ≤ (κ - ρ) * eucl d := by
    calc (κ - ρ) / (2 + ρ) * (eucl d + eucl x) ≤ (κ - ρ) / (2 + ρ) * ((2 + ρ) * eucl d) :=
          mul_le_mul_of_nonneg_left (by linarith) hθ.le
      _ = (κ - ρ) * eucl d := by
          have : 2 + ρ ≠ 0 := by linarith
          field_simp
  simp only at k3
  linarith

/-- How much a decrease falls short of a predicted one. -/
theorem share_bound {c w U N B δ T q : ℝ} (hw : 0 ≤ w) (hN : 0 ≤ N) (hδ0 : 0 ≤ δ) (hδ1 : δ ≤ 1) (h : w ≤ U + δ * N)
    (hUB : U ≤ (B + 1) * N) (hT : δ * (2 * B + 3) ≤ T) (hdec : T * N ^ 2 ≤ (1 - q) * (c - U ^ 2)) : q * (c - U ^ 2) ≤ c - w ^ 2 := by
  have b1 : w ^ 2 ≤ (U + δ * N) ^ 2 := pow_le_pow_left₀ hw h 2
  have c2 : δ * N * U ≤ δ * N * ((B + 1) * N) := mul_le_mul_of_nonneg_left hUB (by positivity)
  have c3 : δ * δ * N ^ 2 ≤ δ * 1 * N ^ 2 := by gcongr
  have c4 : δ * (2 * B + 3) * N ^ 2 ≤ T * N ^ 2 := mul_le_mul_of_nonneg_right hT (by positivity)
  have e1 : (U + δ * N) ^ 2 = U ^ 2 + 2 * (δ * N * U) + δ * δ * N ^ 2 := by ring
  have e2 : 2 * (δ * N * ((B + 1) * N)) + δ * 1 * N ^ 2 = δ * (2 * B + 3) * N ^ 2 := by ring
  have e3 : (1 - q) * (c - U ^ 2) = (c - U ^ 2) - q * (c - U ^ 2) := by ring
  linarith

/-- The error of a linear prediction of the residual after a step. -/
theorem error_bound {rd rd' : Fin m → ℝ} {M A₀ : Matrix (Fin m) (Fin n) ℝ} {d d' x : Fin n → ℝ} {B δ η θ : ℝ} (hB0 : 0 ≤ B)
    (hB : ∀ v, eucl (A₀ *ᵥ v) ≤ B * eucl v) (hδ0 : 0 ≤ δ) (hηδ : η ≤ δ / 8) (hθB : θ * (6 * (B + 1)) ≤ δ)
    (k2 : ∀ v, eucl (M *ᵥ v - A₀ *ᵥ v) ≤ η * eucl v) (k3 : eucl (rd - A₀ *ᵥ d) ≤ η * eucl d)
    (k11 : eucl (rd' - A₀ *ᵥ d') ≤ η * eucl d') (k5' : eucl x ≤ 2 * eucl d) (k8 : eucl (d' - (d + x)) ≤ θ * (3 * eucl d))
    (k10 : eucl d' ≤ eucl d) : eucl rd' ≤ eucl (M *ᵥ x + rd) + δ * eucl d := by
  have hn := eucl_nonneg d
  have e1 : rd' = (M *ᵥ x + rd) + ((rd' - A₀ *ᵥ d') + (A₀ *ᵥ (d' - (d + x)) + (-(M *ᵥ x - A₀ *ᵥ x) + -(rd - A₀ *ᵥ d)))) := by
    rw [mulVec_sub, mulVec_add]; abel
  have a1 := eucl_add_le (M *ᵥ x + rd) ((rd' - A₀ *ᵥ d') + (A₀ *ᵥ (d' - (d + x)) + (-(M *ᵥ x - A₀ *ᵥ x) + -(rd - A₀ *ᵥ d))))
  have a2 := eucl_add_le (rd' - A₀ *ᵥ d') (A₀ *ᵥ (d' - (d + x)) + (-(M *ᵥ x - A₀ *ᵥ x) + -(rd - A₀ *ᵥ d)))
  have a3 := eucl_add_le (A₀ *ᵥ (d' - (d + x))) (-(M *ᵥ x - A₀ *ᵥ x) + -(rd - A₀ *ᵥ d))
  have a4 := eucl_add_le (-(M *ᵥ x - A₀ *ᵥ x)) (-(rd - A₀ *ᵥ d))
  rw [eucl_neg, eucl_neg] at a4
  rw [← e1] at a1
  have a5 : eucl (A₀ *ᵥ (d' - (d + x))) ≤ δ / 2 * eucl d := by
    refine (hB _).trans ((mul_le_mul_of_nonneg_left k8 hB0).trans ?_)
    have k12 : 0 ≤ θ * (3 * eucl d) := (eucl_nonneg _).trans k8
    have k13 := mul_le_mul_of_nonneg_right hθB hn
    have k14 : θ * (6 * (B + 1)) * eucl d = 2 * (B * (θ * (3 * eucl d))) + 2 * (θ * (3 * eucl d)) := by ring
    linarith
  have a6 : η * eucl x ≤ δ / 4 * eucl d := by
    have := mul_le_mul hηδ k5' (eucl_nonneg x) (by positivity)
    linarith
  have a7 : η * eucl d ≤ δ / 8 * eucl d := mul_le_mul_of_nonneg_right hηδ hn
  have a8 : η * eucl d' ≤ δ / 8 * eucl d := mul_le_mul hηδ k10 (eucl_nonneg _) (by positivity)
  have a9 := k2 x
  linarith

/-- Stiffness of a matrix near a stiff one. -/
theorem stiff_near {M A₀ : Matrix (Fin m) (Fin n) ℝ} {σ η : ℝ} (hσ : 0 < σ) (hst : ∀ v, σ * (v ⬝ᵥ v) ≤ (A₀ *ᵥ v) ⬝ᵥ (A₀ *ᵥ v))
    (hησ : η ≤ √σ / 2) (k2 : ∀ v, eucl (M *ᵥ v - A₀ *ᵥ v) ≤ η * eucl v) : ∀ v, σ / 4 * (v ⬝ᵥ v) ≤ (M *ᵥ v) ⬝ᵥ (M *ᵥ v) := by
  have hss : √σ ^ 2 = σ := Real.sq_sqrt hσ.le
  intro v
  have k4 : √σ * eucl v ≤ eucl (A₀ *ᵥ v) := by
    refine le_of_sq_le_sq ?_ (eucl_nonneg _)
    rw [mul_pow, hss, eucl_sq, eucl_sq]
    exact hst v
  have k5 := eucl_add_le (M *ᵥ v) (-(M *ᵥ v - A₀ *ᵥ v))
  rw [eucl_neg, show M *ᵥ v + -(M *ᵥ v - A₀ *ᵥ v) = A₀ *ᵥ v by abel] at k5
  have hv := eucl_nonneg v
  have k6 : √σ / 2 * eucl v ≤ eucl (M *ᵥ v) := by
    have := mul_le_mul_of_nonneg_right hησ hv
    linarith [k2 v]
  have k7 := pow_le_pow_left₀ (by positivity) k6 2
  rw [mul_pow, div_pow, hss, eucl_sq, eucl_sq] at k7
  linarith

/-- A damped step near an exact fit achieves almost all of the decrease that the linearization predicts. -/
theorem newton_accepts {r : (Fin n → ℝ) → Fin m → ℝ} {A : (Fin n → ℝ) → Matrix (Fin m) (Fin n) ℝ} {A₀ : Matrix (Fin m) (Fin n) ℝ}
    (hr : HasFDerivAt r (mulVecL A₀) 0) (h0 : r 0 = 0) (hA : ∀ k j, Tendsto (fun d => A d k j) (𝓝 0) (𝓝 (A₀ k j))) {σ μ κ q : ℝ}
    (hσ : 0 < σ) (hμ : 0 ≤ μ) (hst : ∀ v, σ * (v ⬝ᵥ v) ≤ (A₀ *ᵥ v) ⬝ᵥ (A₀ *ᵥ v)) (hκ : μ / (σ + μ) < κ) (hκ1 : κ < 1) (hq : q < 1)
    {R : (Fin n → ℝ) → (Fin n → ℝ) → (Fin n → ℝ) → Prop}
    (hR : ∀ θ > 0, ∀ᶠ p : (Fin n → ℝ) × (Fin n → ℝ) in 𝓝 0, ∃ d', R p.1 p.2 d' ∧ eucl (d' - (p.1 + p.2)) ≤ θ * (eucl p.1 + eucl p.2)) :
    ∃ τ > 0, ∃ ε > 0, ∀ d, eucl d < ε → ∀ ν, 0 ≤ ν → ∀ x,
      ((A d)ᵀ * A d + ν • (1 : Matrix (Fin n) (Fin n) ℝ)) *ᵥ x = descent (A d) (r d) →
      modelCost (A d) (r d) x ≤ r d ⬝ᵥ r d ∧ (eucl d = 0 → eucl x = 0) ∧ (ν ≤ μ → ∃ d', R d x d' ∧ eucl d' ≤ κ * eucl d ∧ eucl x ≤ 2 * eucl d ∧
        (1 - κ) * eucl d ≤ eucl x ∧ τ * (r d ⬝ᵥ r d) ≤ r d ⬝ᵥ r d - modelCost (A d) (r d) x ∧
        (0 < eucl d → modelCost (A d) (r d) x < r d ⬝ᵥ r d) ∧
        q * (r d ⬝ᵥ r d - modelCost (A d) (r d) x) ≤ r d ⬝ᵥ r d - r d' ⬝ᵥ r d') := by
  obtain ⟨ρ, hρ⟩ : ∃ ρ, ρ = (μ / (σ + μ) + κ) / 2 := ⟨_, rfl⟩
  have hρ1 : μ / (σ + μ) < ρ := by linarith
  have hρ2 : ρ < κ := by linarith
  have hμσ : 0 ≤ μ / (σ + μ) := by positivity
  have hs : 0 < √σ := Real.sqrt_pos.2 hσ
  obtain ⟨B, hB0, hB⟩ : ∃ B : ℝ, 0 ≤ B ∧ ∀ v, eucl (A₀ *ᵥ v) ≤ B * eucl v := ⟨_, Real.sqrt_nonneg _, eucl_frob A₀⟩
  obtain ⟨T, hT⟩ : ∃ T, T = (1 - q) * (σ / 4 * (1 - ρ) ^ 2) := ⟨_, rfl⟩
  have hTpos : 0 < T := by
    rw [hT]
    have : 0 < (1 - ρ) ^ 2 := by have : 0 < 1 - ρ := by linarith
                                 positivity
    have : 0 < 1 - q := by linarith
    positivity
  obtain ⟨δ, hδ⟩ : ∃ δ, δ = min 1 (T / (2 * B + 3)) := ⟨_, rfl⟩
  have hδ0 : 0 < δ := by rw [hδ]; exact lt_min one_pos (by positivity)
  have hδ1 : δ ≤ 1 := by rw [hδ]; exact min_le_left _ _
  have hδT : δ * (2 * B + 3) ≤ T := by
    rw [← le_div_iff₀ (by positivity), hδ]; exact min_le_right _ _
  obtain ⟨η, hη⟩ : ∃ η, η = min (δ / 8) (√σ / 2) := ⟨_, rfl⟩
  have hη0 : 0 < η := by rw [hη]; exact lt_min (by positivity) (by positivity)
  have hηδ : η ≤ δ / 8 := by rw [hη]; exact min_le_left _ _
  have hησ : η ≤ √σ / 2 := by rw [hη]; exact min_le_right _ _
  obtain ⟨θ, hθ⟩ : ∃ θ, θ = min ((κ - ρ) / 3) (δ / (6 * (B + 1))) := ⟨_, rfl⟩
  have hθ0 : 0 < θ := by rw [hθ]; exact lt_min (by linarith) (by positivity)
  have hθκ : θ ≤ (κ - ρ) / 3 := by rw [hθ]; exact min_le_left _ _
  have hθB : θ * (6 * (B + 1)) ≤ δ := by
    rw [← le_div_iff₀ (by positivity), hθ]; exact min_le_right _ _
  obtain ⟨ε₁, hε₁, h1⟩ := Metric.eventually_nhds_iff.1 ((newton_step hr h0 hA hσ hμ hst hρ1).and
    ((near_matrix hA hη0).and (near_linear hr h0 hη0)))
  obtain ⟨ε₂, hε₂, h2⟩ := Metric.eventually_nhds_iff.1 (hR _ hθ0)
  have hρ1 : 0 < 1 - ρ := by linarith
  refine ⟨σ / 4 * (1 - ρ) ^ 2 / (B + 1) ^ 2, by positivity, min ε₁ (ε₂ / 2), lt_min hε₁ (by positivity), fun d hd ν hν x hx => ?_⟩
  have hd1 : eucl d < ε₁ := hd.trans_le (min_le_left _ _)
  have hd2 : eucl d < ε₂ / 2 := hd.trans_le (min_le_right _ _)
  have hn := eucl_nonneg d
  obtain ⟨k1, k2, k3⟩ := h1 (y := d) (by rw [dist_zero_right]; exact (norm_le_eucl d).trans_lt hd1)
  -- the matrix is stiff here as well
  have hst' := stiff_near hσ hst hησ k2
  obtain ⟨s1, s2⟩ := stiff_bounds hν hst' hx
  refine ⟨?_, fun hz => ?_, fun hνμ => ?_⟩
  · have : 0 ≤ σ / 4 * (x ⬝ᵥ x) := mul_nonneg (by positivity) (dot_self_nonneg x)
    linarith
  · have hd0 : d = 0 := by
      have := norm_le_eucl d
      rw [hz] at this
      exact norm_le_zero_iff.1 this
    rw [hd0, h0, dotProduct_zero, ← eucl_sq] at s2
    have : eucl x ^ 2 ≤ 0 := by nlinarith
    nlinarith [eucl_nonneg x]
  have k4 := k1 ν hν hνμ x hx
  have k5 : eucl x ≤ (1 + ρ) * eucl d := by
    have := eucl_add_le (d + x) (-d)
    rw [eucl_neg, show d + x + -d = x by abel] at this
    linarith
  have k6 : (1 - ρ) * eucl d ≤ eucl x := by
    have := eucl_add_le (d + x) (-x)
    rw [eucl_neg, show d + x + -x = d by abel] at this
    linarith
  have k5' : eucl x ≤ 2 * eucl d := k5.trans (mul_le_mul_of_nonneg_right (by linarith) hn)
  obtain ⟨d', hd', (k7 : eucl (d' - (d + x)) ≤ θ * (eucl d + eucl x))⟩ := h2 (y := (d, x)) (by
    rw [dist_zero_right, Prod.norm_def]
    refine max_lt ((norm_le_eucl d).trans_lt (by linarith)) ((norm_le_eucl x).trans_lt (by linarith)))
  have k8 : eucl (d' - (d + x)) ≤ θ * (3 * eucl d) := k7.trans (mul_le_mul_of_nonneg_left (by linarith) hθ0.le)
  have k9 : eucl d' ≤ κ * eucl d := by
    have := eucl_add_le (d + x) (d' - (d + x))
    rw [add_sub_cancel] at this
    have := mul_le_mul_of_nonneg_right hθκ hn
    linarith
  have k10 : eucl d' ≤ eucl d := k9.trans (mul_le_of_le_one_left hn hκ1.le)
  obtain ⟨-, -, k11⟩ := h1 (y := d') (by rw [dist_zero_right]; exact ((norm_le_eucl d').trans k10).trans_lt hd1)
  -- the prediction error
  obtain ⟨u, hu⟩ : ∃ u, u = A d *ᵥ x + r d := ⟨_, rfl⟩
  have hpred : modelCost (A d) (r d) x = eucl u ^ 2 := by rw [eucl_sq, hu]; rfl
  have hcost : r d ⬝ᵥ r d = eucl (r d) ^ 2 := (eucl_sq _).symm
  have hcost' : r d' ⬝ᵥ r d' = eucl (r d') ^ 2 := (eucl_sq _).symm
  have hdiff : eucl (r d') ≤ eucl u + δ * eucl d := by
    rw [hu]
    exact error_bound hB0 hB hδ0.le hηδ hθB k2 k3 k11 k5' k8 k10
  have hrd : eucl (r d) ≤ (B + 1) * eucl d := by
    have := eucl_add_le (A₀ *ᵥ d) (r d - A₀ *ᵥ d)
    rw [add_sub_cancel] at this
    have := hB d
    have : η * eucl d ≤ 1 * eucl d := mul_le_mul_of_nonneg_right (by linarith) hn
    linarith
  have hxx : (1 - ρ) ^ 2 * eucl d ^ 2 ≤ x ⬝ᵥ x := by
    rw [← eucl_sq, ← mul_pow]
    exact pow_le_pow_left₀ (mul_nonneg (by linarith) hn) k6 2
  have hdec : σ / 4 * ((1 - ρ) ^ 2 * eucl d ^ 2) ≤ r d ⬝ᵥ r d - modelCost (A d) (r d) x :=
    (mul_le_mul_of_nonneg_left hxx (by positivity)).trans s1
  have hur : eucl u ≤ eucl (r d) := by
    refine le_of_sq_le_sq ?_ (eucl_nonneg _)
    rw [← hpred, ← hcost]
    have : 0 ≤ σ / 4 * ((1 - ρ) ^ 2 * eucl d ^ 2) := by positivity
    linarith
  refine ⟨d', hd', k9, k5', (mul_le_mul_of_nonneg_right (by linarith) hn).trans k6, ?_, fun hpos => ?_, ?_⟩
  · refine le_trans ?_ hdec
    rw [hcost, ← mul_assoc]
    refine (mul_le_mul_of_nonneg_left (pow_le_pow_left₀ (eucl_nonneg _) hrd 2) (by positivity)).trans (le_of_eq ?_)
    rw [mul_pow, ← mul_assoc, div_mul_cancel₀ _ (by positivity)]
  · have : 0 < 1 - ρ := by linarith
    have : 0 < σ / 4 * ((1 - ρ) ^ 2 * eucl d ^ 2) := by positivity
    linarith
  · rw [hcost', hpred]
    refine share_bound (eucl_nonneg _) hn hδ0.le hδ1 hdiff (hur.trans hrd) hδT ?_
    rw [← hpred, hT]
    have := mul_le_mul_of_nonneg_left hdec (by linarith : 0 ≤ 1 - q)
    linarith

end Jaxfg
