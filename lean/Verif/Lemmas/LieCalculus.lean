/- Limits and trigonometric identities used for the Lie groups. -/
import Verif.Model.Lie
import Mathlib.Analysis.Calculus.Deriv.Mul
import Mathlib.Analysis.Calculus.Deriv.Slope
import Mathlib.Analysis.Calculus.Deriv.Comp
import Mathlib.Analysis.SpecialFunctions.Trigonometric.Deriv
import Mathlib.Analysis.SpecialFunctions.Trigonometric.ArctanDeriv
import Mathlib.Analysis.SpecialFunctions.Complex.Arg

namespace Jaxfg.LieGroup
open Filter Topology

/-- A product of a continuous function and a differentiable one that vanishes is differentiable there. -/
theorem hasDerivAt_mul_of_zero {f v : ℝ → ℝ} {d : ℝ} (hf : ContinuousAt f 0) (hv : HasDerivAt v d 0) (h0 : v 0 = 0) :
    HasDerivAt (fun t => f t * v t) (f 0 * d) 0 := by
  rw [hasDerivAt_iff_tendsto_slope_zero] at hv ⊢
  have h1 : Tendsto f (𝓝[≠] 0) (𝓝 (f 0)) := hf.tendsto.mono_left nhdsWithin_le_nhds
  refine (h1.mul hv).congr fun t => ?_
  simp only [h0, smul_eq_mul, zero_add, mul_zero, sub_zero]; ring

theorem sin_tendsto : Tendsto (fun t : ℝ => Real.sin t / t) (𝓝[≠] 0) (𝓝 1) := by
  have := (hasDerivAt_iff_tendsto_slope_zero.1 (Real.hasDerivAt_sin 0))
  simp only [zero_add, Real.sin_zero, sub_zero, Real.cos_zero, smul_eq_mul] at this
  exact this.congr fun t => by rw [div_eq_inv_mul]

theorem cos_tendsto : Tendsto (fun t : ℝ => (1 - Real.cos t) / t) (𝓝[≠] 0) (𝓝 0) := by
  have := (hasDerivAt_iff_tendsto_slope_zero.1 (Real.hasDerivAt_cos 0))
  simp only [zero_add, Real.sin_zero, neg_zero, Real.cos_zero, smul_eq_mul] at this
  have h := this.neg
  rw [neg_zero] at h
  exact h.congr fun t => by rw [div_eq_inv_mul]; ring

theorem continuousAt_of_tendsto_punctured {f : ℝ → ℝ} {a : ℝ} (h : Tendsto f (𝓝[≠] 0) (𝓝 a)) (h0 : f 0 = a) : ContinuousAt f 0 := by
  rw [← continuousWithinAt_compl_self]
  rw [← h0] at h
  exact h

theorem ne_eventually {p : ℝ → Prop} (h : ∀ t, t ≠ 0 → p t) : ∀ᶠ t in 𝓝[≠] (0:ℝ), p t :=
  eventually_nhdsWithin_of_forall fun t ht => h t ht

theorem continuousAt_sinOver : ContinuousAt sinOver 0 := by
  refine continuousAt_of_tendsto_punctured (a := 1) (sin_tendsto.congr' (ne_eventually fun t ht => ?_)) (by simp [sinOver])
  simp [sinOver, ht]

theorem continuousAt_cosOver : ContinuousAt cosOver 0 := by
  refine continuousAt_of_tendsto_punctured (a := 0) (cos_tendsto.congr' (ne_eventually fun t ht => ?_)) (by simp [cosOver])
  simp [cosOver, ht]

theorem cos_ne_one {t : ℝ} (h0 : t ≠ 0) (h1 : |t| < 2 * Real.pi) : Real.cos t - 1 ≠ 0 := by
  intro h
  have := (Real.cos_eq_one_iff_of_lt_of_lt (by linarith [(abs_lt.1 h1).1]) (abs_lt.1 h1).2).1 (by linarith : Real.cos t = 1)
  exact h0 this

/-- `θ/2 · cot(θ/2)`, in a form without removable singularity issues. -/
theorem halfOverTan_eq {t : ℝ} (h0 : t ≠ 0) (h1 : |t| < 2 * Real.pi) :
    halfOverTan t * Real.sin (t / 2) = t / 2 * Real.cos (t / 2) := by
  have hc := cos_ne_one h0 h1
  rw [halfOverTan, if_neg hc]
  have h2 : Real.cos t = 2 * Real.cos (t / 2) ^ 2 - 1 := by rw [← Real.cos_two_mul]; ring_nf
  have h3 : Real.sin t = 2 * Real.sin (t / 2) * Real.cos (t / 2) := by rw [← Real.sin_two_mul]; ring_nf
  field_simp
  have h4 := Real.sin_sq_add_cos_sq (t / 2)
  rw [h2, h3]
  linear_combination (-2 * Real.cos (t / 2)) * h4

theorem continuousAt_halfOverTan : ContinuousAt halfOverTan 0 := by
  have hh : Tendsto (fun t : ℝ => t / 2) (𝓝[≠] 0) (𝓝[≠] 0) := by
    refine tendsto_nhdsWithin_iff.2 ⟨?_, ne_eventually fun t ht => ?_⟩
    · have : Tendsto (fun t : ℝ => t / 2) (𝓝 0) (𝓝 (0 / 2)) := (continuous_id.div_const 2).tendsto 0
      rw [zero_div] at this
      exact this.mono_left nhdsWithin_le_nhds
    · simpa using ht
  have hs := (sin_tendsto.comp hh).inv₀ one_ne_zero
  have hc : Tendsto (fun t : ℝ => Real.cos (t / 2)) (𝓝[≠] 0) (𝓝 1) := by
    have : Continuous fun t : ℝ => Real.cos (t / 2) := by fun_prop
    have h := this.tendsto 0
    simp only [zero_div, Real.cos_zero] at h
    exact h.mono_left nhdsWithin_le_nhds
  have hm := hs.mul hc
  rw [inv_one, one_mul] at hm
  refine continuousAt_of_tendsto_punctured (a := 1) (hm.congr' ?_) (by simp [halfOverTan])
  have hev : ∀ᶠ t in 𝓝[≠] (0:ℝ), |t| < 2 * Real.pi := by
    refine nhdsWithin_le_nhds ?_
    have : Tendsto (fun t : ℝ => |t|) (𝓝 0) (𝓝 |0|) := continuous_abs.tendsto 0
    rw [abs_zero] at this
    exact this.eventually_lt_const (by positivity)
  filter_upwards [hev, self_mem_nhdsWithin] with t h1 h0
  have h := halfOverTan_eq h0 h1
  have hsin : Real.sin (t / 2) ≠ 0 := by
    intro h2
    have := Real.sin_eq_zero_iff_of_lt_of_lt (x := t / 2) (by linarith [(abs_lt.1 h1).1]) (by linarith [(abs_lt.1 h1).2])
    have := this.1 h2
    exact h0 (by simpa using this)
  simp only [Function.comp_apply]
  rw [inv_div, div_mul_eq_mul_div, ← h, mul_div_cancel_right₀ _ hsin]

end Jaxfg.LieGroup
