/- SO(2). -/
import Verif.Lemmas.Lie

namespace Jaxfg.LieGroup
open Spec Filter Topology
open Matrix

theorem arctan2_cos_sin {θ : ℝ} (h1 : -Real.pi < θ) (h2 : θ ≤ Real.pi) : arctan2 (Real.sin θ) (Real.cos θ) = θ := by
  have : (⟨Real.cos θ, Real.sin θ⟩ : ℂ) = Complex.cos θ + Complex.sin θ * Complex.I := by
    apply Complex.ext <;> simp [Complex.cos_ofReal_re, Complex.sin_ofReal_re, Complex.cos_ofReal_im, Complex.sin_ofReal_im]
  rw [arctan2, this, Complex.arg_cos_add_sin_mul_I ⟨h1, h2⟩]

theorem cos_sin_arctan2 {c s : ℝ} (h : c ^ 2 + s ^ 2 = 1) :
    Real.cos (arctan2 s c) = c ∧ Real.sin (arctan2 s c) = s := by
  have hn : ‖(⟨c, s⟩ : ℂ)‖ = 1 := by
    rw [Complex.norm_eq_sqrt_sq_add_sq, h, Real.sqrt_one]
  have hne : (⟨c, s⟩ : ℂ) ≠ 0 := by
    intro h0; rw [h0, norm_zero] at hn; exact zero_ne_one hn
  constructor
  · rw [arctan2, Complex.cos_arg hne, hn, div_one]
  · rw [arctan2, Complex.sin_arg, hn, div_one]

theorem arctan2_mem (s c : ℝ) : -Real.pi < arctan2 s c ∧ arctan2 s c ≤ Real.pi := ⟨Complex.neg_pi_lt_arg _, Complex.arg_le_pi _⟩

/-- Near zero the angle of `(cos t, sin t)` is `t`. -/
theorem arctan2_eventually {f : ℝ → ℝ} (hf : ContinuousAt f 0) (h1 : -Real.pi < f 0) (h2 : f 0 < Real.pi) :
    ∀ᶠ t in 𝓝 0, arctan2 (Real.sin (f t)) (Real.cos (f t)) = f t := by
  filter_upwards [Filter.Tendsto.eventually_const_lt h1 hf, Filter.Tendsto.eventually_lt_const h2 hf] with t ha hb
  exact arctan2_cos_sin ha hb.le

theorem so2_laws : LieLaws so2 (LieType.Valid .so2) where
  len := by rintro _ ⟨c, s, rfl, _⟩; rfl
  one := ⟨1, 0, rfl, by norm_num⟩
  mul := by
    rintro _ _ ⟨c, s, rfl, h⟩ ⟨c', s', rfl, h'⟩
    refine ⟨_, _, rfl, ?_⟩
    simp only [List.getD_cons_zero, List.getD_cons_succ]
    linear_combination (c' ^ 2 + s' ^ 2) * h + h'
  inv := by
    rintro _ ⟨c, s, rfl, h⟩
    refine ⟨_, _, rfl, ?_⟩
    simp only [List.getD_cons_zero, List.getD_cons_succ]
    linear_combination h
  exp := fun d => ⟨_, _, rfl, by rw [add_comm]; exact Real.sin_sq_add_cos_sq _⟩
  mul_assoc := by
    rintro _ _ _ ⟨c, s, rfl, h⟩ ⟨c', s', rfl, h'⟩ ⟨c'', s'', rfl, h''⟩
    simp only [so2, so2Mul, List.getD_cons_zero, List.getD_cons_succ, List.cons.injEq, and_true]
    constructor <;> ring
  one_mul := by
    rintro _ ⟨c, s, rfl, h⟩
    simp [so2, so2Mul]
  mul_one := by
    rintro _ ⟨c, s, rfl, h⟩
    simp [so2, so2Mul]
  inv_mul := by
    rintro _ ⟨c, s, rfl, h⟩
    simp only [so2, so2Mul, so2Inv, List.getD_cons_zero, List.getD_cons_succ, List.cons.injEq, and_true]
    constructor
    · linear_combination h
    · ring
  mul_inv := by
    rintro _ ⟨c, s, rfl, h⟩
    simp only [so2, so2Mul, so2Inv, List.getD_cons_zero, List.getD_cons_succ, List.cons.injEq, and_true]
    constructor
    · linear_combination h
    · ring
  log_len := fun _ => rfl
  adjoint := fun _ => ⟨rfl, rfl⟩
  exp_neg := by
    intro d hd
    obtain ⟨a, rfl⟩ := List.length_eq_one_iff.1 hd
    simp [so2, so2Inv, scale]
  exp_zero := by simp [so2]
  conj := by
    rintro _ d ⟨c, s, rfl, h⟩ hd
    obtain ⟨a, rfl⟩ := List.length_eq_one_iff.1 hd
    have hA : so2.Ad [c, s] [a] = [a] := by
      show List.ofFn (arrMat (⟨[1, 1], [1]⟩ : Arr ℝ) 1 1 *ᵥ Spec.vec [a] 1) = [a]
      simp [mulVec, dotProduct, arrMat, Spec.vec]
    rw [hA]
    simp only [so2, so2Mul, so2Inv, List.getD_cons_zero, List.getD_cons_succ, List.cons.injEq, and_true]
    constructor
    · linear_combination Real.cos a * h
    · linear_combination Real.sin a * h
  deriv := by
    rintro _ d e ⟨c, s, rfl, h⟩ hlog hd he
    obtain ⟨a, rfl⟩ := List.length_eq_one_iff.1 hd
    obtain ⟨b, rfl⟩ := List.length_eq_one_iff.1 he
    have h0 : arctan2 s c = 0 := by simpa [so2] using hlog
    have hcs := cos_sin_arctan2 h
    rw [h0, Real.cos_zero, Real.sin_zero] at hcs
    obtain ⟨rfl, rfl⟩ := hcs
    refine hasDerivAt_vec fun k hk => ?_
    obtain rfl : k = 0 := Nat.lt_one_iff.1 hk
    have hl : HasDerivAt (fun t : ℝ => t * (a + b)) (a + b) 0 := by
      simpa using (hasDerivAt_id (0:ℝ)).mul_const (a + b)
    have hev := arctan2_eventually (f := fun t : ℝ => t * (a + b)) (by fun_prop)
      (by simp [Real.pi_pos]) (by simp [Real.pi_pos])
    refine (hl.congr_of_eventuallyEq ?_).congr_deriv ?_
    · filter_upwards [hev] with t ht
      rw [← ht]
      simp only [so2, so2Mul, scale, List.map_cons, List.map_nil, List.getD_cons_zero, List.getD_cons_succ]
      simp only [mul_one, mul_zero, sub_zero, add_zero]
      rw [mul_add, Real.sin_add, Real.cos_add]
    · simp [Spec.vec]

end Jaxfg.LieGroup
