/- SE(3). -/
import Verif.Lemmas.LieSO3

namespace Jaxfg.LieGroup
open Spec Filter Topology
open Matrix

/-! ### Triples -/

/-- Sum of two triples. -/
def add3 (a b : List ℝ) : List ℝ := [a.getD 0 0 + b.getD 0 0, a.getD 1 0 + b.getD 1 0, a.getD 2 0 + b.getD 2 0]

/-- Multiple of a triple. -/
def smul3 (k : ℝ) (a : List ℝ) : List ℝ := [k * a.getD 0 0, k * a.getD 1 0, k * a.getD 2 0]

/-- Cross product of two triples. -/
def cross (a b : List ℝ) : List ℝ :=
  [a.getD 1 0 * b.getD 2 0 - a.getD 2 0 * b.getD 1 0, a.getD 2 0 * b.getD 0 0 - a.getD 0 0 * b.getD 2 0,
    a.getD 0 0 * b.getD 1 0 - a.getD 1 0 * b.getD 0 0]

theorem list3_ext {a b : List ℝ} (ha : a.length = 3) (hb : b.length = 3) (h0 : a.getD 0 0 = b.getD 0 0)
    (h1 : a.getD 1 0 = b.getD 1 0) (h2 : a.getD 2 0 = b.getD 2 0) : a = b := by
  obtain ⟨a1, a2, a3, rfl⟩ := List.length_eq_three.1 ha
  obtain ⟨b1, b2, b3, rfl⟩ := List.length_eq_three.1 hb
  simp only [List.getD_cons_zero, List.getD_cons_succ] at h0 h1 h2
  rw [h0, h1, h2]

/-- Unfolds the operations on triples and their components. -/
macro "triple" : tactic =>
  `(tactic| (simp only [mul3, skewPoly, add3, smul3, cross, List.getD_cons_zero, List.getD_cons_succ]; try ring))

theorem mul3_add3 (m a b : List ℝ) : mul3 m (add3 a b) = add3 (mul3 m a) (mul3 m b) :=
  list3_ext rfl rfl (by triple) (by triple) (by triple)

theorem mul3_smul3 (m : List ℝ) (k : ℝ) (a : List ℝ) : mul3 m (smul3 k a) = smul3 k (mul3 m a) :=
  list3_ext rfl rfl (by triple) (by triple) (by triple)

theorem skewPoly_mul3 (b c : ℝ) (ω v : List ℝ) :
    mul3 (skewPoly b c ω) v = add3 v (add3 (smul3 b (cross ω v)) (smul3 c (cross ω (cross ω v)))) :=
  list3_ext rfl rfl (by triple) (by triple) (by triple)

theorem skewPoly_comp (b c b' c' x y z : ℝ) (v : List ℝ) :
    mul3 (skewPoly b c [x, y, z]) (mul3 (skewPoly b' c' [x, y, z]) v) =
      mul3 (skewPoly (b + b' - norm3 x y z ^ 2 * (b * c' + c * b')) (c + c' + b * b' - norm3 x y z ^ 2 * (c * c')) [x, y, z]) v := by
  rw [norm3_sq]
  exact list3_ext rfl rfl (by triple) (by triple) (by triple)

theorem skewPoly_zero (ω : List ℝ) {v : List ℝ} (hv : v.length = 3) : mul3 (skewPoly 0 0 ω) v = v :=
  list3_ext rfl hv (by triple) (by triple) (by triple)

/-! ### Rotation matrices -/

theorem so3Matrix_unit {w x y z : ℝ} (h : w ^ 2 + x ^ 2 + y ^ 2 + z ^ 2 = 1) :
    so3Matrix [w, x, y, z] = [w ^ 2 + x ^ 2 - y ^ 2 - z ^ 2, 2 * (x * y - w * z), 2 * (x * z + w * y),
      2 * (x * y + w * z), w ^ 2 - x ^ 2 + y ^ 2 - z ^ 2, 2 * (y * z - w * x),
      2 * (x * z - w * y), 2 * (y * z + w * x), w ^ 2 - x ^ 2 - y ^ 2 + z ^ 2] := by
  simp only [so3Matrix, List.getD_cons_zero, List.getD_cons_succ, List.cons.injEq, and_true]
  refine ⟨?_, ?_, ?_, ?_, ?_, ?_, ?_, ?_, ?_⟩
  · linear_combination -h
  · ring
  · ring
  · ring
  · linear_combination -h
  · ring
  · ring
  · ring
  · linear_combination -h

theorem so3Mul_unit {w x y z w' x' y' z' : ℝ} (h : w ^ 2 + x ^ 2 + y ^ 2 + z ^ 2 = 1) (h' : w' ^ 2 + x' ^ 2 + y' ^ 2 + z' ^ 2 = 1) :
    (-x * x' - y * y' - z * z' + w * w') ^ 2 + (x * w' + y * z' - z * y' + w * x') ^ 2 +
      (-x * z' + y * w' + z * x' + w * y') ^ 2 + (x * y' - y * x' + z * w' + w * z') ^ 2 = 1 := by
  linear_combination (w' ^ 2 + x' ^ 2 + y' ^ 2 + z' ^ 2) * h + h'

theorem so3Matrix_mul {w x y z w' x' y' z' : ℝ} (h : w ^ 2 + x ^ 2 + y ^ 2 + z ^ 2 = 1) (h' : w' ^ 2 + x' ^ 2 + y' ^ 2 + z' ^ 2 = 1)
    (v : List ℝ) : mul3 (so3Matrix (so3Mul [w, x, y, z] [w', x', y', z'])) v =
      mul3 (so3Matrix [w, x, y, z]) (mul3 (so3Matrix [w', x', y', z']) v) := by
  have e : so3Mul [w, x, y, z] [w', x', y', z'] = [-x * x' - y * y' - z * z' + w * w', x * w' + y * z' - z * y' + w * x',
      -x * z' + y * w' + z * x' + w * y', x * y' - y * x' + z * w' + w * z'] := rfl
  rw [e, so3Matrix_unit (so3Mul_unit h h'), so3Matrix_unit h, so3Matrix_unit h']
  exact list3_ext rfl rfl (by triple) (by triple) (by triple)

theorem so3Matrix_one {v : List ℝ} (hv : v.length = 3) : mul3 (so3Matrix [1, 0, 0, 0]) v = v := by
  refine list3_ext rfl hv ?_ ?_ ?_ <;>
    simp [mul3, so3Matrix]

theorem so3Matrix_neg (w x y z : ℝ) : so3Matrix [-w, -x, -y, -z] = so3Matrix [w, x, y, z] := by
  simp only [so3Matrix, List.getD_cons_zero, List.getD_cons_succ, List.cons.injEq, and_true]
  refine ⟨?_, ?_, ?_, ?_, ?_, ?_, ?_, ?_, ?_⟩ <;> ring

theorem so3Matrix_cross {w x y z : ℝ} (h : w ^ 2 + x ^ 2 + y ^ 2 + z ^ 2 = 1) (a b : List ℝ) :
    cross (mul3 (so3Matrix [w, x, y, z]) a) (mul3 (so3Matrix [w, x, y, z]) b) = mul3 (so3Matrix [w, x, y, z]) (cross a b) := by
  rw [so3Matrix_unit h]
  have key : ∀ k, k < 3 → (cross (mul3 [w ^ 2 + x ^ 2 - y ^ 2 - z ^ 2, 2 * (x * y - w * z), 2 * (x * z + w * y),
      2 * (x * y + w * z), w ^ 2 - x ^ 2 + y ^ 2 - z ^ 2, 2 * (y * z - w * x),
      2 * (x * z - w * y), 2 * (y * z + w * x), w ^ 2 - x ^ 2 - y ^ 2 + z ^ 2] a) (mul3 [w ^ 2 + x ^ 2 - y ^ 2 - z ^ 2, 2 * (x * y - w * z), 2 * (x * z + w * y),
      2 * (x * y + w * z), w ^ 2 - x ^ 2 + y ^ 2 - z ^ 2, 2 * (y * z - w * x),
      2 * (x * z - w * y), 2 * (y * z + w * x), w ^ 2 - x ^ 2 - y ^ 2 + z ^ 2] b)).getD k 0 =
      (w ^ 2 + x ^ 2 + y ^ 2 + z ^ 2) * (mul3 [w ^ 2 + x ^ 2 - y ^ 2 - z ^ 2, 2 * (x * y - w * z), 2 * (x * z + w * y),
      2 * (x * y + w * z), w ^ 2 - x ^ 2 + y ^ 2 - z ^ 2, 2 * (y * z - w * x),
      2 * (x * z - w * y), 2 * (y * z + w * x), w ^ 2 - x ^ 2 - y ^ 2 + z ^ 2] (cross a b)).getD k 0 := by
    intro k hk
    interval_cases k <;> triple
  simp only [h, one_mul] at key
  exact list3_ext rfl rfl (key 0 (by norm_num)) (key 1 (by norm_num)) (key 2 (by norm_num))

/-- Rotations commute with the polynomials of `skew`, if the axis is rotated too. -/
theorem skewPoly_rotate {w x y z : ℝ} (h : w ^ 2 + x ^ 2 + y ^ 2 + z ^ 2 = 1) (b c : ℝ) (ω v : List ℝ) :
    mul3 (skewPoly b c (mul3 (so3Matrix [w, x, y, z]) ω)) (mul3 (so3Matrix [w, x, y, z]) v) =
      mul3 (so3Matrix [w, x, y, z]) (mul3 (skewPoly b c ω) v) := by
  rw [skewPoly_mul3, skewPoly_mul3, so3Matrix_cross h, so3Matrix_cross h, mul3_add3, mul3_add3, mul3_smul3, mul3_smul3]

theorem norm3_rotate {w x y z : ℝ} (h : w ^ 2 + x ^ 2 + y ^ 2 + z ^ 2 = 1) (a b c : ℝ) :
    norm3 ((mul3 (so3Matrix [w, x, y, z]) [a, b, c]).getD 0 0) ((mul3 (so3Matrix [w, x, y, z]) [a, b, c]).getD 1 0)
      ((mul3 (so3Matrix [w, x, y, z]) [a, b, c]).getD 2 0) = norm3 a b c := by
  refine norm3_eq_of_sq (norm3_nonneg _ _ _) ?_
  rw [norm3_sq, so3Matrix_unit h]
  simp only [mul3, List.getD_cons_zero, List.getD_cons_succ]
  linear_combination (a ^ 2 + b ^ 2 + c ^ 2) * (w ^ 2 + x ^ 2 + y ^ 2 + z ^ 2 + 1) * h

/-! ### Coefficients -/

theorem expCoeffB_eq (θ : ℝ) : expCoeffB θ = 2 * sinHalfOver θ ^ 2 := by
  by_cases h : θ = 0
  · simp [expCoeffB, sinHalfOver, h]; norm_num
  · rw [expCoeffB, if_neg h, sinHalfOver, if_neg h]
    have h2 : Real.cos θ = 2 * Real.cos (θ / 2) ^ 2 - 1 := by rw [← Real.cos_two_mul]; ring_nf
    have h4 := Real.sin_sq_add_cos_sq (θ / 2)
    rw [h2]
    field_simp
    linear_combination -2 * h4

theorem expCoeffC_mul {θ : ℝ} (h : θ ≠ 0) : expCoeffC θ * θ ^ 2 = 1 - 2 * Real.cos (θ / 2) * sinHalfOver θ := by
  rw [expCoeffC, if_neg h, sinHalfOver, if_neg h]
  have h3 : Real.sin θ = 2 * Real.sin (θ / 2) * Real.cos (θ / 2) := by rw [← Real.sin_two_mul]; ring_nf
  rw [h3]
  field_simp

theorem expCoeffC_mul' (θ : ℝ) : θ ^ 2 * expCoeffC θ = 1 - 2 * Real.cos (θ / 2) * sinHalfOver θ := by
  by_cases h : θ = 0
  · simp [h, sinHalfOver]
  · rw [mul_comm, expCoeffC_mul h]

theorem cos_sq_half (θ : ℝ) : Real.cos (θ / 2) ^ 2 + sinHalfOver θ ^ 2 * θ ^ 2 = 1 := by
  rw [← mul_pow, sinHalfOver_mul, add_comm]
  exact Real.sin_sq_add_cos_sq _

theorem so3Matrix_exp (x y z : ℝ) : so3Matrix (so3Exp [x, y, z]) =
    skewPoly (2 * Real.cos (norm3 x y z / 2) * sinHalfOver (norm3 x y z)) (2 * sinHalfOver (norm3 x y z) ^ 2) [x, y, z] := by
  simp only [so3Matrix, so3Exp, skewPoly, List.getD_cons_zero, List.getD_cons_succ, List.cons.injEq, and_true]
  refine ⟨?_, ?_, ?_, ?_, ?_, ?_, ?_, ?_, ?_⟩ <;> ring

/-- The coefficients of `V⁻¹ V`. -/
theorem logCoeff_exp {θ : ℝ} (h : θ ≠ 0 → Real.sin (θ / 2) ≠ 0) :
    -1 / 2 + expCoeffB θ - θ ^ 2 * (-1 / 2 * expCoeffC θ + logCoeffC θ * expCoeffB θ) = 0 ∧
    logCoeffC θ + expCoeffC θ + -1 / 2 * expCoeffB θ - θ ^ 2 * (logCoeffC θ * expCoeffC θ) = 0 := by
  by_cases h0 : θ = 0
  · simp [h0, expCoeffB, expCoeffC, logCoeffC]; norm_num
  have hs := h h0
  have hl : logCoeffC θ * θ ^ 2 = 1 - Real.cos (θ / 2) / (2 * sinHalfOver θ) := by
    rw [logCoeffC, if_neg h0, sinHalfOver, if_neg h0]
    field_simp
  have hσ : sinHalfOver θ ≠ 0 := by
    rw [sinHalfOver, if_neg h0]; exact div_ne_zero hs h0
  have hc := expCoeffC_mul h0
  have hb := expCoeffB_eq θ
  have hu := cos_sq_half θ
  set C := Real.cos (θ / 2)
  set σ := sinHalfOver θ
  set l := logCoeffC θ
  set c := expCoeffC θ
  have hl' : l * θ ^ 2 * (2 * σ) = 2 * σ - C := by rw [hl]; field_simp
  rw [hb]
  constructor
  · linear_combination hc / 2 - σ * hl'
  · have : θ ^ 2 * (l + c + -1 / 2 * (2 * σ ^ 2) - θ ^ 2 * (l * c)) = 0 := by
      have h1 : l * θ ^ 2 * (1 - c * θ ^ 2) = (2 * σ - C) * C := by
        rw [hc]; linear_combination C * hl'
      linear_combination h1 + hc - hu
    rcases mul_eq_zero.1 this with h | h
    · exact absurd (pow_eq_zero_iff (two_ne_zero) |>.1 h) h0
    · exact h

/-! ### First-order behaviour -/

theorem abs_le_norm3 (x y z : ℝ) : |x| ≤ norm3 x y z ∧ |y| ≤ norm3 x y z ∧ |z| ≤ norm3 x y z := by
  have h := norm3_sq x y z
  have h0 := norm3_nonneg x y z
  refine ⟨?_, ?_, ?_⟩ <;> refine abs_le_of_sq_le_sq ?_ h0 <;> nlinarith [sq_nonneg x, sq_nonneg y, sq_nonneg z]

theorem continuousAt_coeff {b θ p : ℝ → ℝ} (hb : Tendsto (fun t => b t * θ t) (𝓝 0) (𝓝 0)) (hp : ∀ t, |p t| ≤ θ t)
    (p0 : p 0 = 0) : ContinuousAt (fun t => b t * p t) 0 := by
  show Tendsto _ _ (𝓝 (b 0 * p 0))
  rw [p0, mul_zero]
  refine squeeze_zero_norm (fun t => ?_) (by simpa using hb.norm)
  rw [Real.norm_eq_abs, abs_mul]
  exact mul_le_mul_of_nonneg_left ((hp t).trans (le_abs_self _)) (abs_nonneg _)

/-- A polynomial of `skew(ω)` with `ω` near zero is the identity to first order. -/
theorem skewPoly_deriv {b c x y z u v w : ℝ → ℝ} {u' v' w' : ℝ}
    (hb : Tendsto (fun t => b t * norm3 (x t) (y t) (z t)) (𝓝 0) (𝓝 0))
    (hc : Tendsto (fun t => c t * norm3 (x t) (y t) (z t) ^ 2) (𝓝 0) (𝓝 0)) (x0 : x 0 = 0) (y0 : y 0 = 0) (z0 : z 0 = 0)
    (hu : HasDerivAt u u' 0) (hv : HasDerivAt v v' 0) (hw : HasDerivAt w w' 0) (u0 : u 0 = 0) (v0 : v 0 = 0) (w0 : w 0 = 0) :
    HasDerivAt (fun t => (mul3 (skewPoly (b t) (c t) [x t, y t, z t]) [u t, v t, w t]).getD 0 0) u' 0 ∧
    HasDerivAt (fun t => (mul3 (skewPoly (b t) (c t) [x t, y t, z t]) [u t, v t, w t]).getD 1 0) v' 0 ∧
    HasDerivAt (fun t => (mul3 (skewPoly (b t) (c t) [x t, y t, z t]) [u t, v t, w t]).getD 2 0) w' 0 := by
  have bx := continuousAt_coeff hb (fun t => (abs_le_norm3 (x t) (y t) (z t)).1) x0
  have byy := continuousAt_coeff hb (fun t => (abs_le_norm3 (x t) (y t) (z t)).2.1) y0
  have bz := continuousAt_coeff hb (fun t => (abs_le_norm3 (x t) (y t) (z t)).2.2) z0
  have hprod : ∀ p q : ℝ → ℝ, (∀ t, |p t| ≤ norm3 (x t) (y t) (z t)) → (∀ t, |q t| ≤ norm3 (x t) (y t) (z t)) → p 0 = 0 →
      ContinuousAt (fun t => c t * (p t * q t)) 0 := by
    intro p q hp hq p0
    refine continuousAt_coeff hc (fun t => ?_) (by rw [p0, zero_mul])
    rw [abs_mul, sq]
    exact mul_le_mul (hp t) (hq t) (abs_nonneg _) (norm3_nonneg _ _ _)
  have hx := fun t => (abs_le_norm3 (x t) (y t) (z t)).1
  have hy := fun t => (abs_le_norm3 (x t) (y t) (z t)).2.1
  have hz := fun t => (abs_le_norm3 (x t) (y t) (z t)).2.2
  have cxx := hprod x x hx hx x0
  have cyy := hprod y y hy hy y0
  have czz := hprod z z hz hz z0
  have cxy := hprod x y hx hy x0
  have cxz := hprod x z hx hz x0
  have cyz := hprod y z hy hz y0
  have one : ContinuousAt (fun _ : ℝ => (1:ℝ)) 0 := continuousAt_const
  have m00 : ContinuousAt (fun t => 1 - c t * (y t * y t) - c t * (z t * z t)) 0 := (one.sub cyy).sub czz
  have m01 : ContinuousAt (fun t => -(b t * z t) + c t * (x t * y t)) 0 := bz.neg.add cxy
  have m02 : ContinuousAt (fun t => b t * y t + c t * (x t * z t)) 0 := byy.add cxz
  have m10 : ContinuousAt (fun t => b t * z t + c t * (x t * y t)) 0 := bz.add cxy
  have m11 : ContinuousAt (fun t => 1 - c t * (x t * x t) - c t * (z t * z t)) 0 := (one.sub cxx).sub czz
  have m12 : ContinuousAt (fun t => -(b t * x t) + c t * (y t * z t)) 0 := bx.neg.add cyz
  have m20 : ContinuousAt (fun t => -(b t * y t) + c t * (x t * z t)) 0 := byy.neg.add cxz
  have m21 : ContinuousAt (fun t => b t * x t + c t * (y t * z t)) 0 := bx.add cyz
  have m22 : ContinuousAt (fun t => 1 - c t * (x t * x t) - c t * (y t * y t)) 0 := (one.sub cxx).sub cyy
  refine ⟨?_, ?_, ?_⟩
  · refine ((((hasDerivAt_mul_of_zero m00 hu u0).add (hasDerivAt_mul_of_zero m01 hv v0)).add
      (hasDerivAt_mul_of_zero m02 hw w0)).congr_of_eventuallyEq (Eventually.of_forall fun t => ?_)).congr_deriv ?_
    · simp only [mul3, skewPoly, List.getD_cons_zero, List.getD_cons_succ, Pi.add_apply]; ring
    · simp [x0, y0, z0]
  · refine ((((hasDerivAt_mul_of_zero m10 hu u0).add (hasDerivAt_mul_of_zero m11 hv v0)).add
      (hasDerivAt_mul_of_zero m12 hw w0)).congr_of_eventuallyEq (Eventually.of_forall fun t => ?_)).congr_deriv ?_
    · simp only [mul3, skewPoly, List.getD_cons_zero, List.getD_cons_succ, Pi.add_apply]; ring
    · simp [x0, y0, z0]
  · refine ((((hasDerivAt_mul_of_zero m20 hu u0).add (hasDerivAt_mul_of_zero m21 hv v0)).add
      (hasDerivAt_mul_of_zero m22 hw w0)).congr_of_eventuallyEq (Eventually.of_forall fun t => ?_)).congr_deriv ?_
    · simp only [mul3, skewPoly, List.getD_cons_zero, List.getD_cons_succ, Pi.add_apply]; ring
    · simp [x0, y0, z0]

theorem expCoeffB_tendsto : Tendsto (fun θ => expCoeffB θ * θ) (𝓝 0) (𝓝 0) := by
  have h : (fun θ => expCoeffB θ * θ) = cosOver := by
    funext θ
    by_cases h : θ = 0
    · simp [h, cosOver]
    · rw [expCoeffB, cosOver, if_neg h, if_neg h]; field_simp
  rw [h]
  have := continuousAt_cosOver.tendsto
  rwa [show cosOver 0 = 0 by simp [cosOver]] at this

theorem expCoeffC_tendsto : Tendsto (fun θ => expCoeffC θ * θ ^ 2) (𝓝 0) (𝓝 0) := by
  have h : (fun θ => expCoeffC θ * θ ^ 2) = fun θ => 1 - sinOver θ := by
    funext θ
    by_cases h : θ = 0
    · simp [h, sinOver]
    · rw [expCoeffC, sinOver, if_neg h, if_neg h]; field_simp
  rw [h]
  have : Tendsto (fun θ => 1 - sinOver θ) (𝓝 0) (𝓝 (1 - sinOver 0)) :=
    ((continuousAt_const (y := (1:ℝ))).sub continuousAt_sinOver).tendsto
  rwa [show sinOver 0 = 1 by simp [sinOver], sub_self] at this

theorem logCoeffC_tendsto : Tendsto (fun θ => logCoeffC θ * θ ^ 2) (𝓝 0) (𝓝 0) := by
  have h : (fun θ => 1 - halfOverTan θ) =ᶠ[𝓝 0] fun θ => logCoeffC θ * θ ^ 2 := by
    have hev : ∀ᶠ t in 𝓝 (0:ℝ), |t| < 2 * Real.pi := by
      have : Tendsto (fun t : ℝ => |t|) (𝓝 0) (𝓝 |0|) := continuous_abs.tendsto 0
      rw [abs_zero] at this
      exact this.eventually_lt_const (by positivity)
    filter_upwards [hev] with θ h1
    by_cases h0 : θ = 0
    · simp [h0, halfOverTan]
    have h2 := halfOverTan_eq h0 h1
    have hsin : Real.sin (θ / 2) ≠ 0 := by
      intro h2
      have := Real.sin_eq_zero_iff_of_lt_of_lt (x := θ / 2) (by linarith [(abs_lt.1 h1).1]) (by linarith [(abs_lt.1 h1).2])
      have := this.1 h2
      exact h0 (by simpa using this)
    rw [logCoeffC, if_neg h0]
    field_simp
    linear_combination -2 * h2
  have : Tendsto (fun θ => 1 - halfOverTan θ) (𝓝 0) (𝓝 (1 - halfOverTan 0)) :=
    ((continuousAt_const (y := (1:ℝ))).sub continuousAt_halfOverTan).tendsto
  rw [show halfOverTan 0 = 1 by simp [halfOverTan], sub_self] at this
  exact this.congr' h

theorem se3_exp_deriv (x y z u v w : ℝ) :
    HasDerivAt (fun t => (mul3 (skewPoly (expCoeffB (norm3 (t * x) (t * y) (t * z))) (expCoeffC (norm3 (t * x) (t * y) (t * z)))
      [t * x, t * y, t * z]) [t * u, t * v, t * w]).getD 0 0) u 0 ∧
    HasDerivAt (fun t => (mul3 (skewPoly (expCoeffB (norm3 (t * x) (t * y) (t * z))) (expCoeffC (norm3 (t * x) (t * y) (t * z)))
      [t * x, t * y, t * z]) [t * u, t * v, t * w]).getD 1 0) v 0 ∧
    HasDerivAt (fun t => (mul3 (skewPoly (expCoeffB (norm3 (t * x) (t * y) (t * z))) (expCoeffC (norm3 (t * x) (t * y) (t * z)))
      [t * x, t * y, t * z]) [t * u, t * v, t * w]).getD 2 0) w 0 := by
  have hlin : ∀ u : ℝ, HasDerivAt (fun t : ℝ => t * u) u 0 := fun u => by
    simpa using (hasDerivAt_id (0:ℝ)).mul_const u
  have hn : Tendsto (fun t : ℝ => norm3 (t * x) (t * y) (t * z)) (𝓝 0) (𝓝 0) := by
    have : ContinuousAt (fun t : ℝ => norm3 (t * x) (t * y) (t * z)) 0 := by unfold norm3; fun_prop
    have := this.tendsto
    simpa [norm3] using this
  exact skewPoly_deriv (b := fun t => expCoeffB (norm3 (t * x) (t * y) (t * z))) (c := fun t => expCoeffC (norm3 (t * x) (t * y) (t * z)))
    (expCoeffB_tendsto.comp hn) (expCoeffC_tendsto.comp hn) (zero_mul x) (zero_mul y) (zero_mul z) (hlin u) (hlin v) (hlin w)
    (zero_mul u) (zero_mul v) (zero_mul w)

/-! ### Exponential and logarithm -/

theorem se3_log_exp {d : List ℝ} (hd : d.length = 6) (h : norm3 (d.getD 3 0) (d.getD 4 0) (d.getD 5 0) < Real.pi) :
    se3Log (se3Exp d) = d := by
  match d, hd with
  | [u, v, w, x, y, z], _ =>
    simp only [List.getD_cons_zero, List.getD_cons_succ] at h
    have hr : so3Log (so3Exp [x, y, z]) = [x, y, z] := so3_log_exp rfl h
    have e : se3Log (se3Exp [u, v, w, x, y, z]) =
        mul3 (skewPoly (-1 / 2) (logCoeffC (norm3 ((so3Log (so3Exp [x, y, z])).getD 0 0) ((so3Log (so3Exp [x, y, z])).getD 1 0)
          ((so3Log (so3Exp [x, y, z])).getD 2 0))) (so3Log (so3Exp [x, y, z])))
          (mul3 (skewPoly (expCoeffB (norm3 x y z)) (expCoeffC (norm3 x y z)) [x, y, z]) [u, v, w]) ++ so3Log (so3Exp [x, y, z]) := rfl
    rw [e, hr]
    simp only [List.getD_cons_zero, List.getD_cons_succ]
    have hsin : norm3 x y z ≠ 0 → Real.sin (norm3 x y z / 2) ≠ 0 := by
      intro h0
      have hp : 0 < norm3 x y z := lt_of_le_of_ne (norm3_nonneg _ _ _) (Ne.symm h0)
      exact (Real.sin_pos_of_pos_of_lt_pi (by linarith) (by linarith)).ne'
    obtain ⟨e1, e2⟩ := logCoeff_exp hsin
    rw [skewPoly_comp, e1, e2, skewPoly_zero _ rfl]
    rfl

theorem se3_exp_log {x : List ℝ} (hx : LieType.Valid .se3 x) :
    se3Exp (se3Log x) = x ∨ se3Exp (se3Log x) = (x.take 4).map (-·) ++ x.drop 4 := by
  obtain ⟨w, i, j, k, a, b, c, rfl, h⟩ := hx
  have hv : LieType.Valid .so3 [w, i, j, k] := ⟨w, i, j, k, rfl, h⟩
  obtain ⟨x, y, z, hl⟩ := List.length_eq_three.1 (show (so3Log [w, i, j, k]).length = 3 from rfl)
  have e : se3Log [w, i, j, k, a, b, c] = mul3 (skewPoly (-1 / 2) (logCoeffC (norm3 x y z)) [x, y, z]) [a, b, c] ++ [x, y, z] := by
    show mul3 (skewPoly (-1 / 2) (logCoeffC (norm3 ((so3Log [w, i, j, k]).getD 0 0) ((so3Log [w, i, j, k]).getD 1 0)
      ((so3Log [w, i, j, k]).getD 2 0))) (so3Log [w, i, j, k])) [a, b, c] ++ so3Log [w, i, j, k] = _
    rw [hl]
    rfl
  have hsin : norm3 x y z ≠ 0 → Real.sin (norm3 x y z / 2) ≠ 0 := by
    intro h0 hs
    have hσ : sinHalfOver (norm3 x y z) = 0 := by rw [sinHalfOver, if_neg h0, hs, zero_div]
    have he : so3Exp [x, y, z] = [Real.cos (norm3 x y z / 2), 0, 0, 0] := by
      simp [so3Exp, hσ]
    have hq : i = 0 ∧ j = 0 ∧ k = 0 := by
      rcases so3_exp_log hv with h1 | h1 <;> rw [hl, he] at h1 <;>
        simp only [List.map_cons, List.map_nil, List.cons.injEq, and_true] at h1 <;> obtain ⟨_, h2, h3, h4⟩ := h1
      · exact ⟨h2.symm, h3.symm, h4.symm⟩
      · exact ⟨by linarith, by linarith, by linarith⟩
    obtain ⟨rfl, rfl, rfl⟩ := hq
    have : [x, y, z] = [0, 0, 0] := by rw [← hl]; simp [so3Log]
    simp only [List.cons.injEq, and_true] at this
    obtain ⟨rfl, rfl, rfl⟩ := this
    exact h0 norm3_zero
  obtain ⟨e1, e2⟩ := logCoeff_exp hsin
  have e' : se3Exp (se3Log [w, i, j, k, a, b, c]) = so3Exp [x, y, z] ++ [a, b, c] := by
    rw [e]
    have : se3Exp (mul3 (skewPoly (-1 / 2) (logCoeffC (norm3 x y z)) [x, y, z]) [a, b, c] ++ [x, y, z]) =
      so3Exp [x, y, z] ++ mul3 (skewPoly (expCoeffB (norm3 x y z)) (expCoeffC (norm3 x y z)) [x, y, z])
        (mul3 (skewPoly (-1 / 2) (logCoeffC (norm3 x y z)) [x, y, z]) [a, b, c]) := rfl
    rw [this, skewPoly_comp]
    have e1' : expCoeffB (norm3 x y z) + -1 / 2 - norm3 x y z ^ 2 * (expCoeffB (norm3 x y z) * logCoeffC (norm3 x y z) +
        expCoeffC (norm3 x y z) * (-1 / 2)) = 0 := by linear_combination e1
    have e2' : expCoeffC (norm3 x y z) + logCoeffC (norm3 x y z) + expCoeffB (norm3 x y z) * (-1 / 2) -
        norm3 x y z ^ 2 * (expCoeffC (norm3 x y z) * logCoeffC (norm3 x y z)) = 0 := by linear_combination e2
    rw [e1', e2', skewPoly_zero _ rfl]
  rw [e', ← hl]
  rcases so3_exp_log hv with h1 | h1
  · left; rw [h1]; rfl
  · right; rw [h1]; rfl

theorem se3_log_zero {x : List ℝ} (hx : LieType.Valid .se3 x) (h : se3Log x = [0, 0, 0, 0, 0, 0]) :
    x = [1, 0, 0, 0, 0, 0, 0] ∨ x = [-1, 0, 0, 0, 0, 0, 0] := by
  have he : se3Exp [0, 0, 0, 0, 0, 0] = [1, 0, 0, 0, 0, 0, 0] := by
    simp [se3Exp, so3Exp, norm3, mul3]
  rcases se3_exp_log hx with h1 | h1
  · left; rw [← h1, h, he]
  · right
    rw [h, he] at h1
    obtain ⟨w, i, j, k, a, b, c, rfl, _⟩ := hx
    simp only [List.take_succ_cons, List.take_zero, List.drop_succ_cons, List.drop_zero, List.map_cons, List.map_nil,
      List.cons_append, List.nil_append, List.cons.injEq, and_true] at h1 ⊢
    obtain ⟨h1, h2, h3, h4, h5, h6, h7⟩ := h1
    exact ⟨by linarith, by linarith, by linarith, by linarith, h5.symm, h6.symm, h7.symm⟩

/-! ### Laws -/

theorem se3Mul_eq (w x y z a b c w' x' y' z' a' b' c' : ℝ) :
    se3Mul [w, x, y, z, a, b, c] [w', x', y', z', a', b', c'] =
      so3Mul [w, x, y, z] [w', x', y', z'] ++ add3 (mul3 (so3Matrix [w, x, y, z]) [a', b', c']) [a, b, c] := rfl

theorem se3Inv_eq (w x y z a b c : ℝ) :
    se3Inv [w, x, y, z, a, b, c] = so3Inv [w, x, y, z] ++ smul3 (-1) (mul3 (so3Matrix (so3Inv [w, x, y, z])) [a, b, c]) := by
  show so3Inv [w, x, y, z] ++ (mul3 (so3Matrix (so3Inv [w, x, y, z])) [a, b, c]).map (-·) = _
  congr 1
  simp [smul3, mul3]

theorem se3Exp_eq (u v w x y z : ℝ) : se3Exp [u, v, w, x, y, z] =
    so3Exp [x, y, z] ++ mul3 (skewPoly (expCoeffB (norm3 x y z)) (expCoeffC (norm3 x y z)) [x, y, z]) [u, v, w] := rfl

/-- Splits an element of SE(3) into rotation and translation. -/
theorem se3_split {x : List ℝ} : LieType.Valid .se3 x ↔ ∃ q t, LieType.Valid .so3 q ∧ t.length = 3 ∧ x = q ++ t := by
  constructor
  · rintro ⟨w, i, j, k, a, b, c, rfl, h⟩
    exact ⟨[w, i, j, k], [a, b, c], ⟨w, i, j, k, rfl, h⟩, rfl, rfl⟩
  · rintro ⟨q, t, ⟨w, i, j, k, rfl, h⟩, ht, rfl⟩
    obtain ⟨a, b, c, rfl⟩ := List.length_eq_three.1 ht
    exact ⟨w, i, j, k, a, b, c, rfl, h⟩

theorem se3Mul_split {q q' t t' : List ℝ} (hq : LieType.Valid .so3 q) (hq' : LieType.Valid .so3 q') (ht : t.length = 3)
    (ht' : t'.length = 3) : se3Mul (q ++ t) (q' ++ t') = so3Mul q q' ++ add3 (mul3 (so3Matrix q) t') t := by
  obtain ⟨w, i, j, k, rfl, h⟩ := hq
  obtain ⟨w', i', j', k', rfl, h'⟩ := hq'
  obtain ⟨a, b, c, rfl⟩ := List.length_eq_three.1 ht
  obtain ⟨a', b', c', rfl⟩ := List.length_eq_three.1 ht'
  rfl

theorem se3Inv_split {q t : List ℝ} (hq : LieType.Valid .so3 q) (ht : t.length = 3) :
    se3Inv (q ++ t) = so3Inv q ++ smul3 (-1) (mul3 (so3Matrix (so3Inv q)) t) := by
  obtain ⟨w, i, j, k, rfl, h⟩ := hq
  obtain ⟨a, b, c, rfl⟩ := List.length_eq_three.1 ht
  exact se3Inv_eq ..

theorem so3Matrix_mul' {q q' : List ℝ} (hq : LieType.Valid .so3 q) (hq' : LieType.Valid .so3 q') (v : List ℝ) :
    mul3 (so3Matrix (so3Mul q q')) v = mul3 (so3Matrix q) (mul3 (so3Matrix q') v) := by
  obtain ⟨w, i, j, k, rfl, h⟩ := hq
  obtain ⟨w', i', j', k', rfl, h'⟩ := hq'
  exact so3Matrix_mul h h' v

theorem add3_assoc (a b c : List ℝ) : add3 (add3 a b) c = add3 a (add3 b c) :=
  list3_ext rfl rfl (by triple) (by triple) (by triple)

theorem se3Exp_valid (d : List ℝ) : LieType.Valid .se3 (se3Exp d) :=
  se3_split.2 ⟨so3Exp (d.drop 3), _, so3Exp_valid _, rfl, rfl⟩

theorem so3Matrix_inv_exp (x y z : ℝ) (v : List ℝ) : mul3 (so3Matrix (so3Inv (so3Exp [x, y, z]))) v =
    mul3 (skewPoly (-(2 * Real.cos (norm3 x y z / 2) * sinHalfOver (norm3 x y z))) (2 * sinHalfOver (norm3 x y z) ^ 2) [x, y, z]) v := by
  congr 1
  simp only [so3Matrix, so3Exp, so3Inv, skewPoly, List.getD_cons_zero, List.getD_cons_succ, List.cons.injEq, and_true]
  refine ⟨?_, ?_, ?_, ?_, ?_, ?_, ?_, ?_, ?_⟩ <;> ring

theorem arrMat_mulVec_six {M : Arr ℝ} {a b c x y z : ℝ} :
    List.ofFn (arrMat M 6 6 *ᵥ Spec.vec [a, b, c, x, y, z] 6) = (List.range 6).map fun i =>
      M.data.getD (i * 6 + 0) 0 * a + M.data.getD (i * 6 + 1) 0 * b + M.data.getD (i * 6 + 2) 0 * c +
        M.data.getD (i * 6 + 3) 0 * x + M.data.getD (i * 6 + 4) 0 * y + M.data.getD (i * 6 + 5) 0 * z := by
  simp [List.ofFn_succ, mulVec, dotProduct, Fin.sum_univ_six, arrMat, Spec.vec, List.range_succ]

theorem se3_Ad {w x y z a b c : ℝ} (u v : List ℝ) (hu : u.length = 3) (hv : v.length = 3) :
    se3.Ad [w, x, y, z, a, b, c] (u ++ v) =
      add3 (mul3 (so3Matrix [w, x, y, z]) u) (cross [a, b, c] (mul3 (so3Matrix [w, x, y, z]) v)) ++ mul3 (so3Matrix [w, x, y, z]) v := by
  obtain ⟨u1, u2, u3, rfl⟩ := List.length_eq_three.1 hu
  obtain ⟨v1, v2, v3, rfl⟩ := List.length_eq_three.1 hv
  refine arrMat_mulVec_six.trans ?_
  obtain ⟨m0, m1, m2, m3, m4, m5, m6, m7, m8, hm⟩ : ∃ m0 m1 m2 m3 m4 m5 m6 m7 m8,
    so3Matrix [w, x, y, z] = [m0, m1, m2, m3, m4, m5, m6, m7, m8] := ⟨_, _, _, _, _, _, _, _, _, rfl⟩
  simp [se3, se3Adjoint, skewMul, hm, slice, add3, cross, mul3, List.range_succ]
  refine ⟨?_, ?_, ?_⟩ <;> ring

theorem so3Mul_valid {q q' : List ℝ} (hq : LieType.Valid .so3 q) (hq' : LieType.Valid .so3 q') : LieType.Valid .so3 (so3Mul q q') :=
  so3_laws.mul _ _ hq hq'

theorem so3Inv_valid {q : List ℝ} (hq : LieType.Valid .so3 q) : LieType.Valid .so3 (so3Inv q) := so3_laws.inv _ hq

theorem so3One_valid : LieType.Valid .so3 [1, 0, 0, 0] := so3_laws.one

theorem so3Mul_inv {q : List ℝ} (hq : LieType.Valid .so3 q) : so3Mul q (so3Inv q) = [1, 0, 0, 0] := so3_laws.mul_inv _ hq

theorem se3_exp_neg (u v w x y z : ℝ) : se3Inv (se3Exp [u, v, w, x, y, z]) = se3Exp [-1 * u, -1 * v, -1 * w, -1 * x, -1 * y, -1 * z] := by
  have h1 : so3Inv (so3Exp [x, y, z]) = so3Exp [-1 * x, -1 * y, -1 * z] := so3_laws.exp_neg [x, y, z] rfl
  rw [se3Exp_eq, se3Inv_split (so3Exp_valid _) rfl, se3Exp_eq, norm3_scale, abs_neg, abs_one, one_mul, so3Matrix_inv_exp, skewPoly_comp, h1]
  congr 1
  have hu := cos_sq_half (norm3 x y z)
  have hb := expCoeffB_eq (norm3 x y z)
  have hc := expCoeffC_mul' (norm3 x y z)
  set C := Real.cos (norm3 x y z / 2)
  set σ := sinHalfOver (norm3 x y z)
  set B := expCoeffB (norm3 x y z)
  set Cc := expCoeffC (norm3 x y z)
  set n := norm3 x y z
  have e1 : -(2 * C * σ) + B - n ^ 2 * (-(2 * C * σ) * Cc + 2 * σ ^ 2 * B) = -B := by
    rw [hb]
    linear_combination (2 * C * σ) * hc - 4 * σ ^ 2 * hu
  have e2 : 2 * σ ^ 2 + Cc + -(2 * C * σ) * B - n ^ 2 * (2 * σ ^ 2 * Cc) = Cc := by
    rw [hb]
    linear_combination (-2 * σ ^ 2) * hc
  rw [e1, e2]
  exact list3_ext rfl rfl (by triple) (by triple) (by triple)

theorem se3_conj {g : List ℝ} (hg : LieType.Valid .se3 g) (u v w x y z : ℝ) :
    se3Mul (se3Mul g (se3Exp [u, v, w, x, y, z])) (se3Inv g) = se3Exp (se3.Ad g [u, v, w, x, y, z]) := by
  obtain ⟨q, t, hq, ht, rfl⟩ := se3_split.1 hg
  have hA : se3.Ad (q ++ t) ([u, v, w] ++ [x, y, z]) = add3 (mul3 (so3Matrix q) [u, v, w]) (cross t (mul3 (so3Matrix q) [x, y, z])) ++
      mul3 (so3Matrix q) [x, y, z] := by
    obtain ⟨q0, q1, q2, q3, rfl, _⟩ := hq
    obtain ⟨t1, t2, t3, rfl⟩ := List.length_eq_three.1 ht
    exact se3_Ad _ _ rfl rfl
  rw [show [u, v, w, x, y, z] = [u, v, w] ++ [x, y, z] from rfl]
  rw [hA, show [u, v, w] ++ [x, y, z] = [u, v, w, x, y, z] from rfl, se3Exp_eq]
  have hqe := so3Mul_valid hq (so3Exp_valid [x, y, z])
  rw [se3Mul_split hq (so3Exp_valid _) ht rfl, se3Inv_split hq ht, se3Mul_split hqe (so3Inv_valid hq) rfl rfl]
  obtain ⟨q0, q1, q2, q3, rfl, h⟩ := hq
  have hrot := so3_conj (a := x) (b := y) (c := z) h
  obtain ⟨x', y', z', hω⟩ : ∃ x' y' z', mul3 (so3Matrix [q0, q1, q2, q3]) [x, y, z] = [x', y', z'] := ⟨_, _, _, rfl⟩
  have hn := norm3_rotate h x y z
  rw [hω] at hrot hn
  simp only [List.getD_cons_zero, List.getD_cons_succ] at hn
  obtain ⟨u', v', w', hu'⟩ := List.length_eq_three.1
    (show (add3 (mul3 (so3Matrix [q0, q1, q2, q3]) [u, v, w]) (cross t [x', y', z'])).length = 3 from rfl)
  rw [hω, hu']
  show _ = se3Exp [u', v', w', x', y', z']
  rw [se3Exp_eq, ← hu', hn]
  congr 1
  rw [mul3_smul3, ← so3Matrix_mul' hqe (so3Inv_valid ⟨_, _, _, _, rfl, h⟩)]
  rw [hrot, so3Matrix_exp, hn, mul3_add3, ← skewPoly_rotate h, hω]
  have hb := expCoeffB_eq (norm3 x y z)
  have hc := expCoeffC_mul' (norm3 x y z)
  rw [← hn, norm3_sq, hn] at hc
  obtain ⟨t1, t2, t3, rfl⟩ := List.length_eq_three.1 ht
  obtain ⟨m1, m2, m3, hm⟩ : ∃ m1 m2 m3, mul3 (so3Matrix [q0, q1, q2, q3]) [u, v, w] = [m1, m2, m3] := ⟨_, _, _, rfl⟩
  rw [hm, hb]
  set C := Real.cos (norm3 x y z / 2)
  set σ := sinHalfOver (norm3 x y z)
  set Cc := expCoeffC (norm3 x y z)
  refine list3_ext rfl rfl ?_ ?_ ?_
  · simp only [mul3, skewPoly, add3, smul3, cross, List.getD_cons_zero, List.getD_cons_succ]
    linear_combination -(y' * t3 - z' * t2) * hc
  · simp only [mul3, skewPoly, add3, smul3, cross, List.getD_cons_zero, List.getD_cons_succ]
    linear_combination -(z' * t1 - x' * t3) * hc
  · simp only [mul3, skewPoly, add3, smul3, cross, List.getD_cons_zero, List.getD_cons_succ]
    linear_combination -(x' * t2 - y' * t1) * hc

theorem length_eq_six {l : List ℝ} (h : l.length = 6) : ∃ a b c d e f, l = [a, b, c, d, e, f] := by
  match l, h with
  | [a, b, c, d, e, f], _ => exact ⟨a, b, c, d, e, f, rfl⟩

theorem se3_adjoint_isMat (x : List ℝ) : IsMat (se3.adjoint x) 6 6 := by
  refine ⟨rfl, ?_⟩
  show (se3Adjoint x).length = 36
  simp [se3Adjoint, so3Matrix, skewMul, slice]

theorem se3_exp_zero : se3Exp [0, 0, 0, 0, 0, 0] = [1, 0, 0, 0, 0, 0, 0] := by
  simp [se3Exp, so3Exp, norm3, mul3]

end Jaxfg.LieGroup
