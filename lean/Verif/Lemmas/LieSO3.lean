/- SO(3). -/
import Verif.Lemmas.LieSE2

namespace Jaxfg.LieGroup
open Spec Filter Topology
open Matrix

/-! ### Norms -/

theorem norm3_sq (x y z : ℝ) : norm3 x y z ^ 2 = x ^ 2 + y ^ 2 + z ^ 2 := by
  rw [norm3, Real.sq_sqrt (by nlinarith [mul_self_nonneg x, mul_self_nonneg y, mul_self_nonneg z])]
  ring

theorem norm3_nonneg (x y z : ℝ) : 0 ≤ norm3 x y z := Real.sqrt_nonneg _

theorem norm3_eq_of_sq {x y z n : ℝ} (hn : 0 ≤ n) (h : x ^ 2 + y ^ 2 + z ^ 2 = n ^ 2) : norm3 x y z = n := by
  rw [← sq_eq_sq₀ (norm3_nonneg _ _ _) hn, norm3_sq, h]

theorem norm3_scale (k x y z : ℝ) : norm3 (k * x) (k * y) (k * z) = |k| * norm3 x y z := by
  refine norm3_eq_of_sq (mul_nonneg (abs_nonneg _) (norm3_nonneg _ _ _)) ?_
  rw [mul_pow |k|, sq_abs, norm3_sq]
  ring

theorem norm3_eq_zero {x y z : ℝ} (h : norm3 x y z = 0) : x = 0 ∧ y = 0 ∧ z = 0 := by
  have := norm3_sq x y z
  rw [h] at this
  refine ⟨?_, ?_, ?_⟩ <;> nlinarith [sq_nonneg x, sq_nonneg y, sq_nonneg z]

theorem norm3_zero : norm3 0 0 0 = 0 := by simp [norm3]

/-! ### The exponential -/

theorem sinHalfOver_mul (θ : ℝ) : sinHalfOver θ * θ = Real.sin (θ / 2) := by
  by_cases h : θ = 0
  · simp [h]
  · rw [sinHalfOver, if_neg h, div_mul_cancel₀ _ h]

theorem continuousAt_sinHalfOver : ContinuousAt sinHalfOver 0 := by
  have h : sinHalfOver = fun t => sinOver (t / 2) / 2 := by
    funext t
    by_cases ht : t = 0
    · simp [sinHalfOver, sinOver, ht]
    · have h2 : t / 2 ≠ 0 := by simpa using ht
      rw [sinHalfOver, sinOver, if_neg ht, if_neg h2]
      field_simp
  rw [h]
  refine ContinuousAt.div_const ?_ 2
  exact ContinuousAt.comp (g := sinOver) (f := fun t : ℝ => t / 2) (by simpa using continuousAt_sinOver) (by fun_prop)

theorem so3Exp_valid (d : List ℝ) : LieType.Valid .so3 (so3Exp d) := by
  refine ⟨_, _, _, _, rfl, ?_⟩
  have h1 := sinHalfOver_mul (norm3 (d.getD 0 0) (d.getD 1 0) (d.getD 2 0))
  have h2 := norm3_sq (d.getD 0 0) (d.getD 1 0) (d.getD 2 0)
  have h3 := Real.sin_sq_add_cos_sq (norm3 (d.getD 0 0) (d.getD 1 0) (d.getD 2 0) / 2)
  rw [← h1] at h3
  linear_combination h3 - sinHalfOver (norm3 (d.getD 0 0) (d.getD 1 0) (d.getD 2 0)) ^ 2 * h2

/-- First-order behaviour of the exponential at zero. -/
theorem so3_exp_deriv (a b c u : ℝ) :
    HasDerivAt (fun t : ℝ => sinHalfOver (norm3 (t * a) (t * b) (t * c)) * (t * u)) (u / 2) 0 := by
  have hlin : HasDerivAt (fun t : ℝ => t * u) u 0 := by
    simpa using (hasDerivAt_id (0:ℝ)).mul_const u
  have hn : ContinuousAt (fun t : ℝ => norm3 (t * a) (t * b) (t * c)) 0 := by
    unfold norm3; fun_prop
  have hs : ContinuousAt (fun t : ℝ => sinHalfOver (norm3 (t * a) (t * b) (t * c))) 0 :=
    ContinuousAt.comp (g := sinHalfOver) (by simpa [norm3] using continuousAt_sinHalfOver) hn
  refine (hasDerivAt_mul_of_zero hs hlin (by simp)).congr_deriv ?_
  simp [norm3, sinHalfOver]
  ring

theorem so3_exp_deriv_cos (a b c : ℝ) : HasDerivAt (fun t : ℝ => Real.cos (norm3 (t * a) (t * b) (t * c) / 2)) 0 0 := by
  have h : (fun t : ℝ => Real.cos (norm3 (t * a) (t * b) (t * c) / 2)) = fun t : ℝ => Real.cos (t * (norm3 a b c / 2)) := by
    funext t
    rw [norm3_scale, ← Real.cos_abs (t * _), abs_mul, abs_of_nonneg (div_nonneg (norm3_nonneg a b c) (by norm_num : (0:ℝ) ≤ 2))]
    ring_nf
  rw [h]
  have hlin : HasDerivAt (fun t : ℝ => t * (norm3 a b c / 2)) (norm3 a b c / 2) 0 := by
    simpa using (hasDerivAt_id (0:ℝ)).mul_const (norm3 a b c / 2)
  simpa using hlin.cos

/-! ### The logarithm -/

theorem arctan2_eq_arctan {y x : ℝ} (hx : 0 < x) : arctan2 y x = Real.arctan (y / x) := by
  have h : |arctan2 y x| < Real.pi / 2 := by
    rw [arctan2, Complex.abs_arg_lt_pi_div_two_iff]
    exact Or.inl hx
  refine (Real.arctan_eq_of_tan_eq ?_ ⟨(abs_lt.1 h).1, (abs_lt.1 h).2⟩).symm
  rw [arctan2, Complex.tan_arg]

/-- `arctan x / x`. -/
noncomputable def atanOver (x : ℝ) : ℝ := if x = 0 then 1 else Real.arctan x / x

theorem continuousAt_atanOver : ContinuousAt atanOver 0 := by
  have := (hasDerivAt_iff_tendsto_slope_zero.1 (Real.hasDerivAt_arctan 0))
  simp only [zero_add, Real.arctan_zero, sub_zero, smul_eq_mul] at this
  have h1 : (1 / (1 + (0:ℝ) ^ 2)) = 1 := by norm_num
  rw [h1] at this
  refine continuousAt_of_tendsto_punctured (a := 1) (this.congr' (ne_eventually fun t ht => ?_)) (by simp [atanOver])
  rw [atanOver, if_neg ht, div_eq_inv_mul]

theorem atanFactor_eq {w n : ℝ} (hw : w ≠ 0) : atanFactor w n = 2 / w * atanOver (n / w) := by
  by_cases hn : n = 0
  · simp [atanFactor, atanOver, hn]
  have hnw : n / w ≠ 0 := div_ne_zero hn hw
  rw [atanFactor, if_neg hn, if_neg hw, atanOver, if_neg hnw, arctan2_eq_arctan (abs_pos.2 hw)]
  have : (if w < 0 then -n else n) / |w| = n / w := by
    split
    · rename_i h
      rw [abs_of_neg h, neg_div_neg_eq]
    · rename_i h
      rw [abs_of_nonneg (not_lt.1 h)]
  rw [this]
  field_simp

theorem eq_one_or_of_sq {w : ℝ} (h : w ^ 2 = 1) : w = 1 ∨ w = -1 := by
  have : (w - 1) * (w + 1) = 0 := by linarith
  rcases mul_eq_zero.1 this with h | h
  · exact Or.inl (by linarith)
  · exact Or.inr (by linarith)

theorem so3_exp_log {x : List ℝ} (hx : LieType.Valid .so3 x) : so3Exp (so3Log x) = x ∨ so3Exp (so3Log x) = x.map (-·) := by
  obtain ⟨w, a, b, c, rfl, h⟩ := hx
  have hn2 := norm3_sq a b c
  have hn0 := norm3_nonneg a b c
  set n := norm3 a b c with hn
  have hk : ∀ k, so3Exp [k * a, k * b, k * c] =
      [Real.cos (k * n / 2), sinHalfOver (|k| * n) * (k * a), sinHalfOver (|k| * n) * (k * b), sinHalfOver (|k| * n) * (k * c)] := by
    intro k
    simp only [so3Exp, List.getD_cons_zero, List.getD_cons_succ, norm3_scale, ← hn]
    rw [← Real.cos_abs (k * n / 2), abs_div, abs_mul, abs_of_nonneg hn0, abs_two]
  have hL : so3Log [w, a, b, c] = [atanFactor w n * a, atanFactor w n * b, atanFactor w n * c] := by
    simp only [so3Log, List.getD_cons_zero, List.getD_cons_succ, ← hn]
  rw [hL, hk]
  by_cases h0 : n = 0
  · obtain ⟨rfl, rfl, rfl⟩ := norm3_eq_zero (hn.symm.trans h0)
    have hw : w ^ 2 = 1 := by linarith
    rcases eq_one_or_of_sq hw with rfl | rfl <;> simp [h0]
  by_cases hw : w = 0
  · subst hw
    have h1 : n = 1 := by
      have : n ^ 2 = 1 := by rw [hn2]; linarith
      nlinarith
    right
    have hk : atanFactor 0 n = -Real.pi := by simp [atanFactor, h1]
    rw [hk, abs_neg, abs_of_pos Real.pi_pos, h1, mul_one, mul_one, sinHalfOver, if_neg Real.pi_ne_zero, Real.sin_pi_div_two]
    have := Real.pi_ne_zero
    rw [neg_div, Real.cos_neg, Real.cos_pi_div_two]
    simp only [List.map_cons, List.map_nil, List.cons.injEq, and_true]
    refine ⟨by simp, ?_, ?_, ?_⟩ <;> field_simp
  have hwn : w ^ 2 + n ^ 2 = 1 := by rw [hn2]; linarith
  set φ := Real.arctan (n / w) with hφ
  have hkn : atanFactor w n * n = 2 * φ := by
    rw [atanFactor_eq hw, atanOver, if_neg (div_ne_zero h0 hw), ← hφ]
    field_simp
  have hs : √(1 + (n / w) ^ 2) = 1 / |w| := by
    rw [Real.sqrt_eq_iff_mul_self_eq (by positivity) (by positivity)]
    rw [div_mul_div_comm, one_mul, abs_mul_abs_self, ← sq, div_pow]
    field_simp
    linear_combination hwn
  have hcos : Real.cos φ = |w| := by rw [hφ, Real.cos_arctan, hs, one_div_one_div]
  have hsin : Real.sin φ = n / w * |w| := by rw [hφ, Real.sin_arctan, hs, div_div_eq_mul_div, div_one]
  have hφ0 : φ ≠ 0 := by
    rw [hφ, Ne, Real.arctan_eq_zero_iff]
    exact div_ne_zero h0 hw
  have hkabs : |atanFactor w n| * n = 2 * |φ| := by
    rw [← abs_of_nonneg hn0, ← abs_mul, abs_of_nonneg hn0, hkn, abs_mul, abs_two]
  have hkey : sinHalfOver (|atanFactor w n| * n) * atanFactor w n = |w| / w := by
    have hf : sinHalfOver (2 * |φ|) = Real.sin φ / (2 * φ) := by
      rw [sinHalfOver, if_neg (by simpa using hφ0), mul_div_cancel_left₀ _ (two_ne_zero)]
      rcases abs_choice φ with h | h <;> rw [h]
      rw [Real.sin_neg, mul_neg, neg_div_neg_eq]
    have hkk : atanFactor w n = 2 * φ / n := by rw [← hkn]; field_simp
    rw [hkabs, hf, hkk, hsin]
    field_simp
  rw [hkn, mul_div_cancel_left₀ _ two_ne_zero, hcos]
  simp only [← mul_assoc, hkey]
  rcases lt_or_gt_of_ne hw with h | h
  · right
    rw [abs_of_neg h, neg_div, div_self hw]
    simp
  · left
    rw [abs_of_pos h, div_self hw]
    simp

theorem so3_log_exp {d : List ℝ} (hd : d.length = 3) (h : norm3 (d.getD 0 0) (d.getD 1 0) (d.getD 2 0) < Real.pi) :
    so3Log (so3Exp d) = d := by
  obtain ⟨a, b, c, rfl⟩ := List.length_eq_three.1 hd
  simp only [List.getD_cons_zero, List.getD_cons_succ] at h
  have hn0 := norm3_nonneg a b c
  set θ := norm3 a b c with hθ
  have hsn : 0 ≤ Real.sin (θ / 2) := Real.sin_nonneg_of_nonneg_of_le_pi (by linarith) (by linarith)
  have hS : 0 ≤ sinHalfOver θ := by
    by_cases h0 : θ = 0
    · simp [sinHalfOver, h0]
    · rw [sinHalfOver, if_neg h0]; positivity
  have hcos : 0 < Real.cos (θ / 2) := Real.cos_pos_of_mem_Ioo ⟨by linarith [Real.pi_pos], by linarith⟩
  have hnorm : norm3 (sinHalfOver θ * a) (sinHalfOver θ * b) (sinHalfOver θ * c) = Real.sin (θ / 2) := by
    rw [norm3_scale, abs_of_nonneg hS, ← hθ, sinHalfOver_mul]
  have hL : so3Log (so3Exp [a, b, c]) = [atanFactor (Real.cos (θ / 2)) (Real.sin (θ / 2)) * (sinHalfOver θ * a),
      atanFactor (Real.cos (θ / 2)) (Real.sin (θ / 2)) * (sinHalfOver θ * b),
      atanFactor (Real.cos (θ / 2)) (Real.sin (θ / 2)) * (sinHalfOver θ * c)] := by
    simp only [so3Log, so3Exp, List.getD_cons_zero, List.getD_cons_succ, ← hθ, hnorm]
  have hk : atanFactor (Real.cos (θ / 2)) (Real.sin (θ / 2)) * sinHalfOver θ = 1 := by
    by_cases h0 : θ = 0
    · simp [h0, atanFactor, sinHalfOver]
    have hs : Real.sin (θ / 2) ≠ 0 := by
      have : 0 < Real.sin (θ / 2) := Real.sin_pos_of_pos_of_lt_pi (by positivity) (by linarith)
      exact this.ne'
    rw [atanFactor, if_neg hs, if_neg hcos.ne', if_neg (not_lt.2 hcos.le), abs_of_pos hcos,
      arctan2_cos_sin (by linarith [Real.pi_pos]) (by linarith), sinHalfOver, if_neg h0]
    field_simp
  rw [hL]
  simp only [← mul_assoc, hk, one_mul]

/-- First-order behaviour of the logarithm at the two quaternions of the identity. -/
theorem so3_log_deriv {W X Y Z : ℝ → ℝ} {X' Y' Z' w : ℝ} (hW : ContinuousAt W 0) (hX : HasDerivAt X X' 0) (hY : HasDerivAt Y Y' 0)
    (hZ : HasDerivAt Z Z' 0) (W0 : W 0 = w) (hw : w ≠ 0) (X0 : X 0 = 0) (Y0 : Y 0 = 0) (Z0 : Z 0 = 0) :
    HasDerivAt (fun t => Spec.vec (so3Log [W t, X t, Y t, Z t]) 3) (Spec.vec [2 / w * X', 2 / w * Y', 2 / w * Z'] 3) 0 := by
  have hn : ContinuousAt (fun t => norm3 (X t) (Y t) (Z t)) 0 := by
    have h1 := hX.continuousAt
    have h2 := hY.continuousAt
    have h3 := hZ.continuousAt
    unfold norm3
    fun_prop
  have n0 : norm3 (X 0) (Y 0) (Z 0) = 0 := by rw [X0, Y0, Z0, norm3_zero]
  have hk : ContinuousAt (fun t => atanFactor (W t) (norm3 (X t) (Y t) (Z t))) 0 := by
    have h1 : ContinuousAt (fun t => 2 / W t * atanOver (norm3 (X t) (Y t) (Z t) / W t)) 0 := by
      refine ContinuousAt.mul (continuousAt_const.div hW (by rw [W0]; exact hw)) ?_
      refine ContinuousAt.comp (g := atanOver) ?_ (hn.div hW (by rw [W0]; exact hw))
      rw [n0, zero_div]
      exact continuousAt_atanOver
    refine h1.congr ?_
    filter_upwards [hW.eventually_ne (by rw [W0]; exact hw)] with t ht
    rw [atanFactor_eq ht]
  have k0 : atanFactor (W 0) (norm3 (X 0) (Y 0) (Z 0)) = 2 / w := by rw [n0, W0, atanFactor, if_pos rfl]
  have aX := hasDerivAt_mul_of_zero hk hX X0
  have aY := hasDerivAt_mul_of_zero hk hY Y0
  have aZ := hasDerivAt_mul_of_zero hk hZ Z0
  rw [k0] at aX aY aZ
  refine hasDerivAt_vec fun k hk3 => ?_
  interval_cases k
  · exact aX
  · exact aY
  · exact aZ

/-- The logarithm is zero only at the two quaternions of the identity. -/
theorem so3_log_zero {x : List ℝ} (hx : LieType.Valid .so3 x) (h : so3Log x = [0, 0, 0]) :
    x = [1, 0, 0, 0] ∨ x = [-1, 0, 0, 0] := by
  have he : so3Exp [0, 0, 0] = [1, 0, 0, 0] := by simp [so3Exp, norm3]
  rcases so3_exp_log hx with h1 | h1
  · left; rw [← h1, h, he]
  · right
    rw [h, he] at h1
    obtain ⟨w, a, b, c, rfl, _⟩ := hx
    simp only [List.map_cons, List.map_nil, List.cons.injEq, and_true] at h1 ⊢
    obtain ⟨h1, h2, h3, h4⟩ := h1
    exact ⟨by linarith, by linarith, by linarith, by linarith⟩

theorem so3_conj {w x y z a b c : ℝ} (h : w ^ 2 + x ^ 2 + y ^ 2 + z ^ 2 = 1) :
    so3Mul (so3Mul [w, x, y, z] (so3Exp [a, b, c])) (so3Inv [w, x, y, z]) = so3Exp (mul3 (so3Matrix [w, x, y, z]) [a, b, c]) := by
  have hn : norm3 ((mul3 (so3Matrix [w, x, y, z]) [a, b, c]).getD 0 0) ((mul3 (so3Matrix [w, x, y, z]) [a, b, c]).getD 1 0)
      ((mul3 (so3Matrix [w, x, y, z]) [a, b, c]).getD 2 0) = norm3 a b c := by
    refine norm3_eq_of_sq (norm3_nonneg _ _ _) ?_
    rw [norm3_sq]
    simp only [mul3, so3Matrix, List.getD_cons_zero, List.getD_cons_succ]
    have hw : w ^ 2 = 1 - x ^ 2 - y ^ 2 - z ^ 2 := by linarith
    ring_nf
    simp only [hw]
    ring
  unfold so3Exp
  simp only [hn]
  simp only [so3Mul, so3Inv, mul3, so3Matrix, List.getD_cons_zero, List.getD_cons_succ, List.cons.injEq, and_true]
  set C := Real.cos (norm3 a b c / 2)
  set S := sinHalfOver (norm3 a b c)
  refine ⟨?_, ?_, ?_, ?_⟩
  · linear_combination C * h
  · linear_combination S * a * h
  · linear_combination S * b * h
  · linear_combination S * c * h

theorem so3_laws : LieLaws so3 (LieType.Valid .so3) where
  len := by rintro _ ⟨w, a, b, c, rfl, _⟩; rfl
  one := ⟨1, 0, 0, 0, rfl, by norm_num⟩
  mul := by
    rintro _ _ ⟨w, a, b, c, rfl, h⟩ ⟨w', a', b', c', rfl, h'⟩
    refine ⟨_, _, _, _, rfl, ?_⟩
    simp only [List.getD_cons_zero, List.getD_cons_succ]
    linear_combination (w' ^ 2 + a' ^ 2 + b' ^ 2 + c' ^ 2) * h + h'
  inv := by
    rintro _ ⟨w, a, b, c, rfl, h⟩
    refine ⟨_, _, _, _, rfl, ?_⟩
    simp only [List.getD_cons_zero, List.getD_cons_succ]
    linear_combination h
  exp := so3Exp_valid
  mul_assoc := by
    rintro _ _ _ ⟨w, a, b, c, rfl, h⟩ ⟨w', a', b', c', rfl, h'⟩ ⟨w'', a'', b'', c'', rfl, h''⟩
    simp only [so3, so3Mul, List.getD_cons_zero, List.getD_cons_succ, List.cons.injEq, and_true]
    refine ⟨?_, ?_, ?_, ?_⟩ <;> ring
  one_mul := by
    rintro _ ⟨w, a, b, c, rfl, h⟩
    simp [so3, so3Mul]
  mul_one := by
    rintro _ ⟨w, a, b, c, rfl, h⟩
    simp [so3, so3Mul]
  inv_mul := by
    rintro _ ⟨w, a, b, c, rfl, h⟩
    simp only [so3, so3Mul, so3Inv, List.getD_cons_zero, List.getD_cons_succ, List.cons.injEq, and_true]
    refine ⟨?_, ?_, ?_, ?_⟩
    · linear_combination h
    all_goals ring
  mul_inv := by
    rintro _ ⟨w, a, b, c, rfl, h⟩
    simp only [so3, so3Mul, so3Inv, List.getD_cons_zero, List.getD_cons_succ, List.cons.injEq, and_true]
    refine ⟨?_, ?_, ?_, ?_⟩
    · linear_combination h
    all_goals ring
  log_len := fun _ => rfl
  adjoint := fun _ => ⟨rfl, rfl⟩
  exp_neg := by
    intro d hd
    obtain ⟨a, b, c, rfl⟩ := List.length_eq_three.1 hd
    simp only [so3, so3Inv, so3Exp, scale, List.map_cons, List.map_nil, List.getD_cons_zero, List.getD_cons_succ, norm3_scale,
      abs_neg, abs_one, one_mul, List.cons.injEq, and_true, true_and]
    refine ⟨?_, ?_, ?_⟩ <;> ring
  exp_zero := by simp [so3, so3Exp, norm3]
  conj := by
    rintro _ d ⟨w, x, y, z, rfl, h⟩ hd
    obtain ⟨a, b, c, rfl⟩ := List.length_eq_three.1 hd
    have hA : so3.Ad [w, x, y, z] [a, b, c] = mul3 (so3Matrix [w, x, y, z]) [a, b, c] := by
      exact (arrMat_mulVec_three rfl).trans rfl
    rw [hA]
    exact so3_conj h
  deriv := by
    rintro q d e hq hlog hd he
    obtain ⟨d1, d2, d3, rfl⟩ := List.length_eq_three.1 hd
    obtain ⟨e1, e2, e3, rfl⟩ := List.length_eq_three.1 he
    have hs : ∃ s : ℝ, s ^ 2 = 1 ∧ q = [s, 0, 0, 0] := by
      rcases so3_log_zero hq hlog with rfl | rfl
      · exact ⟨1, by norm_num, rfl⟩
      · exact ⟨-1, by norm_num, rfl⟩
    obtain ⟨s, hs, rfl⟩ := hs
    have hs0 : s ≠ 0 := by rintro rfl; norm_num at hs
    have cd := so3_exp_deriv_cos d1 d2 d3
    have ce := so3_exp_deriv_cos e1 e2 e3
    have vd := so3_exp_deriv d1 d2 d3
    have ve := so3_exp_deriv e1 e2 e3
    have hW := ((((vd d1).neg.mul (ve e1)).sub ((vd d2).mul (ve e2))).sub ((vd d3).mul (ve e3))).add (cd.mul ce) |>.mul_const s
    have hX := ((((vd d1).mul ce).add ((vd d2).mul (ve e3))).sub ((vd d3).mul (ve e2))).add (cd.mul (ve e1)) |>.mul_const s
    have hY := ((((vd d1).neg.mul (ve e3)).add ((vd d2).mul ce)).add ((vd d3).mul (ve e1))).add (cd.mul (ve e2)) |>.mul_const s
    have hZ := ((((vd d1).mul (ve e2)).sub ((vd d2).mul (ve e1))).add ((vd d3).mul ce)).add (cd.mul (ve e3)) |>.mul_const s
    refine ((so3_log_deriv hW.continuousAt hX hY hZ (w := s) (by simp [norm3]) hs0 (by simp) (by simp)
      (by simp)).congr_of_eventuallyEq (Eventually.of_forall fun t => ?_)).congr_deriv ?_
    · simp only [so3, so3Mul, so3Exp, scale, List.map_cons, List.map_nil, List.getD_cons_zero, List.getD_cons_succ, mul_zero,
        sub_zero, add_zero, zero_add, Pi.add_apply, Pi.mul_apply, Pi.sub_apply, Pi.neg_apply]
    · show _ = Spec.vec [d1, d2, d3] 3 + Spec.vec [e1, e2, e3] 3
      funext i
      fin_cases i
      all_goals
        simp [Spec.vec, norm3]
        field_simp

end Jaxfg.LieGroup
