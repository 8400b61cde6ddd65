/- Retractions of pose variables: round trips and Jacobians. -/
import Verif.Lemmas.Geometry
import Mathlib.Analysis.Calculus.FDeriv.Add
import Mathlib.Analysis.Calculus.FDeriv.Mul
import Mathlib.Analysis.Calculus.FDeriv.Prod

namespace Jaxfg
open Spec Filter Topology LieGroup
open Matrix hiding vec

/-- Taking the exponential of a logarithm gives the same motion. -/
theorem motion_exp_log (k : LieType) {x : List ℝ} (hx : k.Valid x) : k.motion (k.ops.exp (k.ops.log x)) = k.motion x := by
  cases k
  · obtain ⟨c, s, rfl, h⟩ := hx
    have hcs := cos_sin_arctan2 h
    have : LieType.so2.ops.exp (LieType.so2.ops.log [c, s]) = [c, s] := by
      show [Real.cos (arctan2 s c), Real.sin (arctan2 s c)] = _
      rw [hcs.1, hcs.2]
    rw [this]
  · exact congrArg _ (se2_exp_log hx)
  · rcases so3_exp_log hx with h | h
    · exact congrArg _ h
    · refine (congrArg (LieType.so3.motion) h).trans ?_
      obtain ⟨w, i, j, k, rfl, _⟩ := hx
      exact quatMatrix_neg w i j k
  · rcases se3_exp_log hx with h | h
    · exact congrArg _ h
    · refine (congrArg (LieType.se3.motion) h).trans ?_
      obtain ⟨w, i, j, k, a, b, c, rfl, _⟩ := hx
      exact poseMatrix_neg w i j k a b c

/-- Taking the logarithm of an exponential gives the tangent vector back if it turns by less than half a turn. -/
theorem log_exp (k : LieType) {d : List ℝ} (hd : d.length = k.ops.tangentDim) (h : k.angle d < Real.pi) :
    k.ops.log (k.ops.exp d) = d := by
  cases k
  · obtain ⟨a, rfl⟩ := List.length_eq_one_iff.1 hd
    have h' := abs_lt.1 h
    show [arctan2 (Real.sin a) (Real.cos a)] = [a]
    rw [arctan2_cos_sin h'.1 h'.2.le]
  · obtain ⟨a, b, c, rfl⟩ := List.length_eq_three.1 hd
    have h' := abs_lt.1 h
    exact se2_log_exp hd h'.1 h'.2.le
  · obtain ⟨a, b, c, rfl⟩ := List.length_eq_three.1 hd
    have h' : √(a ^ 2 + b ^ 2 + c ^ 2) < Real.pi := h
    refine so3_log_exp hd ?_
    show norm3 a b c < _
    rw [norm3_eq_of_sq (Real.sqrt_nonneg (a ^ 2 + b ^ 2 + c ^ 2)) (by rw [Real.sq_sqrt (by positivity)])]
    exact h'
  · obtain ⟨a, b, c, x, y, z, rfl⟩ := length_eq_six hd
    have h' : √(x ^ 2 + y ^ 2 + z ^ 2) < Real.pi := h
    refine se3_log_exp hd ?_
    show norm3 x y z < _
    rw [norm3_eq_of_sq (Real.sqrt_nonneg (x ^ 2 + y ^ 2 + z ^ 2)) (by rw [Real.sq_sqrt (by positivity)])]
    exact h'

section
variable {G : LieGroup} {V : List ℝ → Prop} (L : LieLaws G V)
include L

theorem LieLaws.cancel {x y : List ℝ} (hx : V x) (hy : V y) : G.multiply (G.inverse x) (G.multiply x y) = y := by
  let _ := L.group
  exact congrArg Subtype.val (inv_mul_cancel_left (⟨x, hx⟩ : {x // V x}) ⟨y, hy⟩)

theorem LieLaws.cancel' {x y : List ℝ} (hx : V x) (hy : V y) : G.multiply x (G.multiply (G.inverse x) y) = y := by
  let _ := L.group
  exact congrArg Subtype.val (mul_inv_cancel_left (⟨x, hx⟩ : {x // V x}) ⟨y, hy⟩)

end

/-! ### Derivatives -/

/-- Product of a continuous function and a coordinate: differentiable where the coordinate is zero. -/
theorem hasFDerivAt_mul_coord {n : Nat} {f : (Fin n → ℝ) → ℝ} (hf : ContinuousAt f 0) (j : Fin n) :
    HasFDerivAt (fun d => f d * d j) (f 0 • ContinuousLinearMap.proj (R := ℝ) (φ := fun _ : Fin n => ℝ) j) 0 := by
  rw [hasFDerivAt_iff_isLittleO_nhds_zero]
  have h1 : (fun h : Fin n → ℝ => f h - f 0) =o[𝓝 0] fun _ => (1:ℝ) := by
    rw [Asymptotics.isLittleO_one_iff]
    have := hf.sub_const (f 0)
    simpa [ContinuousAt] using this
  have h2 : (fun h : Fin n → ℝ => h j) =O[𝓝 0] fun h => h := by
    refine Asymptotics.IsBigO.of_bound 1 (Eventually.of_forall fun h => ?_)
    rw [one_mul]
    exact norm_le_pi_norm h j
  have h3 := h1.mul_isBigO h2.norm_right
  have h4 : (fun h : Fin n → ℝ => (f h - f 0) * h j) =o[𝓝 0] fun h => ‖h‖ := by simpa using h3
  refine h4.of_norm_right.congr_left fun h => ?_
  simp
  ring

/-- The linear form with the given coefficients. -/
noncomputable def form {n : Nat} (J : Fin n → ℝ) : (Fin n → ℝ) →L[ℝ] ℝ :=
  ∑ j, J j • ContinuousLinearMap.proj (R := ℝ) (φ := fun _ : Fin n => ℝ) j

theorem form_apply {n : Nat} (J y : Fin n → ℝ) : form J y = ∑ j, J j * y j := by simp [form]

/-- A retraction Jacobian is correct if its rows are the derivatives of the parameters. -/
theorem retractDerivatives_of {k : LieType} {x : List ℝ} {J : Arr ℝ}
    (hJ : IsMat J k.ops.parametersDim k.ops.tangentDim)
    (h : ∀ i < k.ops.parametersDim,
      HasFDerivAt (fun d : Fin k.ops.tangentDim → ℝ => (k.ops.multiply x (k.ops.exp (List.ofFn d))).getD i 0)
        (form fun j => J.data.getD (i * k.ops.tangentDim + j) 0) 0) :
    RetractDerivatives k.ops.varClass (k.ops.value x) [J] := by
  refine ⟨?_, ?_⟩
  · refine List.Forall₂.cons ⟨hJ.1, ?_⟩ List.Forall₂.nil
    rw [hJ.2, Arr.size, hJ.1]
    simp
  · rw [lie_paramDim, hasFDerivAt_pi']
    intro i
    refine ((h i i.2).congr_fderiv ?_).congr_of_eventuallyEq (Eventually.of_forall fun d => ?_)
    · refine ContinuousLinearMap.ext fun y => ?_
      show _ = (stackedMatrix k.ops.parametersDim k.ops.tangentDim [J] *ᵥ y) i
      simp [form_apply, stackedMatrix, Matrix.mulVec, dotProduct]
    · show (k.ops.value (k.ops.rplus (k.ops.value x).flatten (List.ofFn d))).flatten.getD i 0 = _
      rw [value_flatten, value_flatten]
      rfl

/-- A derivative that is a form, from one that agrees with it pointwise. -/
theorem hasFDerivAt_form {n : Nat} {g g' : (Fin n → ℝ) → ℝ} {L : (Fin n → ℝ) →L[ℝ] ℝ} (h : HasFDerivAt g L 0) {J : Fin n → ℝ}
    (hg : ∀ d, g' d = g d) (hL : ∀ y, L y = ∑ j, J j * y j) : HasFDerivAt g' (form J) 0 := by
  rw [show g' = g from funext hg]
  exact h.congr_fderiv (ContinuousLinearMap.ext fun y => by rw [hL, form_apply])

section
variable {n : Nat} (a b c : Fin n)

theorem continuous_norm3 : Continuous fun d : Fin n → ℝ => norm3 (d a) (d b) (d c) := by
  unfold norm3
  fun_prop

theorem norm3_tendsto : Tendsto (fun d : Fin n → ℝ => norm3 (d a) (d b) (d c)) (𝓝 0) (𝓝 0) := by
  have h := (continuous_norm3 a b c).tendsto 0
  simpa [norm3_zero] using h

/-- Derivative of the vector part of the exponential. -/
theorem sinHalf_fderiv (j : Fin n) : HasFDerivAt (fun d : Fin n → ℝ => sinHalfOver (norm3 (d a) (d b) (d c)) * d j)
    ((1 / 2 : ℝ) • ContinuousLinearMap.proj (R := ℝ) (φ := fun _ : Fin n => ℝ) j) 0 := by
  have hc : ContinuousAt (fun d : Fin n → ℝ => sinHalfOver (norm3 (d a) (d b) (d c))) 0 := by
    refine ContinuousAt.comp (g := sinHalfOver) ?_ (continuous_norm3 a b c).continuousAt
    simpa [norm3_zero] using continuousAt_sinHalfOver
  have h := hasFDerivAt_mul_coord hc j
  simpa [norm3_zero, sinHalfOver] using h

/-- The scalar part of the exponential is stationary. -/
theorem cosHalf_fderiv : HasFDerivAt (fun d : Fin n → ℝ => Real.cos (norm3 (d a) (d b) (d c) / 2)) (0 : (Fin n → ℝ) →L[ℝ] ℝ) 0 := by
  set κ : (Fin n → ℝ) → ℝ := fun d => -(1 / 2) * sinHalfOver (norm3 (d a) (d b) (d c) / 2) ^ 2 with hκ
  have hc : ContinuousAt κ 0 := by
    have : ContinuousAt (fun d : Fin n → ℝ => sinHalfOver (norm3 (d a) (d b) (d c) / 2)) 0 := by
      refine ContinuousAt.comp (g := sinHalfOver) ?_ ((continuous_norm3 a b c).div_const 2).continuousAt
      simpa [norm3_zero] using continuousAt_sinHalfOver
    exact continuousAt_const.mul (this.pow 2)
  have hj (j : Fin n) : HasFDerivAt (fun d : Fin n → ℝ => κ d * d j * d j) (0 : (Fin n → ℝ) →L[ℝ] ℝ) 0 := by
    have h := hasFDerivAt_mul_coord (hc.mul (continuous_apply j).continuousAt) j
    simpa using h
  have h := (((hj a).add (hj b)).add (hj c)).const_add 1
  refine (h.congr_fderiv (by simp)).congr_of_eventuallyEq (Eventually.of_forall fun d => ?_)
  have e := expCoeffB_eq (norm3 (d a) (d b) (d c) / 2)
  have hs := norm3_sq (d a) (d b) (d c)
  have h1 : Real.cos (norm3 (d a) (d b) (d c) / 2) = 1 + κ d * norm3 (d a) (d b) (d c) ^ 2 := by
    rw [hκ]
    by_cases h0 : norm3 (d a) (d b) (d c) = 0
    · simp [h0]
    · unfold expCoeffB at e
      rw [if_neg (by simpa using h0)] at e
      have h2 : 1 - Real.cos (norm3 (d a) (d b) (d c) / 2) =
          2 * sinHalfOver (norm3 (d a) (d b) (d c) / 2) ^ 2 * (norm3 (d a) (d b) (d c) / 2) ^ 2 := by
        rw [← e]
        field_simp
      beta_reduce
      linarith
  simp only [Pi.add_apply]
  rw [h1, hs]
  ring

end

/-! ### The four groups -/

theorem so2_retract {x : List ℝ} (hx : LieType.so2.Valid x) :
    RetractDerivatives LieType.so2.ops.varClass (LieType.so2.ops.value x) [LieType.so2.ops.rplusJacobian x] := by
  obtain ⟨c, s, rfl, -⟩ := hx
  refine retractDerivatives_of ⟨rfl, rfl⟩ fun i hi => ?_
  change i < 2 at hi
  have h0 := hasFDerivAt_apply (𝕜 := ℝ) (F' := fun _ : Fin 1 => ℝ) 0 (0 : Fin 1 → ℝ)
  have hc := h0.cos
  have hs := h0.sin
  interval_cases i
  · refine hasFDerivAt_form ((hc.const_mul c).sub (hs.const_mul s)) (fun d => rfl) fun y => ?_
    simp [LieType.ops, so2]
  · refine hasFDerivAt_form ((hc.const_mul s).add (hs.const_mul c)) (fun d => rfl) fun y => ?_
    simp [LieType.ops, so2]

theorem so3_retract {x : List ℝ} (hx : LieType.so3.Valid x) :
    RetractDerivatives LieType.so3.ops.varClass (LieType.so3.ops.value x) [LieType.so3.ops.rplusJacobian x] := by
  obtain ⟨w, i, j, k, rfl, -⟩ := hx
  refine retractDerivatives_of ⟨rfl, rfl⟩ fun m hm => ?_
  change m < 4 at hm
  have hc := cosHalf_fderiv (0 : Fin 3) 1 2
  have h0 := sinHalf_fderiv (0 : Fin 3) 1 2 0
  have h1 := sinHalf_fderiv (0 : Fin 3) 1 2 1
  have h2 := sinHalf_fderiv (0 : Fin 3) 1 2 2
  interval_cases m
  · refine hasFDerivAt_form ((((h0.const_mul (-i)).sub (h1.const_mul j)).sub (h2.const_mul k)).add (hc.const_mul w)) (fun d => rfl) fun y => ?_
    simp [LieType.ops, so3, so3RplusJacobian, Fin.sum_univ_three]
    ring
  · refine hasFDerivAt_form ((((hc.const_mul i).add (h2.const_mul j)).sub (h1.const_mul k)).add (h0.const_mul w)) (fun d => rfl) fun y => ?_
    simp [LieType.ops, so3, so3RplusJacobian, Fin.sum_univ_three]
    ring
  · refine hasFDerivAt_form ((((h2.const_mul (-i)).add (hc.const_mul j)).add (h0.const_mul k)).add (h1.const_mul w)) (fun d => rfl) fun y => ?_
    simp [LieType.ops, so3, so3RplusJacobian, Fin.sum_univ_three]
    ring
  · refine hasFDerivAt_form ((((h1.const_mul i).sub (h0.const_mul j)).add (hc.const_mul k)).add (h2.const_mul w)) (fun d => rfl) fun y => ?_
    simp [LieType.ops, so3, so3RplusJacobian, Fin.sum_univ_three]
    ring

theorem se2_retract {x : List ℝ} (hx : LieType.se2.Valid x) :
    RetractDerivatives LieType.se2.ops.varClass (LieType.se2.ops.value x) [LieType.se2.ops.rplusJacobian x] := by
  obtain ⟨c, s, a, b, rfl, -⟩ := hx
  refine retractDerivatives_of ⟨rfl, rfl⟩ fun i hi => ?_
  change i < 4 at hi
  have h0 := hasFDerivAt_apply (𝕜 := ℝ) (F' := fun _ : Fin 3 => ℝ) 2 (0 : Fin 3 → ℝ)
  have hc := h0.cos
  have hs := h0.sin
  have cS : ContinuousAt (fun d : Fin 3 → ℝ => sinOver (d 2)) 0 :=
    ContinuousAt.comp (g := sinOver) continuousAt_sinOver (continuous_apply 2).continuousAt
  have cC : ContinuousAt (fun d : Fin 3 → ℝ => cosOver (d 2)) 0 :=
    ContinuousAt.comp (g := cosOver) continuousAt_cosOver (continuous_apply 2).continuousAt
  have hX := (hasFDerivAt_mul_coord cS 0).sub (hasFDerivAt_mul_coord cC 1)
  have hY := (hasFDerivAt_mul_coord cC 0).add (hasFDerivAt_mul_coord cS 1)
  interval_cases i
  · refine hasFDerivAt_form ((hc.const_mul c).sub (hs.const_mul s)) (fun d => rfl) fun y => ?_
    simp [LieType.ops, se2, Fin.sum_univ_three]
  · refine hasFDerivAt_form ((hc.const_mul s).add (hs.const_mul c)) (fun d => rfl) fun y => ?_
    simp [LieType.ops, se2, Fin.sum_univ_three]
  · refine hasFDerivAt_form (((hX.const_mul c).sub (hY.const_mul s)).add_const a) (fun d => rfl) fun y => ?_
    simp [LieType.ops, se2, Fin.sum_univ_three, sinOver, cosOver]
    try ring
  · refine hasFDerivAt_form (((hX.const_mul s).add (hY.const_mul c)).add_const b) (fun d => rfl) fun y => ?_
    simp [LieType.ops, se2, Fin.sum_univ_three, sinOver, cosOver]

/-- The quadratic terms of the translation part of the exponential vanish to first order. -/
theorem continuousAt_expCoeffC {n : Nat} (a b c : Fin n) {p : (Fin n → ℝ) → ℝ}
    (hp : ∀ d, |p d| ≤ norm3 (d a) (d b) (d c) ^ 2) :
    ContinuousAt (fun d => expCoeffC (norm3 (d a) (d b) (d c)) * p d) 0 := by
  have h0 : p 0 = 0 := by simpa [norm3_zero] using hp 0
  have ht : Tendsto (fun d : Fin n → ℝ => |expCoeffC (norm3 (d a) (d b) (d c)) * norm3 (d a) (d b) (d c) ^ 2|) (𝓝 0) (𝓝 0) := by
    simpa using (expCoeffC_tendsto.comp (norm3_tendsto a b c)).abs
  show Tendsto _ _ (𝓝 (_ * p 0))
  rw [h0, mul_zero]
  refine squeeze_zero_norm (fun d => ?_) ht
  rw [Real.norm_eq_abs, abs_mul, abs_mul, abs_pow, abs_of_nonneg (norm3_nonneg _ _ _)]
  exact mul_le_mul_of_nonneg_left (hp d) (abs_nonneg _)

theorem continuousAt_expCoeffB {n : Nat} (a b c j : Fin n) :
    ContinuousAt (fun d : Fin n → ℝ => expCoeffB (norm3 (d a) (d b) (d c)) * d j) 0 := by
  refine ContinuousAt.mul ?_ (continuous_apply j).continuousAt
  simp only [expCoeffB_eq]
  have : ContinuousAt (fun d : Fin n → ℝ => sinHalfOver (norm3 (d a) (d b) (d c))) 0 := by
    refine ContinuousAt.comp (g := sinHalfOver) ?_ (continuous_norm3 a b c).continuousAt
    simpa [norm3_zero] using continuousAt_sinHalfOver
  exact continuousAt_const.mul (this.pow 2)

/-- The translation part of the exponential: to first order, the translation part of the tangent vector. -/
theorem translation_fderiv (m : Fin 3) :
    HasFDerivAt (fun d : Fin 6 → ℝ => (mul3 (skewPoly (expCoeffB (norm3 (d 3) (d 4) (d 5))) (expCoeffC (norm3 (d 3) (d 4) (d 5)))
        [d 3, d 4, d 5]) [d 0, d 1, d 2]).getD m 0)
      (ContinuousLinearMap.proj (R := ℝ) (φ := fun _ : Fin 6 => ℝ) (Fin.castLE (by norm_num) m)) 0 := by
  have C (p : (Fin 6 → ℝ) → ℝ) (hp : ∀ d, |p d| ≤ norm3 (d 3) (d 4) (d 5) ^ 2) := continuousAt_expCoeffC 3 4 5 hp
  have B (j : Fin 6) := continuousAt_expCoeffB 3 4 5 j
  have B' (j : Fin 6) : ContinuousAt (fun d : Fin 6 → ℝ => expCoeffB (norm3 (d 3) (d 4) (d 5)) * -d j) 0 := by
    simp only [mul_neg]
    exact (B j).neg
  have q (f : (Fin 6 → ℝ) → ℝ) (h1 : ∀ d, f d ≤ d 3 ^ 2 + d 4 ^ 2 + d 5 ^ 2) (h2 : ∀ d, -(d 3 ^ 2 + d 4 ^ 2 + d 5 ^ 2) ≤ f d) :=
    C f fun d => abs_le.2 ⟨by rw [norm3_sq]; exact h2 d, by rw [norm3_sq]; exact h1 d⟩
  have q34 := q (fun d => d 3 * d 4) (fun d => by nlinarith [sq_nonneg (d 3 - d 4), sq_nonneg (d 5)])
    (fun d => by nlinarith [sq_nonneg (d 3 + d 4), sq_nonneg (d 5)])
  have q35 := q (fun d => d 3 * d 5) (fun d => by nlinarith [sq_nonneg (d 3 - d 5), sq_nonneg (d 4)])
    (fun d => by nlinarith [sq_nonneg (d 3 + d 5), sq_nonneg (d 4)])
  have q45 := q (fun d => d 4 * d 5) (fun d => by nlinarith [sq_nonneg (d 4 - d 5), sq_nonneg (d 3)])
    (fun d => by nlinarith [sq_nonneg (d 4 + d 5), sq_nonneg (d 3)])
  have q0 := q (fun d => -(d 4 * d 4) - d 5 * d 5) (fun d => by nlinarith [sq_nonneg (d 3), sq_nonneg (d 4), sq_nonneg (d 5)])
    (fun d => by nlinarith [sq_nonneg (d 3)])
  have q1 := q (fun d => -(d 3 * d 3) - d 5 * d 5) (fun d => by nlinarith [sq_nonneg (d 3), sq_nonneg (d 4), sq_nonneg (d 5)])
    (fun d => by nlinarith [sq_nonneg (d 4)])
  have q2 := q (fun d => -(d 3 * d 3) - d 4 * d 4) (fun d => by nlinarith [sq_nonneg (d 3), sq_nonneg (d 4), sq_nonneg (d 5)])
    (fun d => by nlinarith [sq_nonneg (d 5)])
  fin_cases m
  · have h := ((hasFDerivAt_mul_coord (continuousAt_const (y := (1:ℝ)) |>.add q0) 0).add
      (hasFDerivAt_mul_coord ((B' 5).add q34) 1)).add (hasFDerivAt_mul_coord ((B 4).add q35) 2)
    refine (h.congr_fderiv ?_)
    ext y
    simp
  · have h := ((hasFDerivAt_mul_coord ((B 5).add q34) 0).add
      (hasFDerivAt_mul_coord (continuousAt_const (y := (1:ℝ)) |>.add q1) 1)).add (hasFDerivAt_mul_coord ((B' 3).add q45) 2)
    refine (h.congr_fderiv ?_)
    ext y
    simp
  · have h := ((hasFDerivAt_mul_coord ((B' 4).add q35) 0).add
      (hasFDerivAt_mul_coord ((B 3).add q45) 1)).add (hasFDerivAt_mul_coord (continuousAt_const (y := (1:ℝ)) |>.add q2) 2)
    refine (h.congr_fderiv ?_)
    ext y
    simp

theorem se3_retract {x : List ℝ} (hx : LieType.se3.Valid x) :
    RetractDerivatives LieType.se3.ops.varClass (LieType.se3.ops.value x) [LieType.se3.ops.rplusJacobian x] := by
  obtain ⟨w, i, j, k, a, b, c, rfl, -⟩ := hx
  refine retractDerivatives_of ⟨rfl, rfl⟩ fun m hm => ?_
  change m < 7 at hm
  have hc := cosHalf_fderiv (3 : Fin 6) 4 5
  have h0 := sinHalf_fderiv (3 : Fin 6) 4 5 3
  have h1 := sinHalf_fderiv (3 : Fin 6) 4 5 4
  have h2 := sinHalf_fderiv (3 : Fin 6) 4 5 5
  have t0 := translation_fderiv 0
  have t1 := translation_fderiv 1
  have t2 := translation_fderiv 2
  interval_cases m
  · refine hasFDerivAt_form ((((h0.const_mul (-i)).sub (h1.const_mul j)).sub (h2.const_mul k)).add (hc.const_mul w)) (fun d => rfl) fun y => ?_
    simp [LieType.ops, se3, se3RplusJacobian, so3RplusJacobian, so3Matrix, slice, Fin.sum_univ_succ]
    ring
  · refine hasFDerivAt_form ((((hc.const_mul i).add (h2.const_mul j)).sub (h1.const_mul k)).add (h0.const_mul w)) (fun d => rfl) fun y => ?_
    simp [LieType.ops, se3, se3RplusJacobian, so3RplusJacobian, so3Matrix, slice, Fin.sum_univ_succ]
    ring
  · refine hasFDerivAt_form ((((h2.const_mul (-i)).add (hc.const_mul j)).add (h0.const_mul k)).add (h1.const_mul w)) (fun d => rfl) fun y => ?_
    simp [LieType.ops, se3, se3RplusJacobian, so3RplusJacobian, so3Matrix, slice, Fin.sum_univ_succ]
    ring
  · refine hasFDerivAt_form ((((h1.const_mul i).sub (h0.const_mul j)).add (hc.const_mul k)).add (h2.const_mul w)) (fun d => rfl) fun y => ?_
    simp [LieType.ops, se3, se3RplusJacobian, so3RplusJacobian, so3Matrix, slice, Fin.sum_univ_succ]
    ring
  · refine hasFDerivAt_form ((((t0.const_mul ((so3Matrix [w, i, j, k]).getD 0 0)).add (t1.const_mul ((so3Matrix [w, i, j, k]).getD 1 0))).add
      (t2.const_mul ((so3Matrix [w, i, j, k]).getD 2 0))).add_const a) (fun d => rfl) fun y => ?_
    simp [LieType.ops, se3, se3RplusJacobian, so3RplusJacobian, so3Matrix, slice, Fin.sum_univ_succ]
    try ring
  · refine hasFDerivAt_form ((((t0.const_mul ((so3Matrix [w, i, j, k]).getD 3 0)).add (t1.const_mul ((so3Matrix [w, i, j, k]).getD 4 0))).add
      (t2.const_mul ((so3Matrix [w, i, j, k]).getD 5 0))).add_const b) (fun d => rfl) fun y => ?_
    simp [LieType.ops, se3, se3RplusJacobian, so3RplusJacobian, so3Matrix, slice, Fin.sum_univ_succ]
    try ring
  · refine hasFDerivAt_form ((((t0.const_mul ((so3Matrix [w, i, j, k]).getD 6 0)).add (t1.const_mul ((so3Matrix [w, i, j, k]).getD 7 0))).add
      (t2.const_mul ((so3Matrix [w, i, j, k]).getD 8 0))).add_const c) (fun d => rfl) fun y => ?_
    simp [LieType.ops, se3, se3RplusJacobian, so3RplusJacobian, so3Matrix, slice, Fin.sum_univ_succ]
    try ring

theorem lie_retractDerivatives (k : LieType) {x : List ℝ} (hx : k.Valid x) :
    RetractDerivatives k.ops.varClass (k.ops.value x) [k.ops.rplusJacobian x] := by
  cases k
  · exact so2_retract hx
  · exact se2_retract hx
  · exact so3_retract hx
  · exact se3_retract hx

end Jaxfg
