/- Derivatives of pose residuals away from the measurement. -/
import Verif.Lemmas.Geometry
import Mathlib.Analysis.SpecialFunctions.Trigonometric.InverseDeriv

namespace Jaxfg
open Spec Filter Topology LieGroup
open Matrix hiding vec

/-- In SO(2) the residual is the angle itself, unless it is half a turn. -/
theorem so2_deriv {c d e : List ℝ} (hc : LieType.so2.Valid c) (hlog : so2.log c ≠ [Real.pi]) (hd : d.length = 1) (he : e.length = 1) :
    HasDerivAt (fun t => vec (so2.log (so2.multiply (so2.multiply (so2.exp (scale t d)) (so2.exp (scale t e))) c)) 1)
      (vec d 1 + vec e 1) 0 := by
  obtain ⟨x, y, rfl, h⟩ := hc
  obtain ⟨a, rfl⟩ := List.length_eq_one_iff.1 hd
  obtain ⟨b, rfl⟩ := List.length_eq_one_iff.1 he
  have hm := arctan2_mem y x
  have hlt : arctan2 y x < Real.pi := lt_of_le_of_ne hm.2 fun h => hlog (by simp [so2, h])
  have hcs := cos_sin_arctan2 h
  set α := arctan2 y x
  rw [← hcs.1, ← hcs.2]
  refine hasDerivAt_vec fun k hk => ?_
  obtain rfl : k = 0 := Nat.lt_one_iff.1 hk
  have hl : HasDerivAt (fun t : ℝ => t * (a + b) + α) (a + b) 0 := by
    simpa using ((hasDerivAt_id (0:ℝ)).mul_const (a + b)).add_const α
  have hev := arctan2_eventually (f := fun t : ℝ => t * (a + b) + α) (by fun_prop) (by simpa using hm.1) (by simpa using hlt)
  refine (hl.congr_of_eventuallyEq ?_).congr_deriv ?_
  · filter_upwards [hev] with t ht
    rw [← ht]
    simp only [so2, so2Mul, scale, List.map_cons, List.map_nil, List.getD_cons_zero, List.getD_cons_succ]
    rw [Real.sin_add, Real.cos_add, mul_add, Real.sin_add, Real.cos_add]
  · simp [Spec.vec]

/-- In SE(2) turning about a pose changes the residual of a prior that is away from it. -/
theorem se2_deriv_y : HasDerivAt (fun t => (se2.rminus (se2.rplus [1, 0, 0, 0] (scale t [0, 0, 1])) [1, 0, 1, 0]).getD 1 0)
    (-1 / 2) 0 := by
  have h1 : HasDerivAt (fun t : ℝ => t / 2 * Real.cos t) (1 / 2) 0 := by
    have : HasDerivAt (fun t : ℝ => t / 2 * Real.cos t) _ 0 := ((hasDerivAt_id' (0:ℝ)).div_const 2).mul (Real.hasDerivAt_cos 0)
    exact this.congr_deriv (by simp)
  have hc : ContinuousAt (fun t : ℝ => halfOverTan (-t)) 0 := by
    refine ContinuousAt.comp (g := halfOverTan) ?_ continuous_neg.continuousAt
    rw [neg_zero]
    exact continuousAt_halfOverTan
  have h2 := hasDerivAt_mul_of_zero hc (Real.hasDerivAt_sin 0) Real.sin_zero
  have h3 := h1.sub h2
  have hh : halfOverTan (-0) = 1 := by simp [halfOverTan]
  have hev := arctan2_eventually (f := fun t : ℝ => -t) (by fun_prop) (by simp [Real.pi_pos]) (by simp [Real.pi_pos])
  refine (h3.congr_of_eventuallyEq ?_).congr_deriv ?_
  · filter_upwards [hev] with t ht
    simp only [Real.sin_neg, Real.cos_neg] at ht
    simp [rminus, rplus, se2, se2Mul, se2Inv, se2Exp, se2Log, scale, ht]
    ring
  · rw [hh, Real.cos_zero]; norm_num

/-! ### SO(3): the squared residual -/

theorem so3Log_neg {w x y z : ℝ} (hw : w ≠ 0) : so3Log [-w, -x, -y, -z] = so3Log [w, x, y, z] := by
  have hn : norm3 (-x) (-y) (-z) = norm3 x y z := by simp [norm3]
  have ha : atanFactor (-w) (norm3 x y z) = -atanFactor w (norm3 x y z) := by
    rw [atanFactor_eq hw, atanFactor_eq (neg_ne_zero.2 hw)]
    have : atanOver (norm3 x y z / -w) = atanOver (norm3 x y z / w) := by
      rw [div_neg]
      unfold atanOver
      simp only [neg_eq_zero, Real.arctan_neg, neg_div_neg_eq]
    rw [this, div_neg, neg_mul]
  simp only [so3Log, List.getD_cons_zero, List.getD_cons_succ, hn, ha, neg_mul_neg]

theorem so3Log_neg_sq (w x y z : ℝ) : sqNorm (so3Log [-w, -x, -y, -z]) = sqNorm (so3Log [w, x, y, z]) := by
  by_cases hw : w = 0
  · have hn : norm3 (-x) (-y) (-z) = norm3 x y z := by simp [norm3]
    subst hw
    simp only [so3Log, sqNorm, List.getD_cons_zero, List.getD_cons_succ, hn, neg_zero, List.map_cons, List.map_nil, mul_neg, neg_sq]
  · rw [so3Log_neg hw]

/-- The squared angle of a rotation is determined by the real part of its quaternion. -/
theorem so3_sq {w x y z : ℝ} (h : w ^ 2 + x ^ 2 + y ^ 2 + z ^ 2 = 1) (hw : 0 < w) :
    sqNorm (so3Log [w, x, y, z]) = 4 * Real.arccos w ^ 2 := by
  have hn2 := norm3_sq x y z
  have hn0 := norm3_nonneg x y z
  simp only [so3Log, sqNorm, List.getD_cons_zero, List.getD_cons_succ, List.map_cons, List.map_nil, List.sum_cons, List.sum_nil]
  set n := norm3 x y z
  have e : (atanFactor w n * x) ^ 2 + ((atanFactor w n * y) ^ 2 + ((atanFactor w n * z) ^ 2 + 0)) = (atanFactor w n * n) ^ 2 := by
    rw [mul_pow (atanFactor w n) n, hn2]; ring
  rw [e]
  have hs : n = √(1 - w ^ 2) := by
    rw [show 1 - w ^ 2 = n ^ 2 by linarith, Real.sqrt_sq hn0]
  have ha : atanFactor w n * n = 2 * Real.arccos w := by
    rw [Real.arccos_eq_arctan hw, ← hs]
    by_cases h0 : n = 0
    · simp [h0]
    · rw [atanFactor, if_neg h0, if_neg hw.ne', if_neg (not_lt.2 hw.le), abs_of_pos hw, arctan2_eq_arctan hw, div_mul_cancel₀ _ h0]
  rw [ha]; ring

theorem so3_sq_deriv_pos {w x y z : ℝ} {d e : List ℝ} (h : w ^ 2 + x ^ 2 + y ^ 2 + z ^ 2 = 1) (hw : 0 < w) (hd : d.length = 3)
    (he : e.length = 3) :
    HasDerivAt (fun t => sqNorm (so3Log (so3Mul (so3Mul (so3Exp (scale t d)) (so3Exp (scale t e))) [w, x, y, z])))
      (2 * (vec (so3Log [w, x, y, z]) 3 ⬝ᵥ (vec d 3 + vec e 3))) 0 := by
  have hn2 := norm3_sq x y z
  have hn0 := norm3_nonneg x y z
  by_cases h0 : norm3 x y z = 0
  · -- at the identity
    obtain ⟨rfl, rfl, rfl⟩ := norm3_eq_zero h0
    have hw1 : w = 1 := by nlinarith
    subst hw1
    have hz : so3Log [1, 0, 0, 0] = [0, 0, 0] := by simp [so3Log]
    have hD := so3_laws.deriv [1, 0, 0, 0] d e ⟨1, 0, 0, 0, rfl, by norm_num⟩ hz hd he
    have hD' : HasDerivAt (fun t => vec (so3Log (so3Mul (so3Mul (so3Exp (scale t d)) (so3Exp (scale t e))) [1, 0, 0, 0])) 3)
      (vec d 3 + vec e 3) 0 := hD
    rw [hasDerivAt_pi] at hD'
    have hs := ((hD' 0).pow 2).add (((hD' 1).pow 2).add ((hD' 2).pow 2))
    have hval : ∀ k, (so3Log (so3Mul (so3Mul (so3Exp (scale 0 d)) (so3Exp (scale 0 e))) [1, 0, 0, 0])).getD k 0 = 0 := by
      obtain ⟨d1, d2, d3, rfl⟩ := List.length_eq_three.1 hd
      obtain ⟨e1, e2, e3, rfl⟩ := List.length_eq_three.1 he
      intro k
      have : so3Log (so3Mul (so3Mul (so3Exp (scale 0 [d1, d2, d3])) (so3Exp (scale 0 [e1, e2, e3]))) [1, 0, 0, 0]) = [0, 0, 0] := by
        simp [scale, so3Exp, so3Mul, so3Log]
      rw [this]
      rcases k with _ | _ | _ | k <;> simp
    refine (hs.congr_of_eventuallyEq (Eventually.of_forall fun t => ?_)).congr_deriv ?_
    · simp only [Pi.add_apply, Pi.pow_apply, Spec.vec, so3Log, sqNorm, List.map_cons, List.map_nil, List.sum_cons, List.sum_nil,
        add_zero]
      rfl
    · rw [hz]
      simp only [Spec.vec, hval, Fin.sum_univ_three, dotProduct]
      simp
  · have hnp : 0 < norm3 x y z := lt_of_le_of_ne hn0 (Ne.symm h0)
    have hw1 : w < 1 := by nlinarith
    obtain ⟨d1, d2, d3, rfl⟩ := List.length_eq_three.1 hd
    obtain ⟨e1, e2, e3, rfl⟩ := List.length_eq_three.1 he
    have cd := so3_exp_deriv_cos d1 d2 d3
    have ce := so3_exp_deriv_cos e1 e2 e3
    have vd := so3_exp_deriv d1 d2 d3
    have ve := so3_exp_deriv e1 e2 e3
    have hW := ((((vd d1).neg.mul (ve e1)).sub ((vd d2).mul (ve e2))).sub ((vd d3).mul (ve e3))).add (cd.mul ce)
    have hX := ((((vd d1).mul ce).add ((vd d2).mul (ve e3))).sub ((vd d3).mul (ve e2))).add (cd.mul (ve e1))
    have hY := ((((vd d1).neg.mul (ve e3)).add ((vd d2).mul ce)).add ((vd d3).mul (ve e1))).add (cd.mul (ve e2))
    have hZ := ((((vd d1).mul (ve e2)).sub ((vd d2).mul (ve e1))).add ((vd d3).mul ce)).add (cd.mul (ve e3))
    have hR := (((hX.neg.mul_const x).sub (hY.mul_const y)).sub (hZ.mul_const z)).add (hW.mul_const w)
    set q : ℝ → List ℝ := fun t => so3Mul (so3Mul (so3Exp (scale t [d1, d2, d3])) (so3Exp (scale t [e1, e2, e3]))) [w, x, y, z] with hqd
    have hqv : ∀ t, LieType.so3.Valid (q t) := fun t =>
      so3Mul_valid (so3Mul_valid (so3Exp_valid _) (so3Exp_valid _)) ⟨w, x, y, z, rfl, h⟩
    have hq0 : q 0 = [w, x, y, z] := by
      simp [hqd, scale, so3Exp, so3Mul, norm3]
    have hR' : HasDerivAt (fun t => (q t).getD 0 0) (-((d1 + e1) * x + (d2 + e2) * y + (d3 + e3) * z) / 2) 0 := by
      refine (hR.congr_of_eventuallyEq (Eventually.of_forall fun t => ?_)).congr_deriv ?_
      · simp only [hqd, so3Mul, so3Exp, scale, List.map_cons, List.map_nil, List.getD_cons_zero, List.getD_cons_succ,
          Pi.add_apply, Pi.mul_apply, Pi.sub_apply, Pi.neg_apply]
      · simp [norm3]; ring
    have hac : HasDerivAt Real.arccos (-(1 / √(1 - w ^ 2))) ((q 0).getD 0 0) := by
      rw [hq0]
      exact Real.hasDerivAt_arccos (by show w ≠ -1; linarith) (by show w ≠ 1; exact hw1.ne)
    have hs : √(1 - w ^ 2) = norm3 x y z := by
      rw [show 1 - w ^ 2 = norm3 x y z ^ 2 by linarith, Real.sqrt_sq hn0]
    have hcomp := ((HasDerivAt.comp (h₂ := Real.arccos) (h := fun t => (q t).getD 0 0) 0 hac hR').pow 2).const_mul 4
    have hpos : ∀ᶠ t in 𝓝 (0:ℝ), 0 < (q t).getD 0 0 := by
      refine hR'.continuousAt.eventually_const_lt (by show 0 < (q 0).getD 0 0; rw [hq0]; exact hw)
    refine (hcomp.congr_of_eventuallyEq ?_).congr_deriv ?_
    · filter_upwards [hpos] with t ht
      obtain ⟨w', x', y', z', hv, hv'⟩ := hqv t
      have : (q t).getD 0 0 = w' := by rw [hv]; rfl
      rw [this] at ht
      simp only [Function.comp_apply, Pi.pow_apply]
      rw [this]
      show sqNorm (so3Log (q t)) = _
      rw [hv, so3_sq hv' ht]
    · have hf : atanFactor w (norm3 x y z) = 2 * Real.arccos w / norm3 x y z := by
        rw [atanFactor, if_neg h0, if_neg hw.ne', if_neg (not_lt.2 hw.le), abs_of_pos hw, arctan2_eq_arctan hw,
          Real.arccos_eq_arctan hw, hs]
      simp only [Function.comp_apply, hq0, hs, so3Log, Spec.vec, dotProduct, Fin.sum_univ_three, Pi.add_apply,
        List.getD_cons_zero, List.getD_cons_succ, hf]
      simp
      field_simp
      ring

/-- The derivative of the squared length of the logarithm, for rotations of less than half a turn. -/
theorem so3_sq_deriv {c d e : List ℝ} (hc : LieType.so3.Valid c) (hw : c.getD 0 0 ≠ 0) (hd : d.length = 3) (he : e.length = 3) :
    HasDerivAt (fun t => sqNorm (so3Log (so3Mul (so3Mul (so3Exp (scale t d)) (so3Exp (scale t e))) c)))
      (2 * (vec (so3Log c) 3 ⬝ᵥ (vec d 3 + vec e 3))) 0 := by
  obtain ⟨w, x, y, z, rfl, h⟩ := hc
  have hw' : w ≠ 0 := hw
  rcases lt_or_gt_of_ne hw' with hneg | hpos
  · have hD := so3_sq_deriv_pos (w := -w) (x := -x) (y := -y) (z := -z) (by simpa using h) (by linarith) hd he
    rw [so3Log_neg hw'] at hD
    refine hD.congr_of_eventuallyEq (Eventually.of_forall fun t => ?_)
    obtain ⟨p0, p1, p2, p3, hp, -⟩ := so3Mul_valid (so3Exp_valid (scale t d)) (so3Exp_valid (scale t e))
    beta_reduce
    rw [hp]
    have e1 : so3Mul [p0, p1, p2, p3] [-w, -x, -y, -z] =
        [-(so3Mul [p0, p1, p2, p3] [w, x, y, z]).getD 0 0, -(so3Mul [p0, p1, p2, p3] [w, x, y, z]).getD 1 0,
          -(so3Mul [p0, p1, p2, p3] [w, x, y, z]).getD 2 0, -(so3Mul [p0, p1, p2, p3] [w, x, y, z]).getD 3 0] := by
      simp only [so3Mul, List.getD_cons_zero, List.getD_cons_succ, List.cons.injEq, and_true]
      refine ⟨?_, ?_, ?_, ?_⟩ <;> ring
    rw [e1, so3Log_neg_sq]
    rfl
  · exact so3_sq_deriv_pos h hpos hd he

/-- A residual of less than half a turn has a quaternion with non-zero real part. -/
theorem so3_real_ne_zero {c : List ℝ} (hc : LieType.so3.Valid c) (h : LieType.so3.angle (so3Log c) < Real.pi) : c.getD 0 0 ≠ 0 := by
  obtain ⟨w, x, y, z, rfl, hv⟩ := hc
  intro hw
  have hw : w = 0 := hw
  subst hw
  have hn : norm3 x y z = 1 := norm3_eq_of_sq (by norm_num) (by linarith)
  have h' : √((-Real.pi * x) ^ 2 + (-Real.pi * y) ^ 2 + (-Real.pi * z) ^ 2) < Real.pi := by
    simpa [so3Log, atanFactor, hn, LieType.angle] using h
  rw [show (-Real.pi * x) ^ 2 + (-Real.pi * y) ^ 2 + (-Real.pi * z) ^ 2 = Real.pi ^ 2 * (0 ^ 2 + x ^ 2 + y ^ 2 + z ^ 2) by ring,
    hv, mul_one, Real.sqrt_sq Real.pi_pos.le] at h'
  exact lt_irrefl _ h'

end Jaxfg
