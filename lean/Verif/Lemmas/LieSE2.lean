/- SE(2). -/
import Verif.Lemmas.LieSO2

namespace Jaxfg.LieGroup
open Spec Filter Topology
open Matrix

theorem sinOver_mul (θ : ℝ) : sinOver θ * θ = Real.sin θ := by
  by_cases h : θ = 0
  · simp [h]
  · rw [sinOver, if_neg h, div_mul_cancel₀ _ h]

theorem cosOver_mul (θ : ℝ) : cosOver θ * θ = 1 - Real.cos θ := by
  by_cases h : θ = 0
  · simp [h]
  · rw [cosOver, if_neg h, div_mul_cancel₀ _ h]

theorem halfOverTan_mul {θ : ℝ} (h1 : -Real.pi < θ) (h2 : θ ≤ Real.pi) :
    halfOverTan θ * (1 - Real.cos θ) = θ / 2 * Real.sin θ := by
  by_cases h : Real.cos θ - 1 = 0
  · have h0 : θ = 0 := (Real.cos_eq_one_iff_of_lt_of_lt (by linarith [Real.pi_pos]) (by linarith [Real.pi_pos])).1 (by linarith)
    simp [h0]
  · rw [halfOverTan, if_neg h]
    field_simp
    ring

/-- The two entries of the product of `V⁻¹` and `V`. -/
theorem vinv_mul_v {θ : ℝ} (h1 : -Real.pi < θ) (h2 : θ ≤ Real.pi) :
    halfOverTan θ * sinOver θ + θ / 2 * cosOver θ = 1 ∧ halfOverTan θ * cosOver θ = θ / 2 * sinOver θ := by
  by_cases h0 : θ = 0
  · simp [h0, halfOverTan, sinOver, cosOver]
  have hk := halfOverTan_mul h1 h2
  have hc : 1 - Real.cos θ ≠ 0 := by
    intro h
    exact h0 ((Real.cos_eq_one_iff_of_lt_of_lt (by linarith [Real.pi_pos]) (by linarith [Real.pi_pos])).1 (by linarith))
  have hsc := Real.sin_sq_add_cos_sq θ
  rw [sinOver, cosOver, if_neg h0, if_neg h0]
  constructor
  · have : halfOverTan θ = θ / 2 * Real.sin θ / (1 - Real.cos θ) := by rw [← hk]; field_simp
    rw [this]
    field_simp
    linear_combination hsc
  · field_simp
    linear_combination 2 * hk

theorem se2_exp_log {x : List ℝ} (hx : LieType.Valid .se2 x) : se2Exp (se2Log x) = x := by
  obtain ⟨c, s, a, b, rfl, h⟩ := hx
  have hm := arctan2_mem s c
  obtain ⟨hc, hs⟩ := cos_sin_arctan2 h
  obtain ⟨e1, e2⟩ := vinv_mul_v hm.1 hm.2
  simp only [se2Exp, se2Log, List.getD_cons_zero, List.getD_cons_succ, List.cons.injEq, and_true]
  refine ⟨hc, hs, ?_, ?_⟩
  · linear_combination a * e1 - b * e2
  · linear_combination a * e2 + b * e1

theorem se2_log_exp {d : List ℝ} (hd : d.length = 3) (h1 : -Real.pi < d.getD 2 0) (h2 : d.getD 2 0 ≤ Real.pi) :
    se2Log (se2Exp d) = d := by
  obtain ⟨a, b, θ, rfl⟩ := List.length_eq_three.1 hd
  simp only [List.getD_cons_zero, List.getD_cons_succ] at h1 h2
  obtain ⟨e1, e2⟩ := vinv_mul_v h1 h2
  simp only [se2Exp, se2Log, List.getD_cons_zero, List.getD_cons_succ, List.cons.injEq, and_true, arctan2_cos_sin h1 h2]
  constructor
  · linear_combination a * e1 - b * e2
  · linear_combination a * e2 + b * e1

theorem sinOver_neg (θ : ℝ) : sinOver (-θ) = sinOver θ := by
  by_cases h : θ = 0
  · simp [h]
  · rw [sinOver, sinOver, if_neg h, if_neg (by simpa using h), Real.sin_neg, neg_div_neg_eq]

theorem cosOver_neg (θ : ℝ) : cosOver (-θ) = -cosOver θ := by
  by_cases h : θ = 0
  · simp [h, cosOver]
  · rw [cosOver, cosOver, if_neg h, if_neg (by simpa using h), Real.cos_neg, div_neg]

/-- `V(θ)` is `R(θ) V(-θ)`. -/
theorem rot_v (θ : ℝ) : Real.cos θ * sinOver θ + Real.sin θ * cosOver θ = sinOver θ ∧
    Real.sin θ * sinOver θ - Real.cos θ * cosOver θ = cosOver θ := by
  have hsc := Real.sin_sq_add_cos_sq θ
  by_cases h : θ = 0
  · simp [h, sinOver, cosOver]
  · rw [sinOver, cosOver, if_neg h, if_neg h]
    constructor
    · field_simp
      ring
    · field_simp
      linear_combination hsc

/-- First-order behaviour of the translation of `exp (t d)`. -/
theorem se2_exp_deriv (a b θ : ℝ) :
    HasDerivAt (fun t : ℝ => sinOver (t * θ) * (t * a) - cosOver (t * θ) * (t * b)) a 0 ∧
    HasDerivAt (fun t : ℝ => cosOver (t * θ) * (t * a) + sinOver (t * θ) * (t * b)) b 0 := by
  have hlin : ∀ u : ℝ, HasDerivAt (fun t : ℝ => t * u) u 0 := fun u => by
    simpa using (hasDerivAt_id (0:ℝ)).mul_const u
  have hs : ContinuousAt (fun t : ℝ => sinOver (t * θ)) 0 :=
    ContinuousAt.comp (g := sinOver) (f := fun t : ℝ => t * θ) (by simpa using continuousAt_sinOver) (by fun_prop)
  have hc : ContinuousAt (fun t : ℝ => cosOver (t * θ)) 0 :=
    ContinuousAt.comp (g := cosOver) (f := fun t : ℝ => t * θ) (by simpa using continuousAt_cosOver) (by fun_prop)
  have s0 : sinOver (0 * θ) = 1 := by simp [sinOver]
  have c0 : cosOver (0 * θ) = 0 := by simp [cosOver]
  have f1 := fun u => hasDerivAt_mul_of_zero hs (hlin u) (by simp)
  have f2 := fun u => hasDerivAt_mul_of_zero hc (hlin u) (by simp)
  exact ⟨((f1 a).sub (f2 b)).congr_deriv (by rw [s0, c0]; ring), ((f2 a).add (f1 b)).congr_deriv (by rw [s0, c0]; ring)⟩

/-- First-order behaviour of the logarithm at the identity. -/
theorem se2_log_deriv {φ X Y : ℝ → ℝ} {φ' X' Y' : ℝ} (hφ : HasDerivAt φ φ' 0) (hX : HasDerivAt X X' 0) (hY : HasDerivAt Y Y' 0)
    (φ0 : φ 0 = 0) (X0 : X 0 = 0) (Y0 : Y 0 = 0) :
    HasDerivAt (fun t => Spec.vec (se2Log [Real.cos (φ t), Real.sin (φ t), X t, Y t]) 3) (Spec.vec [X', Y', φ'] 3) 0 := by
  have hev := arctan2_eventually hφ.continuousAt (by rw [φ0]; linarith [Real.pi_pos]) (by rw [φ0]; exact Real.pi_pos)
  have hk : ContinuousAt (fun t : ℝ => halfOverTan (φ t)) 0 :=
    ContinuousAt.comp (g := halfOverTan) (by rw [φ0]; exact continuousAt_halfOverTan) hφ.continuousAt
  have k0 : halfOverTan (φ 0) = 1 := by simp [halfOverTan, φ0]
  have hh : ContinuousAt (fun t : ℝ => φ t / 2) 0 := hφ.continuousAt.div_const 2
  have hn : ContinuousAt (fun t : ℝ => -(φ t / 2)) 0 := hh.neg
  have aX := hasDerivAt_mul_of_zero hk hX X0
  have aY := hasDerivAt_mul_of_zero hk hY Y0
  have bX := hasDerivAt_mul_of_zero hn hX X0
  have bY := hasDerivAt_mul_of_zero hh hY Y0
  refine hasDerivAt_vec fun k hk3 => ?_
  interval_cases k
  · refine ((aX.add bY).congr_of_eventuallyEq ?_).congr_deriv ?_
    · filter_upwards [hev] with t ht
      simp only [se2Log, List.getD_cons_zero, List.getD_cons_succ, ht]
      rfl
    · simp [φ0, Spec.vec, halfOverTan]
  · refine ((bX.add aY).congr_of_eventuallyEq ?_).congr_deriv ?_
    · filter_upwards [hev] with t ht
      simp only [se2Log, List.getD_cons_zero, List.getD_cons_succ, ht]
      rfl
    · simp [φ0, Spec.vec, halfOverTan]
  · refine (hφ.congr_of_eventuallyEq ?_).congr_deriv ?_
    · filter_upwards [hev] with t ht
      simp only [se2Log, List.getD_cons_zero, List.getD_cons_succ, ht]
    · simp [Spec.vec]

theorem arrMat_mulVec_three {M : Arr ℝ} {d : List ℝ} {a b c : ℝ} (hd : d = [a, b, c]) :
    List.ofFn (arrMat M 3 3 *ᵥ Spec.vec d 3) =
      [M.data.getD 0 0 * a + M.data.getD 1 0 * b + M.data.getD 2 0 * c,
        M.data.getD 3 0 * a + M.data.getD 4 0 * b + M.data.getD 5 0 * c,
        M.data.getD 6 0 * a + M.data.getD 7 0 * b + M.data.getD 8 0 * c] := by
  subst hd
  simp [List.ofFn_succ, mulVec, dotProduct, Fin.sum_univ_three, arrMat, Spec.vec]

theorem se2_laws : LieLaws se2 (LieType.Valid .se2) where
  len := by rintro _ ⟨c, s, a, b, rfl, _⟩; rfl
  one := ⟨1, 0, 0, 0, rfl, by norm_num⟩
  mul := by
    rintro _ _ ⟨c, s, a, b, rfl, h⟩ ⟨c', s', a', b', rfl, h'⟩
    refine ⟨_, _, _, _, rfl, ?_⟩
    simp only [List.getD_cons_zero, List.getD_cons_succ]
    linear_combination (c' ^ 2 + s' ^ 2) * h + h'
  inv := by
    rintro _ ⟨c, s, a, b, rfl, h⟩
    refine ⟨_, _, _, _, rfl, ?_⟩
    simp only [List.getD_cons_zero, List.getD_cons_succ]
    linear_combination h
  exp := fun d => ⟨_, _, _, _, rfl, by rw [add_comm]; exact Real.sin_sq_add_cos_sq _⟩
  mul_assoc := by
    rintro _ _ _ ⟨c, s, a, b, rfl, h⟩ ⟨c', s', a', b', rfl, h'⟩ ⟨c'', s'', a'', b'', rfl, h''⟩
    simp only [se2, se2Mul, List.getD_cons_zero, List.getD_cons_succ, List.cons.injEq, and_true]
    refine ⟨?_, ?_, ?_, ?_⟩ <;> ring
  one_mul := by
    rintro _ ⟨c, s, a, b, rfl, h⟩
    simp [se2, se2Mul]
  mul_one := by
    rintro _ ⟨c, s, a, b, rfl, h⟩
    simp [se2, se2Mul]
  inv_mul := by
    rintro _ ⟨c, s, a, b, rfl, h⟩
    simp only [se2, se2Mul, se2Inv, List.getD_cons_zero, List.getD_cons_succ, List.cons.injEq, and_true]
    refine ⟨?_, ?_, ?_, ?_⟩
    · linear_combination h
    all_goals ring
  mul_inv := by
    rintro _ ⟨c, s, a, b, rfl, h⟩
    simp only [se2, se2Mul, se2Inv, List.getD_cons_zero, List.getD_cons_succ, List.cons.injEq, and_true]
    refine ⟨?_, ?_, ?_, ?_⟩
    · linear_combination h
    · ring
    · linear_combination -a * h
    · linear_combination -b * h
  log_len := fun _ => rfl
  adjoint := fun _ => ⟨rfl, rfl⟩
  exp_neg := by
    intro d hd
    obtain ⟨a, b, θ, rfl⟩ := List.length_eq_three.1 hd
    obtain ⟨e1, e2⟩ := rot_v θ
    simp only [se2, se2Inv, se2Exp, scale, List.map_cons, List.map_nil, List.getD_cons_zero, List.getD_cons_succ, neg_mul,
      one_mul, Real.cos_neg, Real.sin_neg, sinOver_neg, cosOver_neg, List.cons.injEq, and_true, true_and]
    constructor
    · linear_combination -a * e1 - b * e2
    · linear_combination a * e2 - b * e1
  exp_zero := by simp [se2, se2Exp]
  conj := by
    rintro _ d ⟨c, s, a, b, rfl, h⟩ hd
    obtain ⟨u, v, θ, rfl⟩ := List.length_eq_three.1 hd
    have hA : se2.Ad [c, s, a, b] [u, v, θ] = [c * u - s * v + b * θ, s * u + c * v - a * θ, θ] := by
      refine (arrMat_mulVec_three rfl).trans ?_
      simp [se2, sub_eq_add_neg]
    rw [hA]
    have e1 := sinOver_mul θ
    have e2 := cosOver_mul θ
    simp only [se2, se2Mul, se2Inv, se2Exp, List.getD_cons_zero, List.getD_cons_succ, List.cons.injEq, and_true]
    refine ⟨?_, ?_, ?_, ?_⟩
    · linear_combination Real.cos θ * h
    · linear_combination Real.sin θ * h
    · linear_combination (-Real.cos θ * a + Real.sin θ * b) * h - b * e1 - a * e2
    · linear_combination (-Real.sin θ * a - Real.cos θ * b) * h + a * e1 - b * e2
  deriv := by
    rintro _ d e ⟨c, s, a, b, rfl, h⟩ hlog hd he
    obtain ⟨d1, d2, d3, rfl⟩ := List.length_eq_three.1 hd
    obtain ⟨e1, e2, e3, rfl⟩ := List.length_eq_three.1 he
    have hid : [c, s, a, b] = [1, 0, 0, 0] := by
      rw [← se2_exp_log ⟨c, s, a, b, rfl, h⟩, show se2Log [c, s, a, b] = [0, 0, 0] from hlog]
      simp [se2Exp]
    rw [hid]
    have hlin : ∀ u : ℝ, HasDerivAt (fun t : ℝ => t * u) u 0 := fun u => by
      simpa using (hasDerivAt_id (0:ℝ)).mul_const u
    have hθ := hlin (d3 + e3)
    obtain ⟨x1, y1⟩ := se2_exp_deriv d1 d2 d3
    obtain ⟨x2, y2⟩ := se2_exp_deriv e1 e2 e3
    have hc : HasDerivAt (fun t : ℝ => Real.cos (t * d3)) 0 0 := by
      have := (hlin d3).cos
      simpa using this
    have hs : HasDerivAt (fun t : ℝ => Real.sin (t * d3)) d3 0 := by
      have := (hlin d3).sin
      simpa using this
    have hX := (((hc.mul x2).sub (hs.mul y2)).add x1)
    have hY := (((hs.mul x2).add (hc.mul y2)).add y1)
    refine ((se2_log_deriv hθ hX hY (by simp) (by simp) (by simp)).congr_of_eventuallyEq (Eventually.of_forall fun t => ?_)).congr_deriv ?_
    · simp only [se2, se2Mul, se2Exp, scale, List.map_cons, List.map_nil, List.getD_cons_zero, List.getD_cons_succ,
        mul_one, mul_zero, sub_zero, add_zero, zero_add, mul_add, Real.cos_add, Real.sin_add, Pi.add_apply, Pi.mul_apply,
        Pi.sub_apply]
    · show _ = Spec.vec [d1, d2, d3] 3 + Spec.vec [e1, e2, e3] 3
      funext i
      fin_cases i <;> simp [Spec.vec, add_comm]

end Jaxfg.LieGroup
