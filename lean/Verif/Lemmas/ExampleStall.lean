/- A graph with one scalar variable `x` and one factor with two residuals `u x`, `w x` (any differentiable functions) and unit noise, and
the particular functions on which Levenberg-Marquardt stalls. -/
import Verif.Lemmas.ExamplePoly
import Mathlib.Analysis.SpecialFunctions.SmoothTransition

namespace Jaxfg
open Ext (fin)

namespace Curve
open Spec
open Ex (C x)

/-- Residuals `u x`, `w x` and their derivatives. -/
noncomputable def F (u w : ℝ → ℝ) : Nat → FactorClass := fun _ =>
  { hint := some (.tuple [fun t => t == 0])
    residual := fun _ vs =>
      let v := (vs.getD 0 ⟨0, []⟩).flatten.getD 0 0
      [u v, w v]
    jacobians := fun _ vs =>
      let v := (vs.getD 0 ⟨0, []⟩).flatten.getD 0 0
      [⟨[2, 1], [deriv u v, deriv w v]⟩] }

noncomputable def f : Factor := ⟨0, [x], .diagonal ⟨[2], [1, 1]⟩, []⟩

theorem f_wf (u w : ℝ → ℝ) : FactorWF (F u w) C f := by
  have hN : NoiseWF f.noise 2 2 := ⟨⟨rfl, rfl⟩, rfl⟩
  have hd : rdim f = 2 := noiseDim_eq hN
  refine ⟨by rw [hd]; omega, by simp [f], by rw [hd]; exact hN, by simp [f], ?_, ?_, ?_⟩
  · exact .cons rfl .nil
  · intro vals hv
    rw [hd]; rfl
  · intro vals hv
    rw [hd]
    refine .cons ?_ .nil
    exact ⟨rfl, rfl⟩

/-- The graph that `StackedFactorGraph.make` builds. -/
noncomputable def g : Graph where
  factorStacks := [⟨1, 0, [0], .diagonal, [⟨[1, 2], [1, 1]⟩], [[[0]]], Poly.lay⟩]
  jacobianCoords := [(0, 0), (1, 0)]
  layout := Poly.lay
  localLayout := Poly.llay
  residualDim := 2

theorem make_eq : Graph.make C [f] = .ok g := rfl

open Poly (at_)

variable (u w : ℝ → ℝ)

theorem cost_eq (v : ℝ) : (g.ops (F u w) C).computeCost (at_ v) = .ok (u v ^ 2 + w v ^ 2, [u v, w v]) := by
  have : (g.ops (F u w) C).computeCost (at_ v) = .ok ((1 * u v) ^ 2 + ((1 * w v) ^ 2 + 0), [1 * u v, 1 * w v]) := rfl
  rw [this]; simp

/-- The Jacobian, as the graph stores it. -/
noncomputable def J (j k : ℝ) : Coo ℝ := ⟨[j, k], [0, 1], [0, 0], (2, 1)⟩

theorem jac_eq (v r s : ℝ) : (g.ops (F u w) C).jacobian (at_ v) [r, s] = .ok (J (deriv u v) (deriv w v)) := by
  have : (g.ops (F u w) C).jacobian (at_ v) [r, s] = .ok (J (1 * deriv u v) (1 * deriv w v)) := rfl
  rw [this]; simp

theorem matmul_eq (j k y : ℝ) : (J j k).matmul [y] = .ok [j * y, k * y] := by
  have : (J j k).matmul [y] = .ok [0 + j * y, 0 + k * y] := rfl
  rw [this]; simp

theorem matmul_T_eq (j k y z : ℝ) : (J j k).T.matmul [y, z] = .ok [j * y + k * z] := by
  have : (J j k).T.matmul [y, z] = .ok [0 + j * y + k * z] := rfl
  rw [this]; simp

theorem J_wf (j k : ℝ) : CooWF (J j k) := ⟨rfl, rfl, by simp [J], by simp [J]⟩

theorem chol_eq (stale : Pattern → ScipyCoo ℝ → ℝ → List ℝ → Py (List ℝ)) (addr : Nat) (j k b l : ℝ) (hl : 0 ≤ l) (i : Nat) :
    Poly.chol stale addr (J j k) [b] l i = .ok [b / (j ^ 2 + k ^ 2 + l + 1 / 100000)] := by
  obtain ⟨-, y, h1, h2, h3, -⟩ := Props.C35_cholmod stale .empty addr (J j k) (J_wf j k) [b] rfl l hl (fun p hp => by cases hp)
  show (cholmodSolve stale .empty addr _ [b] l).1 = _
  rw [h1]
  match y, h2 with
  | [z], _ =>
    have hD : 0 < j ^ 2 + k ^ 2 + l + 1 / 100000 := by positivity
    have hm0 : cooMatrix (J j k) 2 1 0 0 = j := by simp [cooMatrix, entries, J]
    have hm1 : cooMatrix (J j k) 2 1 1 0 = k := by simp [cooMatrix, entries, J]
    have h4 : ((cooMatrix (J j k) 2 1).transpose * cooMatrix (J j k) 2 1 +
      (l + 1 / 100000) • (1 : Matrix (Fin 1) (Fin 1) ℝ)).mulVec (vec [z] 1) = vec [b] 1 := h3
    have h5 := congrFun h4 0
    simp only [Matrix.mulVec, dotProduct, Matrix.add_apply, Matrix.mul_apply, Matrix.transpose_apply, Matrix.smul_apply,
      Matrix.one_apply_eq, Fin.sum_univ_one, Fin.sum_univ_two, hm0, hm1] at h5
    have h6 : (j * j + k * k + (l + 1 / 100000) • 1) * z = b := h5
    rw [smul_eq_mul] at h6
    congr 2
    rw [eq_div_iff hD.ne', ← h6]
    ring

/-- Variable classes and graph on `Ext`. -/
noncomputable abbrev CE : Ty → VarClass Ext := fun t => (Ex.C t).lift
noncomputable abbrev gE : GraphOps Ext := (g.ops (F u w) Ex.C).lift

theorem lifts : Lifts CE (gE u w) Ex.C (g.ops (F u w) Ex.C) := lifts_lift _ _

/-- A Levenberg-Marquardt step from `v`, recorded residuals `r` and `s`. -/
theorem lm_step (stale : Pattern → ScipyCoo ℝ → ℝ → List ℝ → Py (List ℝ)) (addr : Nat) (S : LevenbergMarquardt ℝ)
    (hS : S.linear = Poly.chol stale addr) (hf : S.lambdaFactor ≠ 0) (i : Nat) {v c r s lam j k d v' : ℝ} (dn : Bool) (hl : 0 ≤ lam)
    (hj : deriv u v = j) (hk : deriv w v = k) (hd : d = (j * -r + k * -s) / (j ^ 2 + k ^ 2 + lam + 1 / 100000))
    (hv : v' = v + d) (acc : Bool)
    (hacc : acc = Scal.le (fin S.stepQualityMin) (fin (u v' ^ 2 + w v' ^ 2 - c) / fin ((j * d + r) ^ 2 + (k * d + s) ^ 2 - c))) :
    ∃ conv log, (conv = true ↔ StopReason Ex.C S.toCriteria ⟨i, at_ v, c, [r, s], dn⟩ (u v' ^ 2 + w v' ^ 2) [d] [j * -r + k * -s] Poly.llay) ∧
      S.lift.step CE (gE u w) (LMState.map fin ⟨⟨i, at_ v, c, [r, s], dn⟩, lam⟩) =
      .ok (LMState.map fin ⟨⟨i + 1, if acc then at_ v' else at_ v, if acc then u v' ^ 2 + w v' ^ 2 else c, [u v', w v'],
        decide (S.maxIterations - 1 ≤ (i : Int)) || (acc && conv)⟩, nextLambda S acc lam⟩, log) := by
  obtain ⟨conv, hconv⟩ : ∃ conv, convergedTest C S.toCriteria ⟨i, at_ v, c, [r, s], dn⟩ (u v' ^ 2 + w v' ^ 2) [d] Poly.llay
    [j * -r + k * -s] = .ok conv := ⟨_, rfl⟩
  refine ⟨conv, _, convergedTest_ok hconv, (lmStep_fin (lifts u w) (liftsLM_lift S) hf).2
    ⟨J j k, [j * -r + k * -s], [d], at_ v', u v' ^ 2 + w v' ^ 2, [u v', w v'], [j * d, k * d], acc, conv, ?_, ?_, ?_, ?_, ?_, ?_, rfl, ?_, hconv,
      rfl, rfl⟩⟩
  · rw [← hj, ← hk]; exact jac_eq u w v r s
  · exact matmul_T_eq j k (-r) (-s)
  · rw [hS, hd]; exact chol_eq stale addr j k _ lam hl i
  · rw [hv]; exact Poly.retract_eq v d
  · exact cost_eq u w v'
  · exact matmul_eq j k d
  · rw [hacc]
    simp [predicted, sqNorm]

end Curve

namespace Stall
open Spec Curve
open Poly (at_)

/-- A smooth function that is 1 up to 1/2 and 0 from 3/4 on. -/
noncomputable def w : ℝ → ℝ := fun x => Real.smoothTransition (3 - 4 * x)

/-- A smooth function that is `x` from 3/4 on, and up to 1/2 the linear function with the root `51/100051` that is `100101/200000` lower
at 0. -/
noncomputable def u : ℝ → ℝ := fun x => x + w x * ((100101 / 200000 * (100051 / 51) - 1) * x - 100101 / 200000)

theorem w_smooth : ContDiff ℝ (⊤ : ℕ∞) w := Real.smoothTransition.contDiff.comp (by fun_prop)

theorem u_smooth : ContDiff ℝ (⊤ : ℕ∞) u := by
  have := w_smooth
  unfold u
  fun_prop

theorem w_left {x : ℝ} (h : x ≤ 1 / 2) : w x = 1 := Real.smoothTransition.one_of_one_le (by linarith)
theorem w_right {x : ℝ} (h : 3 / 4 ≤ x) : w x = 0 := Real.smoothTransition.zero_of_nonpos (by linarith)
theorem u_left {x : ℝ} (h : x ≤ 1 / 2) : u x = 100101 / 200000 * (100051 / 51 * x - 1) := by unfold u; rw [w_left h]; ring
theorem u_right {x : ℝ} (h : 3 / 4 ≤ x) : u x = x := by unfold u; rw [w_right h]; ring

theorem deriv_right {x : ℝ} (h : 3 / 4 < x) : deriv u x = 1 ∧ deriv w x = 0 := by
  have hn : ∀ᶠ y in nhds x, 3 / 4 < y := eventually_gt_nhds h
  constructor
  · have : u =ᶠ[nhds x] id := hn.mono fun y hy => u_right hy.le
    rw [this.deriv_eq]; simp
  · have : w =ᶠ[nhds x] fun _ => 0 := hn.mono fun y hy => w_right hy.le
    rw [this.deriv_eq]; simp

variable (stale : Pattern → ScipyCoo ℝ → ℝ → List ℝ → Py (List ℝ)) (addr : Nat)

/-- From `1 + e`, the step with the damping `1/2000` is rejected. -/
theorem step_rejected (S : LevenbergMarquardt ℝ) (hS : S.linear = Poly.chol stale addr) (hf : S.lambdaFactor = 2)
    (h1 : S.lambdaMin ≤ 1 / 1000) (h2 : 1 / 1000 ≤ S.lambdaMax) (hq : S.stepQualityMin = 1 / 1000) {e : ℝ} (he : 0 < e)
    (he' : e ≤ 1 / 4000) (i : Nat) (dn : Bool) :
    ∃ log, S.lift.step CE (gE u w) (LMState.map fin ⟨⟨i, at_ (1 + e), (1 + e) ^ 2, [1 + e, 0], dn⟩, 1 / 2000⟩) =
      .ok (LMState.map fin ⟨⟨i + 1, at_ (1 + e), (1 + e) ^ 2, [100101 / 200000 * e, 1], decide (S.maxIterations - 1 ≤ (i : Int))⟩, 1 / 1000⟩,
        log) := by
  obtain ⟨d1, d2⟩ := deriv_right (x := 1 + e) (by linarith)
  have hv : (51 / 100051 * (1 + e) : ℝ) ≤ 1 / 2 := by linarith
  have hu : u (51 / 100051 * (1 + e)) = 100101 / 200000 * e := by rw [u_left hv]; ring
  obtain ⟨conv, log, -, h⟩ := lm_step u w stale addr S hS (by rw [hf]; norm_num) i (v := 1 + e) (c := (1 + e) ^ 2) (r := 1 + e) (s := 0)
    (lam := 1 / 2000) (j := 1) (k := 0) (d := -(100000 / 100051 * (1 + e))) (v' := 51 / 100051 * (1 + e)) dn (by norm_num) d1 d2
    (by ring) (by ring) false (by
      rw [hu, w_left hv, hq]
      have hden : (1 * -(100000 / 100051 * (1 + e)) + (1 + e)) ^ 2 + (0 * -(100000 / 100051 * (1 + e)) + 0) ^ 2 - (1 + e) ^ 2 ≠ 0 := by
        nlinarith
      symm
      rw [fin_div hden, Bool.eq_false_iff, ne_eq, fin_le, not_le]
      rw [div_lt_iff_of_neg (by nlinarith)]
      nlinarith)
  refine ⟨log, ?_⟩
  rw [h]
  have hlam : nextLambda S false (1 / 2000) = 1 / 1000 := by
    simp only [nextLambda, hf, Bool.false_eq_true, if_false]
    rw [min_eq_left (by norm_num; linarith), max_eq_right (by norm_num; linarith)]
    norm_num
  rw [hlam, hu, w_left hv]
  simp

/-- The next step, with the residual of the rejected point, is accepted; it goes half the way to `1`. -/
theorem step_accepted (S : LevenbergMarquardt ℝ) (hS : S.linear = Poly.chol stale addr) (hf : S.lambdaFactor = 2)
    (hq : S.stepQualityMin = 1 / 1000) {e : ℝ} (he : 0 < e) (he' : e ≤ 1 / 4000) (i : Nat) (dn : Bool) :
    ∃ conv log, (conv = true ↔ StopReason Ex.C S.toCriteria ⟨i, at_ (1 + e), (1 + e) ^ 2, [100101 / 200000 * e, 1], dn⟩ ((1 + e / 2) ^ 2)
        [-(e / 2)] [-(100101 / 200000 * e)] Poly.llay) ∧
      S.lift.step CE (gE u w) (LMState.map fin ⟨⟨i, at_ (1 + e), (1 + e) ^ 2, [100101 / 200000 * e, 1], dn⟩, 1 / 1000⟩) =
      .ok (LMState.map fin ⟨⟨i + 1, at_ (1 + e / 2), (1 + e / 2) ^ 2, [1 + e / 2, 0], decide (S.maxIterations - 1 ≤ (i : Int)) || conv⟩,
        1 / 2000⟩, log) := by
  obtain ⟨d1, d2⟩ := deriv_right (x := 1 + e) (by linarith)
  have hv : (3 / 4 : ℝ) ≤ 1 + e / 2 := by linarith
  obtain ⟨conv, log, hc, h⟩ := lm_step u w stale addr S hS (by rw [hf]; norm_num) i (v := 1 + e) (c := (1 + e) ^ 2)
    (r := 100101 / 200000 * e) (s := 1) (lam := 1 / 1000) (j := 1) (k := 0) (d := -(e / 2)) (v' := 1 + e / 2) dn (by norm_num) d1 d2
    (by ring) (by ring) true (by
      rw [u_right hv, w_right hv, hq]
      have hden : (1 * -(e / 2) + 100101 / 200000 * e) ^ 2 + (0 * -(e / 2) + 1) ^ 2 - (1 + e) ^ 2 ≠ 0 := by
        nlinarith
      symm
      rw [fin_div hden, fin_le, le_div_iff_of_neg (by nlinarith)]
      nlinarith)
  rw [u_right hv, w_right hv] at h hc
  refine ⟨conv, log, ?_, ?_⟩
  · rw [hc]; simp
  · rw [h]
    have hlam : nextLambda S true (1 / 1000) = 1 / 2000 := by
      simp only [nextLambda, hf, if_true]
      norm_num
    rw [hlam]
    simp

end Stall

end Jaxfg
