/- C108: the tests of the solvers on a pose graph, tests/test_pose_graphs.py. -/
import Verif.Lemmas.PoseGraphsTest
import Verif.Props.SimpleScript
import Verif.Lemmas.ExamplePoly
import Verif.Props.CgFinite

namespace Jaxfg.Props
open Spec Simple
open Ext (fin)

/-- Loading and storing the poses of the test does not change them. -/
theorem poseTest_update {CE : Ty → VarClass Ext} (n : Nat) (x : Assign ℝ) (hx : x.layout = lay n false 4) :
    (x.map fin).updateStorageLayout CE (lay n false 4) = .ok (x.map fin) := by
  have : (x.map fin).layout = lay n false 4 := hx
  simp only [Assign.updateStorageLayout, this, lay_refl]
  rfl

/-- **C108, Gauss-Newton.** `test_pose_graph_gauss_newton` passes: the solve stops after two iterations at an assignment with a cost of
at most `1/3 + 3e-20`, and all assertions hold. -/
theorem C108_gauss_newton (next : Nat) : ∃ g a, poseTestProblem next = .ok (g, a) ∧
    ∀ (stale : Pattern → ScipyCoo ℝ → ℝ → List ℝ → Py (List ℝ)) (cache : Nat → CholmodCache) (addr : Nat) CE gE sE,
      (∀ i p, (cache i).get? addr = some p → p = ((g.localLayout.dim, g.residualDim), (g.jacobianCoords.map Prod.swap).toFinset)) →
      Lifts CE gE g2oClasses (g.ops g2oFactors g2oClasses) →
      LiftsGN sE (GaussNewton.defaults fun A b l i => (cholmodSolve stale (cache i) addr A b l).1) →
      ∃ (o : Assign ℝ) (c₁ c₂ : ℝ),
        (∀ fuel, 2 ≤ fuel → sE.solve CE gE fuel (a.map fin) = .ok (some (o.map fin,
          [.iteration 0 (some 100) (fin 5) none, .iteration 1 (some 100) (fin c₁) none, .terminated 2 (fin c₂)]))) ∧
        g.computeJointNll g2oFactors g2oClasses o false = .ok c₂ ∧ c₂ < 1 / 3 + 3 / 10 ^ 20 ∧
        poseTestAsserts next g a o = .ok () := by
  refine ⟨_, _, (poseTest_eq next).trans (problem_eq next), fun stale cache addr CE gE sE hc hl hs => ?_⟩
  refine ⟨_, _, _, simple_run next hc hl hs, nll_pt .., by norm_num, ?_⟩
  rw [start_eq]
  exact asserts_ok next _ _ (by norm_num)

/-- The errors after the first iteration of Levenberg-Marquardt. -/
theorem lm_first {s₁ t₁ : ℝ}
    (hb₁ : (2 * (1 / 2000) * -2 - (1 + 2 * (1 / 2000)) * s₁) ^ 2 + (2 * (1 / 2000) * (4 / 3) - (3 + 2 * (1 / 2000)) * t₁) ^ 2 ≤
      1e-5 ^ 2 * ((-2) ^ 2 + 9 * (4 / 3) ^ 2)) :
    -(206 / 100000) ≤ s₁ ∧ s₁ ≤ -(194 / 100000) ∧ 42 / 100000 ≤ t₁ ∧ t₁ ≤ 47 / 100000 := by
  have hr : (1e-5 : ℝ) ^ 2 * ((-2) ^ 2 + 9 * (4 / 3) ^ 2) ≤ (45 / 1000000) ^ 2 := by norm_num
  have h1 := abs_le.1 (abs_le_of_sq_le_sq ((le_add_of_nonneg_right (sq_nonneg _)).trans (hb₁.trans hr)) (by norm_num))
  have h2 := abs_le.1 (abs_le_of_sq_le_sq ((le_add_of_nonneg_left (sq_nonneg _)).trans (hb₁.trans hr)) (by norm_num))
  exact ⟨by linarith [h1.1, h1.2], by linarith [h1.1, h1.2], by linarith [h2.1, h2.2], by linarith [h2.1, h2.2]⟩

/-- The costs after its two iterations. -/
theorem lm_costs {s₁ t₁ s₂ t₂ : ℝ} (h₁ : -(206 / 100000) ≤ s₁ ∧ s₁ ≤ -(194 / 100000) ∧ 42 / 100000 ≤ t₁ ∧ t₁ ≤ 47 / 100000)
    (hb₂ : (2 * (1 / 4000) * s₁ - (1 + 2 * (1 / 4000)) * s₂) ^ 2 + (2 * (1 / 4000) * t₁ - (3 + 2 * (1 / 4000)) * t₂) ^ 2 ≤
      1e-5 ^ 2 * (s₁ ^ 2 + 9 * t₁ ^ 2)) :
    costAt s₁ t₁ < 1 / 3 + 3 / 10 ^ 6 ∧ 1 / 3 + 18 / 10 ^ 7 ≤ costAt s₁ t₁ ∧
      costAt s₂ t₂ < 1 / 3 + 1 / 10 ^ 12 ∧ 1 / 3 ≤ costAt s₂ t₂ := by
  obtain ⟨a1, a2, a3, a4⟩ := h₁
  have q1 : s₁ ^ 2 ≤ (206 / 100000) ^ 2 := sq_le_sq' a1 (by linarith)
  have q2 : (194 / 100000) ^ 2 ≤ s₁ ^ 2 := by
    rw [← neg_sq s₁]
    exact pow_le_pow_left₀ (by norm_num) (by linarith) 2
  have q3 : t₁ ^ 2 ≤ (47 / 100000) ^ 2 := sq_le_sq' (by linarith) a4
  have hr : (1e-5 : ℝ) ^ 2 * (s₁ ^ 2 + 9 * t₁ ^ 2) ≤ (3 / 10 ^ 8) ^ 2 :=
    (mul_le_mul_of_nonneg_left (add_le_add q1 (mul_le_mul_of_nonneg_left q3 (by norm_num))) (by norm_num)).trans (by norm_num)
  have h1 := abs_le.1 (abs_le_of_sq_le_sq ((le_add_of_nonneg_right (sq_nonneg _)).trans (hb₂.trans hr)) (by norm_num))
  have h2 := abs_le.1 (abs_le_of_sq_le_sq ((le_add_of_nonneg_left (sq_nonneg _)).trans (hb₂.trans hr)) (by norm_num))
  have p1 : s₂ ^ 2 ≤ (11 / 10000000) ^ 2 := sq_le_sq' (by linarith [h1.1, h1.2]) (by linarith [h1.1, h1.2])
  have p2 : t₂ ^ 2 ≤ (1 / 10000000) ^ 2 := sq_le_sq' (by linarith [h2.1, h2.2]) (by linarith [h2.1, h2.2])
  have n1 := sq_nonneg s₂
  have n2 := sq_nonneg t₂
  have n3 := sq_nonneg t₁
  clear h1 h2 hr hb₂
  unfold costAt
  refine ⟨?_, ?_, ?_, ?_⟩ <;> linarith

/-- `LevenbergMarquardtSolver(linear_solver=ConjugateGradientSolver())`. -/
def IsCodeLM (tol : Nat → ℝ) (sE : LevenbergMarquardt Ext) : Prop :=
  ∃ L, sE = { (LevenbergMarquardt.defaults L).lift with linear := cgLinear fun i => fin (tol i) }

/-- At each point of its way, the code's conjugate gradients take the step of conjugate gradients in real numbers. -/
theorem lm_code_step {CE : Ty → VarClass Ext} {gE : GraphOps Ext} {n : Nat} (h : Lifts CE gE g2oClasses ((G n).ops g2oFactors g2oClasses))
    {sE : LevenbergMarquardt Ext} {tol : Nat → ℝ} (hs : IsCodeLM tol sE) (k : Nat) (s t l : ℝ) (hl : 0 ≤ l) :
    sE.step CE gE (LMState.map fin ⟨stateAt n k s t false, l⟩) =
      (LevenbergMarquardt.defaults fun A b l i => cgSolve A b l (tol i)).lift.step CE gE (LMState.map fin ⟨stateAt n k s t false, l⟩) := by
  obtain ⟨L, rfl⟩ := hs
  refine lm_step_agrees (P := fun a => a = pt n s t) h (cg_agrees ?_ tol) (LevenbergMarquardt.defaults L).lift ⟨stateAt n k s t false, l⟩ rfl
    ⟨pt n s t, _, rfl, cost_pt n s t⟩ hl
  rintro _ r A rfl ⟨_, c, rfl, hc⟩ hA
  rw [cost_pt] at hc
  obtain ⟨-, rfl⟩ := Prod.mk.inj (Except.ok.inj hc)
  rw [jac_pt] at hA
  obtain rfl := Except.ok.inj hA
  refine ⟨⟨rfl, rfl, ?_, ?_⟩, noZero_of_rank fun v hv => J_rank _ _ v hv⟩ <;> simp [Jst, J]

theorem lm_code_init {gE : GraphOps Ext} {sE : LevenbergMarquardt Ext} {tol : Nat → ℝ} (hs : IsCodeLM tol sE) (a : Assign Ext) :
    sE.init gE a = (LevenbergMarquardt.defaults fun A b l i => cgSolve A b l (tol i)).lift.init gE a := by
  obtain ⟨L, rfl⟩ := hs; rfl

theorem lm_code_verbose {sE : LevenbergMarquardt Ext} {tol : Nat → ℝ} (hs : IsCodeLM tol sE) : sE.verbose = true := by
  obtain ⟨L, rfl⟩ := hs; rfl

/-- **C108, Levenberg-Marquardt.** `test_pose_graph_levenberg_marquardt` passes: with conjugate gradient, which only solves its systems
up to a relative error of 1e-5, the solve stops after two iterations, both accepted, at an assignment whose cost is at most
`1/3 + 1e-12`, and all assertions hold. -/
theorem C108_levenberg_marquardt (next : Nat) : ∃ g a, poseTestProblem next = .ok (g, a) ∧
    ∀ CE gE sE, Lifts CE gE g2oClasses (g.ops g2oFactors g2oClasses) →
      (∃ L, sE = { (LevenbergMarquardt.defaults L).lift with linear := cgLinear fun i => fin (cgTolerance 1e-5 i) }) →
      ∃ (o : Assign ℝ) (c₁ c₂ : ℝ),
        (∀ fuel, 2 ≤ fuel → sE.solve CE gE fuel (a.map fin) = .ok (some (o.map fin,
          [.iteration 0 (some 100) (fin 5) (some (fin (1 / 2000))), .iteration 1 (some 100) (fin c₁) (some (fin (1 / 4000))),
           .terminated 2 (fin c₂)]))) ∧
        c₁ < 1 / 3 + 3 / 10 ^ 6 ∧
        g.computeJointNll g2oFactors g2oClasses o false = .ok c₂ ∧ c₂ < 1 / 3 + 1 / 10 ^ 12 ∧
        poseTestAsserts next g a o = .ok () := by
  refine ⟨_, _, (poseTest_eq next).trans (problem_eq next), fun CE gE sE hl hsE => ?_⟩
  have hs := liftsLM_lift (LevenbergMarquardt.defaults fun A b l i => cgSolve A b l (cgTolerance 1e-5 i))
  rw [start_eq]
  obtain ⟨s₁, t₁, hb₁, hst₁⟩ := lm_step hl hs 0 (by norm_num) (-2) (4 / 3) (1 / 2000) (by norm_num)
  obtain ⟨s₂, t₂, hb₂, hst₂⟩ := lm_step hl hs 1 (by norm_num) s₁ t₁ (1 / 4000) (by norm_num)
  obtain ⟨hc1, hc1l, hc2, hc2l⟩ := lm_costs (lm_first hb₁) hb₂
  obtain ⟨ha, -, -, hb⟩ := lm_first hb₁
  have hc0 : costAt (-2) (4 / 3) = 5 := by norm_num [costAt]
  have r1 := hst₁ false (by rw [hc0]; linarith) (by
    have h1 : costTest Criteria.defaults (stateAt next 0 (-2) (4 / 3) false) (costAt s₁ t₁) = false := by
      unfold costTest
      refine decide_eq_false fun h => absurd h.2 ?_
      simp only [stateAt, Criteria.defaults]
      rw [abs_of_neg (by linarith)]
      linarith
    have h2 : parameterTest Criteria.defaults (stateAt next 0 (-2) (4 / 3) false) (stepTo (-2) (4 / 3) s₁ t₁) = false := by
      unfold parameterTest
      refine decide_eq_false fun h => ?_
      simp only [stateAt, Criteria.defaults] at h
      have e1 : 1 ≤ nrm (stepTo (-2) (4 / 3) s₁ t₁) := by
        rw [nrm, Real.one_le_sqrt, sqNorm_stepTo]
        have := pow_le_pow_left₀ (by norm_num) (show (3 / 2 : ℝ) ≤ s₁ - -2 by linarith) 2
        linarith [sq_nonneg (t₁ - 4 / 3)]
      have e2 : nrm (pt next (-2) (4 / 3)).storage ≤ 2 := by
        rw [← start_eq, nrm, Real.sqrt_le_left (by norm_num)]
        norm_num [at_, sqNorm]
      linarith
    rw [h1, h2]; rfl)
  have r2 := hst₂ true (by linarith) (by
    have h1 : costTest Criteria.defaults (stateAt next 1 s₁ t₁ false) (costAt s₂ t₂) = true := by
      unfold costTest
      refine decide_eq_true ?_
      have e : (stateAt next 1 s₁ t₁ false).cost = costAt s₁ t₁ := rfl
      simp only [e, Criteria.defaults]
      refine ⟨by linarith, ?_⟩
      rw [abs_of_neg (by linarith), div_lt_iff₀ (by linarith)]
      linarith
    rw [h1]; rfl)
  rw [← lm_code_step hl hsE 0 (-2) (4 / 3) (1 / 2000) (by norm_num)] at r1
  rw [← lm_code_step hl hsE 1 s₁ t₁ (1 / 4000) (by norm_num)] at r2
  refine ⟨pt next s₂ t₂, costAt s₁ t₁, costAt s₂ t₂, fun fuel hfuel => ?_, hc1, nll_pt .., hc2, asserts_ok next s₂ t₂ ?_⟩
  · have hlay : gE.layout = lay next false 4 := hl.layout
    refine baseSolve_some.2 ⟨_, LMState.map fin ⟨stateAt next 0 (-2) (4 / 3) false, 1 / 2000⟩,
      LMState.map fin ⟨stateAt next 2 s₂ t₂ true, 1 / 4000 / 2⟩,
      [.iteration 0 (some 100) (fin (costAt (-2) (4 / 3))) (some (fin (1 / 2000)))] ++
        [.iteration 1 (some 100) (fin (costAt s₁ t₁)) (some (fin (1 / 4000)))],
      by rw [hlay]; exact poseTest_update next _ rfl, (lm_code_init hsE _).trans ((lmInit_fin hl hs).2 ⟨_, _, cost_pt .., rfl⟩), ?_,
      poseTest_update next _ rfl, ?_⟩
    · rw [show (1 / 2000 / 2 : ℝ) = 1 / 4000 by norm_num] at r1
      have hr := (Runs.refl (LMState.map fin ⟨stateAt next 0 (-2) (4 / 3) false, 1 / 2000⟩)).step
        (done := fun s => (LMState.toState s : State Ext).done) rfl r1
      have := whileLoop_of_runs (hr.step rfl r2) hfuel (whileLoop_done rfl)
      simpa using this
    · rw [lm_code_verbose hsE, hc0]
      rfl
  · unfold costAt at hc2
    linarith

/-- **C108, dogleg.** `test_pose_graph_dogleg` passes: the first step is the steepest descent step cut off at the radius 1, the next two
are Gauss-Newton steps inside the radius 3; the solve stops after these three iterations at an assignment whose cost is at most
`1/3 + 1e-19`, and all assertions hold. -/
theorem C108_dogleg (next : Nat) : ∃ g a, poseTestProblem next = .ok (g, a) ∧
    ∀ (stale : Pattern → ScipyCoo ℝ → ℝ → List ℝ → Py (List ℝ)) (cache : Nat → CholmodCache) (addr : Nat) CE gE sE,
      (∀ i p, (cache i).get? addr = some p → p = ((g.localLayout.dim, g.residualDim), (g.jacobianCoords.map Prod.swap).toFinset)) →
      Lifts CE gE g2oClasses (g.ops g2oFactors g2oClasses) →
      LiftsDogleg sE (Dogleg.defaults fun A b l i => (cholmodSolve stale (cache i) addr A b l).1) →
      ∃ (o : Assign ℝ) (c₁ c₂ c₃ : ℝ),
        (∀ fuel, 3 ≤ fuel → sE.solve CE gE fuel (a.map fin) = .ok (some (o.map fin,
          [.iteration 0 (some 100) (fin 5) (some (fin 1)), .iteration 1 (some 100) (fin c₁) (some (fin 3)),
           .iteration 2 (some 100) (fin c₂) (some (fin 3)), .terminated 3 (fin c₃)]))) ∧
        c₁ = 38 / 5 - 2 * √10 ∧ c₂ < 1 / 3 + 1 / 10 ^ 9 ∧
        g.computeJointNll g2oFactors g2oClasses o false = .ok c₃ ∧ c₃ < 1 / 3 + 1 / 10 ^ 19 ∧
        poseTestAsserts next g a o = .ok () := by
  refine ⟨_, _, (poseTest_eq next).trans (problem_eq next), fun stale cache addr CE gE sE hc hl hs => ?_⟩
  have hcache : ∀ i, CacheOK (cache i) addr := hc
  rw [start_eq]
  have h10 : (0 : ℝ) < √10 := Real.sqrt_pos.2 (by norm_num)
  have h10q : √10 * √10 = (10 : ℝ) := Real.mul_self_sqrt (by norm_num)
  obtain ⟨u, hu⟩ : ∃ u, u = 1 / √10 := ⟨_, rfl⟩
  have hu' : u = √10 / 10 := by
    rw [hu]; field_simp; linarith
  have huq : u ^ 2 = 1 / 10 := by
    rw [hu', div_pow, Real.sq_sqrt (by norm_num)]; norm_num
  have hul : 316 / 1000 ≤ u := by
    rw [hu', le_div_iff₀ (by norm_num)]
    exact Real.le_sqrt_of_sq_le (by norm_num)
  have huu : u ≤ 317 / 1000 := by
    rw [hu', div_le_iff₀ (by norm_num), Real.sqrt_le_left (by norm_num)]
    norm_num
  obtain ⟨s₁, hs₁⟩ : ∃ s₁, s₁ = -2 + 2 * u := ⟨_, rfl⟩
  obtain ⟨t₁, ht₁⟩ : ∃ t₁, t₁ = 4 / 3 - 4 * u := ⟨_, rfl⟩
  have hc0 : costAt (-2) (4 / 3) = 5 := by norm_num [costAt]
  have hc1 : costAt s₁ t₁ = 38 / 5 - 20 * u := by
    rw [costAt, hs₁, ht₁]
    linear_combination 26 * huq
  have bs₁ : 1 ≤ s₁ ^ 2 ∧ s₁ ^ 2 ≤ 19 / 10 := by
    rw [hs₁]
    constructor <;> nlinarith
  have bt₁ : t₁ ^ 2 ≤ 1 / 100 := by
    rw [ht₁]
    nlinarith
  have bt₁' := sq_nonneg t₁
  have hc2 : costAt (s₁ / 100001) (t₁ / 300001) < 1 / 3 + 2 / 10 ^ 10 := by
    unfold costAt
    rw [div_pow, div_pow]
    linarith
  have hc2l : 1 / 3 + 4 / 10 ^ 11 < costAt (s₁ / 100001) (t₁ / 300001) := by
    unfold costAt
    rw [div_pow, div_pow]
    linarith
  have hc3 : costAt (s₁ / 100001 / 100001) (t₁ / 300001 / 300001) < 1 / 3 + 2 / 10 ^ 20 := by
    unfold costAt
    rw [div_pow, div_pow, div_pow, div_pow]
    linarith
  have hc3l : 1 / 3 ≤ costAt (s₁ / 100001 / 100001) (t₁ / 300001 / 300001) := by
    unfold costAt
    nlinarith [sq_nonneg (s₁ / 100001 / 100001), sq_nonneg (t₁ / 300001 / 300001)]
  have n1 : nrm (stepTo (-2) (4 / 3) s₁ t₁) = 1 := by
    rw [nrm, sqNorm_stepTo, hs₁, ht₁, Real.sqrt_eq_one]
    linear_combination 10 * huq
  have n2 : nrm (stepTo s₁ t₁ (s₁ / 100001) (t₁ / 300001)) ≤ 1 := by
    rw [nrm, sqNorm_stepTo, Real.sqrt_le_left (by norm_num)]
    nlinarith
  have n2' : 1 / 2 ≤ nrm (stepTo s₁ t₁ (s₁ / 100001) (t₁ / 300001)) := by
    rw [nrm, sqNorm_stepTo]
    refine Real.le_sqrt_of_sq_le ?_
    nlinarith
  have n3 : nrm (stepTo (s₁ / 100001) (t₁ / 300001) (s₁ / 100001 / 100001) (t₁ / 300001 / 300001)) ≤ 1 := by
    rw [nrm, sqNorm_stepTo, Real.sqrt_le_left (by norm_num)]
    nlinarith
  have r1 := dogleg_step hl hcache hs 0 (by norm_num) (-2) (4 / 3) s₁ t₁ 1 (d := false) (by rw [hs₁, ht₁]; exact dogleg_first hu)
    (by rw [hc0, hc1]; linarith) (by
      have h1 : costTest Criteria.defaults (stateAt next 0 (-2) (4 / 3) false) (costAt s₁ t₁) = false := by
        unfold costTest
        refine decide_eq_false fun h => absurd h.2 ?_
        have e : (stateAt next 0 (-2) (4 / 3) false).cost = 5 := hc0
        simp only [e, Criteria.defaults]
        rw [abs_of_neg (by linarith)]
        linarith
      have h2 : parameterTest Criteria.defaults (stateAt next 0 (-2) (4 / 3) false) (stepTo (-2) (4 / 3) s₁ t₁) = false := by
        unfold parameterTest
        refine decide_eq_false fun h => ?_
        simp only [stateAt, Criteria.defaults] at h
        have e2 : nrm (pt next (-2) (4 / 3)).storage ≤ 2 := by
          rw [← start_eq, nrm, Real.sqrt_le_left (by norm_num)]
          norm_num [at_, sqNorm]
        linarith
      rw [h1, h2]; rfl)
  rw [n1, show max (1 : ℝ) (3 * 1) = 3 by norm_num] at r1
  have r2 := dogleg_step hl hcache hs 1 (by norm_num) s₁ t₁ (s₁ / 100001) (t₁ / 300001) 3 (d := false)
    (dogleg_inside s₁ t₁ 3 (by norm_num) (by linarith)) (by intro h; linarith) (by
      have h1 : costTest Criteria.defaults (stateAt next 1 s₁ t₁ false) (costAt (s₁ / 100001) (t₁ / 300001)) = false := by
        unfold costTest
        refine decide_eq_false fun h => absurd h.2 ?_
        have e : (stateAt next 1 s₁ t₁ false).cost = 38 / 5 - 20 * u := hc1
        simp only [e, Criteria.defaults]
        rw [abs_of_neg (by linarith), not_lt, le_div_iff₀ (by linarith)]
        linarith
      have h2 : parameterTest Criteria.defaults (stateAt next 1 s₁ t₁ false) (stepTo s₁ t₁ (s₁ / 100001) (t₁ / 300001)) = false := by
        unfold parameterTest
        refine decide_eq_false fun h => ?_
        simp only [stateAt, Criteria.defaults] at h
        have e2 : nrm (pt next s₁ t₁).storage ≤ 10 := by
          rw [nrm, Real.sqrt_le_left (by norm_num)]
          simp only [pt, onAxis, at_, sqNorm, List.cons_append, List.nil_append, List.map_cons, List.map_nil, List.sum_cons, List.sum_nil]
          rw [hs₁, ht₁]
          nlinarith
        linarith
      rw [h1, h2]; rfl)
  rw [max_eq_left (by linarith)] at r2
  have r3 := dogleg_step hl hcache hs 2 (by norm_num) (s₁ / 100001) (t₁ / 300001) (s₁ / 100001 / 100001) (t₁ / 300001 / 300001) 3 (d := true)
    (dogleg_inside _ _ 3 (by norm_num) (by rw [div_pow, div_pow]; linarith)) (by intro h; linarith) (by
      have h1 : costTest Criteria.defaults (stateAt next 2 (s₁ / 100001) (t₁ / 300001) false)
          (costAt (s₁ / 100001 / 100001) (t₁ / 300001 / 300001)) = true := by
        unfold costTest
        refine decide_eq_true ?_
        have e : (stateAt next 2 (s₁ / 100001) (t₁ / 300001) false).cost = costAt (s₁ / 100001) (t₁ / 300001) := rfl
        simp only [e, Criteria.defaults]
        refine ⟨by intro h; linarith, ?_⟩
        rw [abs_of_neg (by linarith), div_lt_iff₀ (by linarith)]
        linarith
      rw [h1]; rfl)
  rw [max_eq_left (by linarith)] at r3
  refine ⟨pt next (s₁ / 100001 / 100001) (t₁ / 300001 / 300001), costAt s₁ t₁, costAt (s₁ / 100001) (t₁ / 300001),
    costAt (s₁ / 100001 / 100001) (t₁ / 300001 / 300001), fun fuel hfuel => ?_, by rw [hc1, hu']; ring, by linarith, nll_pt .., by linarith,
    asserts_ok next _ _ ?_⟩
  · have hlay : gE.layout = lay next false 4 := hl.layout
    refine baseSolve_some.2 ⟨_, DoglegState.map fin ⟨stateAt next 0 (-2) (4 / 3) false, 1⟩,
      DoglegState.map fin ⟨stateAt next 3 (s₁ / 100001 / 100001) (t₁ / 300001 / 300001) true, 3⟩,
      ([.iteration 0 (some 100) (fin (costAt (-2) (4 / 3))) (some (fin 1))] ++
        [.iteration 1 (some 100) (fin (costAt s₁ t₁)) (some (fin 3))]) ++
        [.iteration 2 (some 100) (fin (costAt (s₁ / 100001) (t₁ / 300001))) (some (fin 3))],
      by rw [hlay]; exact poseTest_update next _ rfl, (doglegInit_fin hl hs).2 ⟨_, _, cost_pt .., rfl⟩, ?_, poseTest_update next _ rfl, ?_⟩
    · have hr := (Runs.refl (DoglegState.map fin ⟨stateAt next 0 (-2) (4 / 3) false, 1⟩)).step
        (done := fun s => (DoglegState.toState s : State Ext).done) rfl r1
      have := whileLoop_of_runs ((hr.step rfl r2).step rfl r3) hfuel (whileLoop_done rfl)
      simpa using this
    · have hv : sE.verbose = true := hs.verbose
      rw [hv, hc0]
      rfl
  · unfold costAt at hc3
    linarith

/-- Non-vacuity: the graph and the solvers can be lifted as `C108_gauss_newton`, `C108_levenberg_marquardt` and `C108_dogleg` ask, and a
new CHOLMOD solver has no analysis yet. -/
example (next addr : Nat) : ∃ g a, poseTestProblem next = .ok (g, a) ∧
    (∃ CE gE, Lifts CE gE g2oClasses (g.ops g2oFactors g2oClasses)) ∧ (∀ L, ∃ sE, LiftsGN sE (GaussNewton.defaults L)) ∧
    (∃ sE, IsCodeLM (cgTolerance 1e-5) sE) ∧ (∀ L, ∃ sE, LiftsDogleg sE (Dogleg.defaults L)) ∧
    ∀ p, (PyDict.empty : CholmodCache).get? addr = some p → p = ((g.localLayout.dim, g.residualDim), (g.jacobianCoords.map Prod.swap).toFinset) :=
  ⟨_, _, (poseTest_eq next).trans (problem_eq next), ⟨_, _, lifts_lift _ _⟩, fun _ => ⟨_, liftsGN_lift _⟩, ⟨_, fun _ _ _ _ => .error .type, rfl⟩,
    fun _ => ⟨_, liftsDogleg_lift _⟩, fun _ h => nomatch h⟩

end Jaxfg.Props
