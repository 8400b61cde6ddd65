/-
C87: what a solver that has stopped early says about the gradient. The Jacobians have `AᵀA ≤ κ`, and the linear solver adds a damping
of at most `μ lambd`.
-/
import Verif.Props.Decrease

namespace Jaxfg.Props
open Ext (fin)
open Spec Matrix

section
variable {CE : Ty → VarClass Ext} {gE : GraphOps Ext} {C : Ty → VarClass ℝ} {g : GraphOps ℝ} {ws : List Var}

/-- The gradient test as the code has it: moving along `ng` lowers no entry of the storage by the tolerance or more. It says nothing
about entries that grow, see `C47_signed_gradient`. -/
def GradientTest (C : Ty → VarClass ℝ) (t : Criteria ℝ) (p : State ℝ) (ng : List ℝ) (ll : Layout) : Prop :=
  t.gradientToleranceStartStep ≤ p.iterations ∧ ∃ moved, p.assignments.manifoldRetract C ⟨ng, ll⟩ = .ok moved ∧
    ∀ y ∈ List.zipWith (· - ·) p.assignments.storage moved.storage, y < t.gradientTolerance

/-- **C87**, Gauss-Newton. A step that stops an execution was the last that `max_iterations` allows, or the gradient test holds, or
the cost changed by less than the tolerance, or the gradient before the step was at most
`(κ + μ 0) (|storage| + parameter_tolerance) parameter_tolerance`. -/
theorem C87_gauss_newton (h : Lifts CE gE C g) (hg : SaneGraph C g ws) {sE : GaussNewton Ext} {s : GaussNewton ℝ} (hs : LiftsGN sE s)
    {μ : ℝ → ℝ} (hD : AllJacobians C g ws (DampedUpTo μ s.linear)) {κ : ℝ} (hκ0 : 0 ≤ κ + μ 0) (hκ : AllJacobians C g ws (SoftAtMost κ))
    {a : Assign ℝ} (ha : IsAssignmentOf C ws a) (hl : a.layout = g.layout) {st st' st'' : State Ext} {k : Nat} {log l : List (Msg Ext)}
    (hi : initState gE (a.map fin) = .ok st) (hr : Runs (fun s => s.done) (sE.step CE gE) k st st' log)
    (hstep : sE.step CE gE st' = .ok (st'', l)) (hdone : st''.done = true) :
    ∃ (p q : State ℝ) (b : List ℝ), st' = p.map fin ∧ st'' = q.map fin ∧ IsDescent g p b ∧
      (s.maxIterations ≤ k + 1 ∨ GradientTest C s.toCriteria p b g.localLayout ∨
       (p.cost ≠ 0 ∧ |q.cost - p.cost| / p.cost < s.costTolerance) ∨
       √(sqNorm b) ≤ (κ + μ 0) * ((√(sqNorm p.assignments.storage) + s.parameterTolerance) * s.parameterTolerance)) := by
  obtain ⟨c, r, hc, rfl⟩ := (initState_fin h).1 hi
  have hk := (gn_counted (C := CE) (g := gE) sE).runs hr
  obtain ⟨p, rfl, hp⟩ := gn_runs_fin h hs (GoodState.start ha hl hc _ _) hr
  have hk' : p.iterations = k := by simpa [State.map] using hk
  obtain ⟨A, ATr, d, b, c, r, conv, h1, h2, h3, h4, h5, h6, rfl, -⟩ := (gnStep_fin h hs).1 hstep
  obtain ⟨hwf, hdim⟩ := hp.jac hg h1
  have h2' := matmul_neg (A := A.T) (cooWF_T hwf) h2
  refine ⟨p, _, _, rfl, rfl, ⟨A, h1, h2'⟩, ?_⟩
  obtain ⟨hrl, hbl, hbv⟩ := descent_ok hwf h2'
  obtain ⟨hdl, E, hE1, hE2, hE3⟩ := hp.all hD h1 _ 0 _ d hbl le_rfl h3
  simp only [State.map, Bool.or_eq_true, decide_eq_true_eq, hk'] at hdone
  rcases hdone with hdone | hdone
  · left; omega
  · right
    rcases (convergedTest_ok h6).1 hdone with hd | hd | hd
    · exact .inr (.inl hd)
    · exact .inl hd
    · right; right
      have := damped_rhs_le hE1 hκ0 (hp.all hκ h1) hE2 hE3
      rw [← sqNorm_eq hbl, ← sqNorm_eq hdl] at this
      exact this.trans (mul_le_mul_of_nonneg_left hd.le hκ0)

/-- **C87**, Levenberg-Marquardt, for a step from a state whose residual is current. A step that stops an execution was the last that
`max_iterations` allows, or the gradient test holds, or the gradient before the step is small: its square is at most
`(κ + μ lambd) cost_tolerance cost / step_quality_min`, or it is at most `(κ + μ lambd) (|storage| + parameter_tolerance) parameter_tolerance`. -/
theorem C87_levenberg_marquardt (h : Lifts CE gE C g) (hg : SaneGraph C g ws) (hz : ZeroRetract C)
    {sE : LevenbergMarquardt Ext} {s : LevenbergMarquardt ℝ} (hs : LiftsLM sE s) (hq : 0 < s.stepQualityMin)
    (p1 : 0 < s.lambdaInitial) (p2 : 1 ≤ s.lambdaFactor) (p3 : 0 < s.lambdaMin) (p4 : s.lambdaMin ≤ s.lambdaMax)
    (hL : AllJacobians C g ws (SolvesRegular s.linear)) {μ : ℝ → ℝ} (hμ : ∀ l, 0 ≤ l → 0 ≤ μ l)
    (hD : AllJacobians C g ws (DampedUpTo μ s.linear)) {κ : ℝ} (hκ0 : 0 ≤ κ) (hκ : AllJacobians C g ws (SoftAtMost κ))
    {a : Assign ℝ} (ha : IsAssignmentOf C ws a) (hl : a.layout = g.layout) {st st' st'' : LMState Ext} {k : Nat} {log l : List (Msg Ext)}
    (hi : sE.init gE (a.map fin) = .ok st) (hr : Runs (fun s => s.done) (sE.step CE gE) k st st' log)
    (hcur : Current gE st'.toState) (hstep : sE.step CE gE st' = .ok (st'', l)) (hdone : st''.done = true) :
    ∃ (p : LMState ℝ) (b : List ℝ), st' = p.map fin ∧ IsDescent g p.toState b ∧
      (s.maxIterations ≤ k + 1 ∨ GradientTest C s.toCriteria p.toState b g.localLayout ∨
       s.stepQualityMin * sqNorm b ≤ (κ + μ p.lambd) * (s.costTolerance * p.cost) ∨
       √(sqNorm b) ≤ (κ + μ p.lambd) * ((√(sqNorm p.assignments.storage) + s.parameterTolerance) * s.parameterTolerance)) := by
  obtain ⟨lam, l1, l2, -⟩ := C45_damping CE gE sE hs.lambdaInitial hs.lambdaFactor hs.lambdaMin hs.lambdaMax p1 p2 p3 p4 hi hr
  obtain ⟨c, r, hc, rfl⟩ := (lmInit_fin h hs).1 hi
  have hf : s.lambdaFactor ≠ 0 := by linarith
  have hk := (lm_counted (C := CE) (g := gE) sE).runs hr
  obtain ⟨p, rfl, hp⟩ := lm_runs_fin h hs hf (GoodState.start ha hl hc _ _) hr
  have hk' : p.iterations = k := by simpa [LMState.map, State.map] using hk
  have hlam : 0 ≤ p.lambd := by rw [show p.lambd = lam from fin_injective l1]; exact l2.le
  have hcur' := current_fin h (q := p.toState) hcur
  obtain ⟨q, b', e1, e2, e3⟩ := C86_levenberg_marquardt_step h hg hz hs hf hq hL hD hκ hp hlam hcur' hstep
  obtain ⟨A, ATb, d, b, c, r, As, acc, conv, h1, h2, h3, h4, h5, h6, h7, h8, h9, h10, -⟩ := (lmStep_fin h hs hf).1 hstep
  obtain rfl : b' = ATb := by
    obtain ⟨A', f1, f2⟩ := e2
    rw [h1] at f1; cases Except.ok.inj f1
    rw [h2] at f2; exact (Except.ok.inj f2).symm
  have hκμ : 0 ≤ κ + μ p.lambd := add_nonneg hκ0 (hμ _ hlam)
  refine ⟨p, b', rfl, e2, ?_⟩
  rw [h10] at hdone e1
  have e1 := lmState_map_inj e1
  simp only [LMState.map, State.map, lmNextReal, Bool.or_eq_true, Bool.and_eq_true, decide_eq_true_eq, hk'] at hdone
  rcases hdone with hdone | ⟨hac, hdone⟩
  · left; omega
  · right
    rcases (convergedTest_ok h9).1 hdone with ⟨hd0, hd⟩ | hd | hd
    · right; left
      have hqc : q.cost = c := by rw [← e1]; simp [lmNextReal, hac]
      have hcost : 0 ≤ p.cost := by rw [hg.cost _ _ _ hcur']; exact sqNorm_nonneg _
      have hcpos : 0 < p.cost := lt_of_le_of_ne hcost (Ne.symm hd0)
      rw [div_lt_iff₀ hcpos] at hd
      rcases e3 with ⟨e3, e4⟩ | ⟨e3, e4, -⟩
      · exfalso
        have ha := h8.symm.trans hac
        rw [hqc] at e4
        have := accepted_lowers hq ha (.inr e4)
        linarith
      · rw [hqc] at e4
        refine e4.trans (mul_le_mul_of_nonneg_left ?_ hκμ)
        have : p.cost - c ≤ |c - p.cost| := by rw [abs_sub_comm]; exact le_abs_self _
        exact this.trans hd.le
    · exact .inl hd
    · right; right
      obtain ⟨hwf, hdim⟩ := hp.jac hg h1
      obtain ⟨hrl, hbl, hbv⟩ := descent_ok hwf h2
      obtain ⟨hdl, E, hE1, hE2, hE3⟩ := hp.all hD h1 _ p.lambd _ d hbl hlam h3
      have := damped_rhs_le hE1 hκμ (hp.all hκ h1) hE2 hE3
      rw [← sqNorm_eq hbl, ← sqNorm_eq hdl] at this
      exact this.trans (mul_le_mul_of_nonneg_left hd.le hκμ)

/-- **C87**, dogleg, for a step from a state whose residual is current. A step that stops an execution was the last that
`max_iterations` allows, or the gradient test holds, or the gradient `|b|` before the step is small (its square is at most
`(κ + μ 0) cost_tolerance cost / step_quality_min`, or it is at most `cost_tolerance cost / (step_quality_min radius)`, or at most
`(κ + μ 0) (|storage| + parameter_tolerance) parameter_tolerance`), or the radius is below
`(|storage| + parameter_tolerance) parameter_tolerance`. -/
theorem C87_dogleg (h : Lifts CE gE C g) (hg : SaneGraph C g ws) (hz : ZeroRetract C)
    {sE : Dogleg Ext} {s : Dogleg ℝ} (hs : LiftsDogleg sE s) (hq : 0 < s.stepQualityMin) (hρ0 : 0 < s.radiusInitial)
    (hL0 : ZeroAtZero s.linear) (hL : AllJacobians C g ws (SolvesRegular s.linear)) {μ : ℝ → ℝ} (hμ : 0 ≤ μ 0)
    (hD : AllJacobians C g ws (DampedUpTo μ s.linear)) {κ : ℝ} (hκ0 : 0 ≤ κ) (hκ : AllJacobians C g ws (SoftAtMost κ))
    {a : Assign ℝ} (ha : IsAssignmentOf C ws a) (hl : a.layout = g.layout) {st st' st'' : DoglegState Ext} {k : Nat}
    {log l : List (Msg Ext)} (hi : sE.init gE (a.map fin) = .ok st) (hr : Runs (fun s => s.done) (sE.step CE gE) k st st' log)
    (hcur : Current gE st'.toState) (hstep : sE.step CE gE st' = .ok (st'', l)) (hdone : st''.done = true) :
    ∃ (p : DoglegState ℝ) (b : List ℝ), st' = p.map fin ∧ IsDescent g p.toState b ∧
      (s.maxIterations ≤ k + 1 ∨ GradientTest C s.toCriteria p.toState b g.localLayout ∨
       s.stepQualityMin * sqNorm b ≤ (κ + μ 0) * (s.costTolerance * p.cost) ∨
       s.stepQualityMin * (p.radius * √(sqNorm b)) ≤ s.costTolerance * p.cost ∨
       √(sqNorm b) ≤ (κ + μ 0) * ((√(sqNorm p.assignments.storage) + s.parameterTolerance) * s.parameterTolerance) ∨
       p.radius < (√(sqNorm p.assignments.storage) + s.parameterTolerance) * s.parameterTolerance) := by
  obtain ⟨c, r, hc, rfl⟩ := (doglegInit_fin h hs).1 hi
  have hk := (dogleg_counted (C := CE) (g := gE) sE).runs hr
  obtain ⟨p, rfl, hp, hpρ⟩ := dogleg_runs_fin h hg hs hL0 (GoodState.start ha hl hc _ _) hρ0 hr
  have hk' : p.iterations = k := by simpa [DoglegState.map, State.map] using hk
  have hcur' := current_fin h (q := p.toState) hcur
  obtain ⟨q, b', e1, e2, e3⟩ := C86_dogleg_step h hg hz hs hq hL hμ hD hκ hp hpρ hcur' hstep
  obtain ⟨A, ATb, gn, d, b, c, r, As, q', conv, h1, h2, h3, h3', h4, h5, h6, -, h7, h8, h9, -⟩ :=
    (doglegSolverStep_fin h hs (dogleg_hfin hg hL0 hp hpρ)).1 hstep
  obtain rfl : b' = ATb := by
    obtain ⟨A', f1, f2⟩ := e2
    rw [h1] at f1; cases Except.ok.inj f1
    rw [h2] at f2; exact (Except.ok.inj f2).symm
  have hκμ : 0 ≤ κ + μ 0 := add_nonneg hκ0 hμ
  refine ⟨p, b', rfl, e2, ?_⟩
  rw [h9] at hdone e1
  have e1 := doglegState_map_inj e1
  simp only [DoglegState.map, State.map, doglegNextReal, Bool.or_eq_true, Bool.and_eq_true, decide_eq_true_eq, hk'] at hdone
  rcases hdone with hdone | ⟨hac, hdone⟩
  · left; omega
  · right
    rcases (convergedTest_ok h8).1 hdone with ⟨hd0, hd⟩ | hd | hd
    · right
      have hqc : q.cost = c := by rw [← e1]; simp [doglegNextReal, hac]
      have hcost : 0 ≤ p.cost := by rw [hg.cost _ _ _ hcur']; exact sqNorm_nonneg _
      have hcpos : 0 < p.cost := lt_of_le_of_ne hcost (Ne.symm hd0)
      rw [div_lt_iff₀ hcpos] at hd
      have hdiff : p.cost - c ≤ s.costTolerance * p.cost := by
        have : p.cost - c ≤ |c - p.cost| := by rw [abs_sub_comm]; exact le_abs_self _
        exact this.trans hd.le
      rcases e3 with ⟨e3, e4⟩ | ⟨e3, e4, -⟩
      · exfalso
        rw [h7] at hac
        rw [hqc] at e4
        have := accepted_lowers hq hac (.inr e4)
        linarith
      · rw [hqc] at e4
        rcases e4 with e4 | e4
        · exact .inl (e4.trans (mul_le_mul_of_nonneg_left hdiff hκμ))
        · exact .inr (.inl (e4.trans hdiff))
    · exact .inl hd
    · right; right; right
      obtain ⟨hwf, hdim⟩ := hp.jac hg h1
      obtain ⟨hrl, hbl, hbv⟩ := descent_ok hwf h2
      obtain ⟨hgl, E, hE1, hE2, hE3⟩ := hp.all hD h1 _ 0 _ gn hbl le_rfl h3
      obtain ⟨f1, f2⟩ := doglegStep_fin hwf h2 hgl hpρ
      by_cases hn : nrm gn ≤ p.radius
      · left
        rw [f1 hn] at h3'
        have hgd : gn = d := List.map_injective_iff.2 fin_injective (Except.ok.inj h3')
        rw [← hgd] at hd
        have := damped_rhs_le hE1 hκμ (hp.all hκ h1) hE2 hE3
        rw [← sqNorm_eq hbl, ← sqNorm_eq hgl] at this
        exact this.trans (mul_le_mul_of_nonneg_left hd.le hκμ)
      · by_cases h0 : descent (cooMatrix A A.shape.1 A.shape.2) (Spec.vec p.residual A.shape.1) = 0
        · exfalso
          have hz0 : ∀ y ∈ b', y = 0 := (mem_zero_vec hbl).2 (hbv.trans h0)
          have hgz := (mem_zero_vec hgl).1 (hL0 _ _ _ _ _ hz0 h3)
          apply hn
          rw [nrm_eq hgl, hgz]
          simp [hpρ.le]
        · right
          obtain ⟨d', g1, g2, g3, g4⟩ := f2 (not_le.1 hn) h0
          rw [g1] at h3'
          have hgd : d' = d := List.map_injective_iff.2 fin_injective (Except.ok.inj h3')
          rw [← hgd] at hd
          rw [← g3]
          exact hd

end

/-! ### Gauss-Newton stops far from a stationary point -/

section
open Jaxfg.Poly Poly1
variable (stale : Pattern → ScipyCoo ℝ → ℝ → List ℝ → Py (List ℝ)) (addr : Nat)

/-- **C87** has no analogue of the bound through the cost for Gauss-Newton: for every bound `B` there is a graph on which Gauss-Newton
with default settings and CHOLMOD stops after its first step, because that step has not changed the cost. The gradient at the returned
assignments exceeds `B`, and other assignments have a cost below `3/5` of the cost returned. -/
theorem C87_gauss_newton_stops_early (B : ℝ) : ∃ fs G a st st' log,
    let S := GaussNewton.defaults (chol stale addr)
    (∀ f ∈ fs, FactorWF F Ex.C f) ∧ Graph.make Ex.C fs = .ok G ∧ IsAssignmentOf Ex.C (Graph.variablesOf fs) a ∧
      initState (G.ops F Ex.C).lift (a.map fin) = .ok st ∧
      Runs (fun s => s.done) (S.lift.step CE (G.ops F Ex.C).lift) 1 st (State.map fin st') log ∧ st'.done = true ∧
      (G.ops F Ex.C).computeCost st'.assignments = .ok (st'.cost, st'.residual) ∧
      (∃ b, IsDescent (G.ops F Ex.C) st' b ∧ B < √(sqNorm b)) ∧
      ∃ e c r, IsAssignmentOf Ex.C (Graph.variablesOf fs) e ∧ (G.ops F Ex.C).computeCost e = .ok (c, r) ∧ c < 3 / 5 * st'.cost := by
  obtain ⟨P, hP⟩ : ∃ P : ℝ, P = max 1 (B + 1) := ⟨_, rfl⟩
  have hP1 : 1 ≤ P := hP ▸ le_max_left _ _
  have hPB : B + 1 ≤ P := hP ▸ le_max_right _ _
  have hP0 : 0 < P := by linarith
  obtain ⟨c, hc⟩ : ∃ c : ℝ, c = 1 + 1 / 100000 / P ^ 2 := ⟨_, rfl⟩
  have hc1 : 1 ≤ c := by rw [hc]; have : 0 < 1 / 100000 / P ^ 2 := by positivity
                         linarith
  have hc2 : c ≤ 1 + 1 / 100000 := by
    rw [hc]
    have : 1 / 100000 / P ^ 2 ≤ (1 / 100000 : ℝ) := div_le_self (by norm_num) (one_le_pow₀ hP1)
    linarith
  have hc0 : c ≠ 0 := by linarith
  have hcP : c * P ^ 2 = P ^ 2 + 1 / 100000 := by rw [hc]; field_simp
  obtain ⟨conv, log, h1, h2⟩ := gn_step stale addr (GaussNewton.defaults (chol stale addr)) rfl P P (P * c) 0 (v := 0) (c := P ^ 2) (r := P)
    (j := P) (d := -(1 / c)) (v' := -(1 / c)) (r' := P) false (by ring)
    (by rw [add_zero, ← hcP]; field_simp) (by ring) (by field_simp; ring)
  have hconv : conv = true := by
    refine (convergedTest_ok h1).2 (.inl ⟨by positivity, ?_⟩)
    show |P ^ 2 - P ^ 2| / P ^ 2 < (1 / 100000 : ℝ)
    simp
  refine ⟨[f P P (P * c)], g P P (P * c), at_ 0, _, _, _, by simpa using Jaxfg.Poly.f_wf _ _ _, Jaxfg.Poly.make_eq _ _ _,
    Jaxfg.Poly.at_assignment 0, (initState_fin (lifts _ _ _)).2 ⟨P ^ 2, [P], ?_, rfl⟩, .step (.refl _) rfl h2, ?_, ?_, ?_, ?_⟩
  · rw [Jaxfg.Poly.cost_eq]; norm_num
  · simp [hconv]
  · show ((g P P (P * c)).ops F Ex.C).computeCost (at_ (-(1 / c))) = .ok (P ^ 2, [P])
    rw [Jaxfg.Poly.cost_eq]
    have : P + P * -(1 / c) + P * c * (-(1 / c)) ^ 2 = P := by field_simp; ring
    rw [this]
  · refine ⟨_, ⟨_, Jaxfg.Poly.jac_eq _ _ _ _ _, matmul_T_eq _ (-P)⟩, ?_⟩
    have e : (P + 2 * (P * c) * -(1 / c)) * -P = P ^ 2 := by field_simp; ring
    rw [e]
    have e2 : sqNorm [P ^ 2] = (P ^ 2) ^ 2 := by simp [sqNorm]
    rw [e2, Real.sqrt_sq (by positivity)]
    nlinarith
  · refine ⟨at_ (-(1 / (2 * c))), _, _, Jaxfg.Poly.at_assignment _, Jaxfg.Poly.cost_eq _ _ _ _, ?_⟩
    show _ < 3 / 5 * P ^ 2
    have e : P + P * -(1 / (2 * c)) + P * c * (-(1 / (2 * c))) ^ 2 = P * (1 - 1 / (4 * c)) := by field_simp; ring
    rw [e, mul_pow, mul_comm]
    refine mul_lt_mul_of_pos_right ?_ (by positivity)
    have h3 : 1 - 1 / (4 * c) ≤ 76 / 100 := by
      have : (24 / 100 : ℝ) ≤ 1 / (4 * c) := by
        rw [le_div_iff₀ (by linarith)]; linarith
      linarith
    have h4 : 0 ≤ 1 - 1 / (4 * c) := by
      have : 1 / (4 * c) ≤ 1 := by rw [div_le_one (by linarith)]; linarith
      linarith
    nlinarith

/-- A case of `C87_gauss_newton`: the residual `p + x` at the root `x = -p`, default settings and CHOLMOD. The first step stops the
execution, and the gradient is zero. -/
example (p : ℝ) : ∃ st st'' log,
    let S := GaussNewton.defaults (chol stale addr)
    AllJacobians Ex.C ((g p 1 0).ops F Ex.C) [Ex.x] (DampedUpTo (fun l => l + 1 / 100000) S.linear) ∧
      AllJacobians Ex.C ((g p 1 0).ops F Ex.C) [Ex.x] (SoftAtMost (1 ^ 2)) ∧ IsAssignmentOf Ex.C [Ex.x] (at_ (-p)) ∧
      initState (gE p 1 0) ((at_ (-p)).map fin) = .ok st ∧ S.lift.step CE (gE p 1 0) st = .ok (st'', log) ∧ st''.done = true := by
  obtain ⟨conv, log, h1, h2⟩ := gn_step stale addr (GaussNewton.defaults (chol stale addr)) rfl p 1 0 0 (v := -p) (c := 0) (r := 0)
    (j := 1) (d := 0) (v' := -p) (r' := 0) false (by ring) (by norm_num) (by ring) (by ring)
  have hconv : conv = true := by
    refine (convergedTest_ok h1).2 (.inr (.inr ?_))
    show √(sqNorm [0]) < (√(sqNorm (at_ (-p)).storage) + (1 / 10000000 : ℝ)) * (1 / 10000000)
    have : sqNorm [(0 : ℝ)] = 0 := by simp [sqNorm]
    rw [this, Real.sqrt_zero]
    positivity
  refine ⟨_, _, _, ?_, soft p 1, Jaxfg.Poly.at_assignment _, (initState_fin (lifts _ _ _)).2 ⟨0, [0], ?_, rfl⟩, h2, ?_⟩
  · intro a a' c r A h1 h2 h3 h4 h5 h6
    exact C70_cholmod stale .empty addr ((Jaxfg.Poly.sane p 1 0).jacobian a a' c r A h1 h2 h3 h4 h5 h6).1 (fun p hp => by cases hp)
  · rw [Jaxfg.Poly.cost_eq]; norm_num
  · simp [State.map, hconv]

/-- A case of `C87_levenberg_marquardt`: the residual `1 + x` at `x = 0`, one iteration allowed, otherwise default settings. -/
example : ∃ st st'' log,
    let S := { LevenbergMarquardt.defaults (chol stale addr) with maxIterations := 1 }
    AllJacobians Ex.C ((g 1 1 0).ops F Ex.C) [Ex.x] (SolvesRegular S.linear) ∧
      S.lift.init (gE 1 1 0) ((at_ 0).map fin) = .ok st ∧ Current (gE 1 1 0) st.toState ∧
      S.lift.step CE (gE 1 1 0) st = .ok (st'', log) ∧ st''.done = true ∧ st''.assignments ≠ st.assignments := by
  have hacc : true = Scal.le (fin (1 / 1000 : ℝ))
      (fin ((51 / 100051 : ℝ) ^ 2 - 1) / fin ((1 * (-100000 / 100051 : ℝ) + 1) ^ 2 - 1)) := by
    rw [fin_div (by norm_num)]
    refine ((fin_le _ _).2 ?_).symm
    norm_num
  obtain ⟨conv, log, h1⟩ := lm_step stale addr { LevenbergMarquardt.defaults (chol stale addr) with maxIterations := 1 } rfl
    (by show (2 : ℝ) ≠ 0; norm_num) 1 1 0 0
    (v := 0) (c := 1) (r := 1) (lam := 1 / 2000) (j := 1) (d := -100000 / 100051) (v' := -100000 / 100051) (r' := 51 / 100051) false
    (by norm_num) (by norm_num) (by norm_num) (by norm_num) (by norm_num) true hacc
  have hc : ((g 1 1 0).ops F Ex.C).computeCost (at_ 0) = .ok (1, [1]) := by rw [Jaxfg.Poly.cost_eq]; norm_num
  refine ⟨_, _, _, cholmod_graph (Jaxfg.Poly.sane 1 1 0) stale addr, (lmInit_fin (lifts 1 1 0) (liftsLM_lift _)).2 ⟨1, [1], hc, rfl⟩, ?_,
    h1, rfl, ?_⟩
  · refine ((lifts 1 1 0).cost (at_ 0)).trans ?_
    rw [hc]; rfl
  · intro he
    have he : [fin (-100000 / 100051)] = [fin 0] := congrArg Assign.storage he
    have := fin_injective (List.cons.inj he).1
    norm_num at this

end

end Jaxfg.Props
