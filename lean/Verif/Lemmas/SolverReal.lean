/- Solver steps from finite states, in terms of real numbers. -/
import Verif.Lemmas.Lift

namespace Jaxfg
open Ext (fin)
open Spec

section
variable {CE : Ty → VarClass Ext} {gE : GraphOps Ext} {C : Ty → VarClass ℝ} {g : GraphOps ℝ}

theorem py_map_eq_ok {α β : Type} {x : Py α} {f : α → β} {b : β} : x.map f = .ok b ↔ ∃ a, x = .ok a ∧ b = f a := by
  cases x with
  | error e => simp [Except.map]
  | ok a => simp [Except.map, eq_comm]

/-! ### Convergence criteria -/

open Classical in
/-- Cost test in real numbers. -/
noncomputable def costTest (t : Criteria ℝ) (prev : State ℝ) (c : ℝ) : Bool :=
  decide (prev.cost ≠ 0 ∧ |c - prev.cost| / prev.cost < t.costTolerance)

open Classical in
/-- Gradient test in real numbers. -/
noncomputable def gradientTest (C : Ty → VarClass ℝ) (t : Criteria ℝ) (prev : State ℝ) (ll : Layout) (ng : List ℝ) : Py Bool := do
  let moved ← prev.assignments.manifoldRetract C ⟨ng, ll⟩
  match List.zipWith (· - ·) prev.assignments.storage moved.storage with
  | [] => .error .value
  | x :: xs => .ok (decide (t.gradientToleranceStartStep ≤ prev.iterations ∧ xs.foldl max x < t.gradientTolerance))

open Classical in
/-- Parameter test in real numbers. -/
noncomputable def parameterTest (t : Criteria ℝ) (prev : State ℝ) (delta : List ℝ) : Bool :=
  decide (nrm delta < (nrm prev.assignments.storage + t.parameterTolerance) * t.parameterTolerance)

theorem convergedCost_fin (t : Criteria ℝ) (p : State ℝ) (c : ℝ) :
    (t.map fin).convergedCost (p.map fin) (fin c) = costTest t p c := by
  unfold Criteria.convergedCost costTest
  simp only [Criteria.map, State.map, fin_sub, fin_abs]
  by_cases h : p.cost = 0
  · rw [h, fin_div_zero]
    simp only [ne_eq, not_true_eq_false, false_and, decide_false]
    unfold Ext.infMul
    split
    · rfl
    · split
      · rename_i h1 h2
        exact absurd h2 (not_lt.2 (abs_nonneg _))
      · rfl
  · rw [fin_div h]
    by_cases hc : |c - p.cost| / p.cost < t.costTolerance
    · rw [(fin_lt _ _).2 hc]; simp [h, hc]
    · simp only [hc, and_false, decide_false]
      rw [← Bool.not_eq_true, fin_lt]; exact hc

theorem convergedGradient_fin (h : Lifts CE gE C g) (t : Criteria ℝ) (p : State ℝ) (ll : Layout) (ng : List ℝ) :
    (t.map fin).convergedGradient CE (p.map fin) ll (ng.map fin) = gradientTest C t p ll ng := by
  unfold Criteria.convergedGradient gradientTest
  have e : (p.map fin).assignments.manifoldRetract CE ⟨ng.map fin, ll⟩ =
      (p.assignments.manifoldRetract C ⟨ng, ll⟩).map (Assign.map fin) := h.manifoldRetract p.assignments ⟨ng, ll⟩
  rw [e]
  cases p.assignments.manifoldRetract C ⟨ng, ll⟩ with
  | error e => rfl
  | ok moved =>
    simp only [Except.map, py_bind_ok]
    have e2 : List.zipWith (· - ·) (p.map fin).assignments.storage (moved.map fin).storage =
        (List.zipWith (· - ·) p.assignments.storage moved.storage).map fin := fin_zipWith_sub _ _
    rw [e2]
    cases List.zipWith (· - ·) p.assignments.storage moved.storage with
    | nil => rfl
    | cons x xs =>
      rw [fin_jnpMax]
      simp only [py_bind_ok, py_pure, Except.ok.injEq]
      have e3 : ((p.map fin).iterations : Int) = p.iterations := rfl
      have e4 : (t.map fin).gradientToleranceStartStep = t.gradientToleranceStartStep := rfl
      have e5 : (t.map fin).gradientTolerance = fin t.gradientTolerance := rfl
      rw [e3, e4, e5]
      by_cases h1 : t.gradientToleranceStartStep ≤ p.iterations
      · rw [if_pos h1]
        by_cases h2 : xs.foldl max x < t.gradientTolerance
        · rw [(fin_lt _ _).2 h2]; simp [h1, h2]
        · simp only [h2, and_false, decide_false]
          rw [← Bool.not_eq_true, fin_lt]; exact h2
      · rw [if_neg h1]; simp [h1]

theorem convergedParameters_fin (t : Criteria ℝ) (p : State ℝ) (delta : List ℝ) :
    (t.map fin).convergedParameters (p.map fin) (delta.map fin) = parameterTest t p delta := by
  unfold Criteria.convergedParameters parameterTest
  have e5 : (t.map fin).parameterTolerance = fin t.parameterTolerance := rfl
  have e6 : (p.map fin).assignments.storage = p.assignments.storage.map fin := rfl
  rw [fin_map_abs, fin_vecNorm, nrm_abs, e5, e6, fin_vecNorm, fin_add, fin_mul]
  by_cases h2 : nrm delta < (nrm p.assignments.storage + t.parameterTolerance) * t.parameterTolerance
  · rw [(fin_lt _ _).2 h2]; simp [h2]
  · simp only [h2, decide_false]
    rw [← Bool.not_eq_true, fin_lt]; exact h2

/-- All tests in real numbers. -/
noncomputable def convergedTest (C : Ty → VarClass ℝ) (t : Criteria ℝ) (prev : State ℝ) (c : ℝ) (delta : List ℝ) (ll : Layout)
    (ng : List ℝ) : Py Bool := do
  let b ← gradientTest C t prev ll ng
  return costTest t prev c || b || parameterTest t prev delta

theorem converged_fin (h : Lifts CE gE C g) (t : Criteria ℝ) (p : State ℝ) (c : ℝ) (delta : List ℝ) (ll : Layout) (ng : List ℝ) :
    (t.map fin).converged CE (p.map fin) (fin c) ⟨delta.map fin, ll⟩ (ng.map fin) = convergedTest C t p c delta ll ng := by
  unfold Criteria.converged convergedTest
  simp only [convergedGradient_fin h, convergedCost_fin, convergedParameters_fin]

theorem exceeded_fin (t : Criteria ℝ) (p : State ℝ) : (t.map fin).exceeded (p.map fin) = decide (t.maxIterations - 1 ≤ p.iterations) := rfl

/-! ### Step quality -/

/-- Sum of squares of the linearized residual. -/
noncomputable def predicted (As r : List ℝ) : ℝ := sqNorm (List.zipWith (· + ·) As r)

theorem stepQuality_fin (A : Coo ℝ) (c : ℝ) (p : State ℝ) (delta : List ℝ) {q : Ext} :
    stepQuality (A.map fin) (fin c) (p.map fin) (delta.map fin) = .ok q ↔
      ∃ As, A.matmul delta = .ok As ∧ As.length = p.residual.length ∧
        q = fin (c - p.cost) / fin (predicted As p.residual - p.cost) := by
  unfold stepQuality
  rw [fin_matmul]
  have e6 : (p.map fin).residual = p.residual.map fin := rfl
  have e7 : (p.map fin).cost = fin p.cost := rfl
  rw [e6, e7]
  cases A.matmul delta with
  | error e => simp [Except.map]
  | ok As =>
    simp only [Except.map, py_bind_ok, fin_vecAdd, Except.ok.injEq, exists_eq_left']
    by_cases hl : As.length = p.residual.length
    · rw [if_pos hl]
      simp only [py_bind_ok, py_pure, Except.ok.injEq, fin_sumSq, fin_sub, hl, true_and]
      exact eq_comm
    · rw [if_neg hl]
      simp [hl]

/-- The test `quality >= step_quality_min` in real numbers. The quality is the quotient of actual and predicted change; with a
predicted change of zero it is infinite or NaN. -/
theorem accept_fin {qmin x y : ℝ} :
    Scal.le (fin qmin) (fin x / fin y) = true ↔ (y ≠ 0 ∧ qmin ≤ x / y) ∨ (y = 0 ∧ 0 < x) := by
  by_cases h : y = 0
  · subst h
    rw [fin_div_zero]
    unfold Ext.infMul
    by_cases hx : 0 < x
    · rw [if_pos hx]; simp only [ne_eq, not_true_eq_false, false_and, true_and, hx, or_true]; exact ⟨fun _ => trivial, fun _ => rfl⟩
    · rw [if_neg hx]
      split
      · rw [le_ninf]; simp [hx]
      · rw [le_nan]; simp [hx]
  · rw [fin_div h, fin_le]; simp [h]

/-! ### Steps -/

theorem gnStep_fin (h : Lifts CE gE C g) {sE : GaussNewton Ext} {s : GaussNewton ℝ} (hs : LiftsGN sE s) {p : State ℝ}
    {p' : State Ext} {log : List (Msg Ext)} :
    sE.step CE gE (p.map fin) = .ok (p', log) ↔ ∃ A ATr delta b c r conv, g.jacobian p.assignments p.residual = .ok A ∧
      A.T.matmul p.residual = .ok ATr ∧ s.linear A (ATr.map fun x => -x) 0 p.iterations = .ok delta ∧
      p.assignments.manifoldRetract C ⟨delta, g.localLayout⟩ = .ok b ∧ g.computeCost b = .ok (c, r) ∧
      convergedTest C s.toCriteria p c delta g.localLayout (ATr.map fun x => -x) = .ok conv ∧
      p' = State.map fin ⟨p.iterations + 1, b, c, r, decide (s.maxIterations - 1 ≤ (p.iterations : Int)) || conv⟩ ∧
      log = hcbPrint s.verbose (.iteration p.iterations (some s.maxIterations) (fin p.cost) none) := by
  rw [gnStep_ok]
  have j1 : gE.jacobian (p.map fin).assignments (p.map fin).residual = (g.jacobian p.assignments p.residual).map (Coo.map fin) :=
    h.jacobian _ _
  have e6 : (p.map fin).residual = p.residual.map fin := rfl
  have e7 : (p.map fin).iterations = p.iterations := rfl
  have r1 : ∀ d : List ℝ, (p.map fin).assignments.manifoldRetract CE ⟨d.map fin, g.localLayout⟩ =
      (p.assignments.manifoldRetract C ⟨d, g.localLayout⟩).map (Assign.map fin) := fun d => h.manifoldRetract p.assignments ⟨d, g.localLayout⟩
  have hm : sE.maxIterations = s.maxIterations := congrArg Criteria.maxIterations hs.criteria
  rw [j1, e6, e7, h.localLayout, hs.criteria, hs.verbose, fin_lit_zero]
  constructor
  · rintro ⟨AE, ATrE, dE, bE, cE, rE, conv, h1, h2, h3, h4, h5, h6, h7, h8⟩
    obtain ⟨A, h1', rfl⟩ := py_map_eq_ok.1 h1
    rw [coo_map_T, fin_matmul] at h2
    obtain ⟨ATr, h2', rfl⟩ := py_map_eq_ok.1 h2
    rw [fin_map_neg, hs.linear] at h3
    obtain ⟨d, h3', rfl⟩ := py_map_eq_ok.1 h3
    rw [r1] at h4
    obtain ⟨b, h4', rfl⟩ := py_map_eq_ok.1 h4
    rw [h.cost] at h5
    obtain ⟨⟨c, r⟩, h5', h5e⟩ := py_map_eq_ok.1 h5
    obtain ⟨rfl, rfl⟩ := Prod.mk.inj h5e
    rw [fin_map_neg, converged_fin h] at h6
    exact ⟨A, ATr, d, b, c, r, conv, h1', h2', h3', h4', h5', h6, by rw [h7]; rfl, h8⟩
  · rintro ⟨A, ATr, d, b, c, r, conv, h1, h2, h3, h4, h5, h6, h7, h8⟩
    refine ⟨A.map fin, ATr.map fin, d.map fin, b.map fin, fin c, r.map fin, conv, by rw [h1]; rfl, ?_, ?_, ?_, ?_, ?_, ?_, h8⟩
    · rw [coo_map_T, fin_matmul, h2]; rfl
    · rw [fin_map_neg, hs.linear, h3]; rfl
    · rw [r1, h4]; rfl
    · rw [h.cost, h5]; rfl
    · rw [fin_map_neg, converged_fin h, h6]
    · rw [h7]; rfl

theorem fixedStep_fin (h : Lifts CE gE C g) {sE : FixedIteration Ext} {L : LinSolver ℝ} (hs : LiftsSolver sE.linear L) {p : State ℝ}
    {p' : State Ext} {log : List (Msg Ext)} :
    sE.step CE gE (p.map fin) = .ok (p', log) ↔ ∃ A ATr delta b c r, g.jacobian p.assignments p.residual = .ok A ∧
      A.T.matmul p.residual = .ok ATr ∧ L A (ATr.map fun x => -x) 0 p.iterations = .ok delta ∧
      p.assignments.manifoldRetract C ⟨delta, g.localLayout⟩ = .ok b ∧ g.computeCost b = .ok (c, r) ∧
      p' = State.map fin ⟨p.iterations + 1, b, c, r, decide (sE.iterations - 1 ≤ (p.iterations : Int))⟩ ∧
      log = hcbPrint sE.verbose (.iteration p.iterations none (fin p.cost) none) := by
  rw [fixedStep_ok]
  have j1 : gE.jacobian (p.map fin).assignments (p.map fin).residual = (g.jacobian p.assignments p.residual).map (Coo.map fin) :=
    h.jacobian _ _
  have e6 : (p.map fin).residual = p.residual.map fin := rfl
  have e7 : (p.map fin).iterations = p.iterations := rfl
  have r1 : ∀ d : List ℝ, (p.map fin).assignments.manifoldRetract CE ⟨d.map fin, g.localLayout⟩ =
      (p.assignments.manifoldRetract C ⟨d, g.localLayout⟩).map (Assign.map fin) := fun d => h.manifoldRetract p.assignments ⟨d, g.localLayout⟩
  rw [j1, e6, e7, h.localLayout, fin_lit_zero]
  constructor
  · rintro ⟨AE, ATrE, dE, bE, cE, rE, h1, h2, h3, h4, h5, h7, h8⟩
    obtain ⟨A, h1', rfl⟩ := py_map_eq_ok.1 h1
    rw [coo_map_T, fin_matmul] at h2
    obtain ⟨ATr, h2', rfl⟩ := py_map_eq_ok.1 h2
    rw [fin_map_neg, hs] at h3
    obtain ⟨d, h3', rfl⟩ := py_map_eq_ok.1 h3
    rw [r1] at h4
    obtain ⟨b, h4', rfl⟩ := py_map_eq_ok.1 h4
    rw [h.cost] at h5
    obtain ⟨⟨c, r⟩, h5', h5e⟩ := py_map_eq_ok.1 h5
    obtain ⟨rfl, rfl⟩ := Prod.mk.inj h5e
    exact ⟨A, ATr, d, b, c, r, h1', h2', h3', h4', h5', by rw [h7]; rfl, h8⟩
  · rintro ⟨A, ATr, d, b, c, r, h1, h2, h3, h4, h5, h7, h8⟩
    refine ⟨A.map fin, ATr.map fin, d.map fin, b.map fin, fin c, r.map fin, by rw [h1]; rfl, ?_, ?_, ?_, ?_, ?_, h8⟩
    · rw [coo_map_T, fin_matmul, h2]; rfl
    · rw [fin_map_neg, hs, h3]; rfl
    · rw [r1, h4]; rfl
    · rw [h.cost, h5]; rfl
    · rw [h7]; rfl

/-- The damping update on real numbers. -/
noncomputable def nextLambda (s : LevenbergMarquardt ℝ) (accept : Bool) (l : ℝ) : ℝ :=
  if accept then l / s.lambdaFactor else max s.lambdaMin (min (l * s.lambdaFactor) s.lambdaMax)

/-- The state after a Levenberg-Marquardt step, in real numbers. -/
noncomputable def lmNextReal (s : LevenbergMarquardt ℝ) (p : LMState ℝ) (b : Assign ℝ) (c : ℝ) (r : List ℝ) (accept conv : Bool) :
    LMState ℝ :=
  { iterations := p.iterations + 1
    assignments := if accept then b else p.assignments
    lambd := nextLambda s accept p.lambd
    cost := if accept then c else p.cost
    residual := r
    done := decide (s.maxIterations - 1 ≤ (p.iterations : Int)) || (accept && conv) }

theorem lmStep_fin (h : Lifts CE gE C g) {sE : LevenbergMarquardt Ext} {s : LevenbergMarquardt ℝ} (hs : LiftsLM sE s)
    (hf : s.lambdaFactor ≠ 0) {p : LMState ℝ} {p' : LMState Ext} {log : List (Msg Ext)} :
    sE.step CE gE (p.map fin) = .ok (p', log) ↔ ∃ A ATb delta b c r As accept conv,
      g.jacobian p.assignments p.residual = .ok A ∧
      A.T.matmul (p.residual.map fun x => -x) = .ok ATb ∧ s.linear A ATb p.lambd p.iterations = .ok delta ∧
      p.assignments.manifoldRetract C ⟨delta, g.localLayout⟩ = .ok b ∧ g.computeCost b = .ok (c, r) ∧
      A.matmul delta = .ok As ∧ As.length = p.residual.length ∧
      accept = Scal.le (fin s.stepQualityMin) (fin (c - p.cost) / fin (predicted As p.residual - p.cost)) ∧
      convergedTest C s.toCriteria p.toState c delta g.localLayout ATb = .ok conv ∧
      p' = (lmNextReal s p b c r accept conv).map fin ∧
      log = hcbPrint s.verbose (.iteration p.iterations (some s.maxIterations) (fin p.cost) (some (fin p.lambd))) := by
  rw [lmStep_ok]
  have j1 : gE.jacobian (p.map fin).assignments (p.map fin).residual = (g.jacobian p.assignments p.residual).map (Coo.map fin) :=
    h.jacobian _ _
  have e6 : (p.map fin).residual = p.residual.map fin := rfl
  have e7 : (p.map fin).iterations = p.iterations := rfl
  have e8 : (p.map fin).lambd = fin p.lambd := rfl
  have e9 : (p.map fin).toState = p.toState.map fin := rfl
  have r1 : ∀ d : List ℝ, (p.toState.map fin).assignments.manifoldRetract CE ⟨d.map fin, g.localLayout⟩ =
      (p.assignments.manifoldRetract C ⟨d, g.localLayout⟩).map (Assign.map fin) := fun d => h.manifoldRetract p.assignments ⟨d, g.localLayout⟩
  have hm : sE.maxIterations = s.maxIterations := congrArg Criteria.maxIterations hs.criteria
  have nx : ∀ (b : Assign ℝ) (c : ℝ) (r : List ℝ) (accept conv : Bool), b.layout = p.assignments.layout →
      lmNext sE (p.map fin) (b.map fin) (fin c) (r.map fin) accept conv = (lmNextReal s p b c r accept conv).map fin := by
    intro b c r accept conv hb
    unfold lmNext lmNextReal LMState.map State.map LevenbergMarquardt.updateLambda nextLambda Assign.map
    simp only [hs.lambdaFactor, hs.lambdaMin, hs.lambdaMax, fin_div hf, fin_mul, fin_maximum, fin_minimum, Criteria.exceeded, hm]
    cases accept <;> simp [hb]
  rw [j1, e6, e7, e8, e9, h.localLayout, hs.criteria, hs.verbose, hs.stepQualityMin]
  constructor
  · rintro ⟨AE, ATrE, dE, bE, cE, rE, q, conv, h1, h2, h3, h4, h5, hq, h6, h7, h8⟩
    obtain ⟨A, h1', rfl⟩ := py_map_eq_ok.1 h1
    rw [fin_map_neg, coo_map_T, fin_matmul] at h2
    obtain ⟨ATr, h2', rfl⟩ := py_map_eq_ok.1 h2
    rw [hs.linear] at h3
    obtain ⟨d, h3', rfl⟩ := py_map_eq_ok.1 h3
    rw [r1] at h4
    obtain ⟨b, h4', rfl⟩ := py_map_eq_ok.1 h4
    rw [h.cost] at h5
    obtain ⟨⟨c, r⟩, h5', h5e⟩ := py_map_eq_ok.1 h5
    obtain ⟨rfl, rfl⟩ := Prod.mk.inj h5e
    rw [converged_fin h] at h6
    obtain ⟨As, hA1, hA2, rfl⟩ := (stepQuality_fin A c p.toState d).1 hq
    exact ⟨A, ATr, d, b, c, r, As, _, conv, h1', h2', h3', h4', h5', hA1, hA2, rfl, h6,
      by rw [h7]; exact nx b c r _ conv (manifoldRetract_shape h4').1, h8⟩
  · rintro ⟨A, ATr, d, b, c, r, As, accept, conv, h1, h2, h3, h4, h5, hA1, hA2, rfl, h6, h7, h8⟩
    refine ⟨A.map fin, ATr.map fin, d.map fin, b.map fin, fin c, r.map fin, _, conv, by rw [h1]; rfl, ?_, ?_, ?_, ?_,
      (stepQuality_fin A c p.toState d).2 ⟨As, hA1, hA2, rfl⟩, ?_, ?_, h8⟩
    · rw [fin_map_neg, coo_map_T, fin_matmul, h2]; rfl
    · rw [hs.linear, h3]; rfl
    · rw [r1, h4]; rfl
    · rw [h.cost, h5]; rfl
    · rw [converged_fin h, h6]
    · rw [h7]; exact (nx b c r _ conv (manifoldRetract_shape h4).1).symm

/-- The radius update on real numbers; the quality is the quotient of `x` and `y`. -/
noncomputable def nextRadius (q : Ext) (radius : ℝ) (delta : List ℝ) : ℝ :=
  if Scal.lt q (fin (1 / 4)) = true then radius / 2
  else if Scal.lt (fin (3 / 4)) q = true then max radius (3 * nrm delta) else radius

theorem doglegRadius_fin (q : Ext) (radius : ℝ) (delta : List ℝ) :
    doglegRadius q (fin radius) (delta.map fin) = fin (nextRadius q radius delta) := by
  unfold doglegRadius nextRadius
  have h1 : (Scal.lit (1 / 4) : Ext) = fin (1 / 4) := by rw [fin_lit]; norm_num
  have h2 : (Scal.lit (3 / 4) : Ext) = fin (3 / 4) := by rw [fin_lit]; norm_num
  have h3 : (Scal.lit 3 : Ext) = fin 3 := by rw [fin_lit]; norm_num
  have h4 : (Scal.lit 2 : Ext) = fin 2 := by rw [fin_lit]; norm_num
  rw [h1, h2, h3, h4, fin_vecNorm, fin_mul, fin_maximum, fin_div (by norm_num)]
  split
  · rfl
  · split <;> rfl

/-- The state after a dogleg step, in real numbers. -/
noncomputable def doglegNextReal (s : Dogleg ℝ) (p : DoglegState ℝ) (delta : List ℝ) (b : Assign ℝ) (c : ℝ) (r : List ℝ) (q : Ext)
    (accept conv : Bool) : DoglegState ℝ :=
  { iterations := p.iterations + 1
    assignments := if accept then b else p.assignments
    radius := nextRadius q p.radius delta
    cost := if accept then c else p.cost
    residual := r
    done := decide (s.maxIterations - 1 ≤ (p.iterations : Int)) || (accept && conv) }

/-- A dogleg step whose step vector is finite. -/
theorem doglegSolverStep_fin (h : Lifts CE gE C g) {sE : Dogleg Ext} {s : Dogleg ℝ} (hs : LiftsDogleg sE s)
    {p : DoglegState ℝ} {p' : DoglegState Ext} {log : List (Msg Ext)}
    (hfin : ∀ A ATb gn dE, g.jacobian p.assignments p.residual = .ok A → A.T.matmul (p.residual.map fun x => -x) = .ok ATb →
      s.linear A ATb 0 p.iterations = .ok gn → doglegStep (A.map fin) (ATb.map fin) (gn.map fin) (fin p.radius) = .ok dE →
      ∃ d : List ℝ, dE = d.map fin) :
    sE.step CE gE (p.map fin) = .ok (p', log) ↔ ∃ A ATb gn delta b c r As q conv,
      g.jacobian p.assignments p.residual = .ok A ∧
      A.T.matmul (p.residual.map fun x => -x) = .ok ATb ∧ s.linear A ATb 0 p.iterations = .ok gn ∧
      doglegStep (A.map fin) (ATb.map fin) (gn.map fin) (fin p.radius) = .ok (delta.map fin) ∧
      p.assignments.manifoldRetract C ⟨delta, g.localLayout⟩ = .ok b ∧ g.computeCost b = .ok (c, r) ∧
      A.matmul delta = .ok As ∧ As.length = p.residual.length ∧
      q = fin (c - p.cost) / fin (predicted As p.residual - p.cost) ∧
      convergedTest C s.toCriteria p.toState c delta g.localLayout ATb = .ok conv ∧
      p' = (doglegNextReal s p delta b c r q (Scal.le (fin s.stepQualityMin) q) conv).map fin ∧
      log = hcbPrint s.verbose (.iteration p.iterations (some s.maxIterations) (fin p.cost) (some (fin p.radius))) := by
  rw [doglegSolverStep_ok]
  have j1 : gE.jacobian (p.map fin).assignments (p.map fin).residual = (g.jacobian p.assignments p.residual).map (Coo.map fin) :=
    h.jacobian _ _
  have e6 : (p.map fin).residual = p.residual.map fin := rfl
  have e7 : (p.map fin).iterations = p.iterations := rfl
  have e8 : (p.map fin).radius = fin p.radius := rfl
  have e9 : (p.map fin).toState = p.toState.map fin := rfl
  have r1 : ∀ d : List ℝ, (p.toState.map fin).assignments.manifoldRetract CE ⟨d.map fin, g.localLayout⟩ =
      (p.assignments.manifoldRetract C ⟨d, g.localLayout⟩).map (Assign.map fin) := fun d => h.manifoldRetract p.assignments ⟨d, g.localLayout⟩
  have hm : sE.maxIterations = s.maxIterations := congrArg Criteria.maxIterations hs.criteria
  have nx : ∀ (d : List ℝ) (b : Assign ℝ) (c : ℝ) (r : List ℝ) (q : Ext) (accept conv : Bool), b.layout = p.assignments.layout →
      doglegNext sE (p.map fin) (d.map fin) (b.map fin) (fin c) (r.map fin) q accept conv =
        (doglegNextReal s p d b c r q accept conv).map fin := by
    intro d b c r q accept conv hb
    unfold doglegNext doglegNextReal DoglegState.map State.map Assign.map
    simp only [doglegRadius_fin, Criteria.exceeded, hm]
    cases accept <;> simp [hb]
  rw [j1, e6, e7, e8, e9, h.localLayout, hs.criteria, hs.verbose, hs.stepQualityMin, fin_lit_zero]
  constructor
  · rintro ⟨AE, ATrE, gnE, dE, bE, cE, rE, q, conv, h1, h2, h3, hd, h4, h5, hq, h6, h7, h8⟩
    obtain ⟨A, h1', rfl⟩ := py_map_eq_ok.1 h1
    rw [fin_map_neg, coo_map_T, fin_matmul] at h2
    obtain ⟨ATr, h2', rfl⟩ := py_map_eq_ok.1 h2
    rw [hs.linear] at h3
    obtain ⟨gn, h3', rfl⟩ := py_map_eq_ok.1 h3
    obtain ⟨d, rfl⟩ := hfin A ATr gn dE h1' h2' h3' hd
    rw [r1] at h4
    obtain ⟨b, h4', rfl⟩ := py_map_eq_ok.1 h4
    rw [h.cost] at h5
    obtain ⟨⟨c, r⟩, h5', h5e⟩ := py_map_eq_ok.1 h5
    obtain ⟨rfl, rfl⟩ := Prod.mk.inj h5e
    rw [converged_fin h] at h6
    obtain ⟨As, hA1, hA2, rfl⟩ := (stepQuality_fin A c p.toState d).1 hq
    exact ⟨A, ATr, gn, d, b, c, r, As, _, conv, h1', h2', h3', hd, h4', h5', hA1, hA2, rfl, h6,
      by rw [h7]; exact nx d b c r _ _ conv (manifoldRetract_shape h4').1, h8⟩
  · rintro ⟨A, ATr, gn, d, b, c, r, As, q, conv, h1, h2, h3, hd, h4, h5, hA1, hA2, rfl, h6, h7, h8⟩
    refine ⟨A.map fin, ATr.map fin, gn.map fin, d.map fin, b.map fin, fin c, r.map fin, _, conv, by rw [h1]; rfl, ?_, ?_, hd, ?_, ?_,
      (stepQuality_fin A c p.toState d).2 ⟨As, hA1, hA2, rfl⟩, ?_, ?_, h8⟩
    · rw [fin_map_neg, coo_map_T, fin_matmul, h2]; rfl
    · rw [hs.linear, h3]; rfl
    · rw [r1, h4]; rfl
    · rw [h.cost, h5]; rfl
    · rw [converged_fin h, h6]
    · rw [h7]; exact (nx d b c r _ _ conv (manifoldRetract_shape h4).1).symm

end

end Jaxfg
