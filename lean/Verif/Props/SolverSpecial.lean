/-
Properties C48 and C50: stationary points and linear problems. See Verif.Props.SolverReal for the setting.
-/
import Verif.Lemmas.Stationary
import Verif.Lemmas.Affine
import Verif.Props.Solver
import Verif.Props.CgSolve
import Verif.Props.LinSolve

namespace Jaxfg.Props
open Ext (fin)
open Spec Matrix

/-! ### The linear solvers of the library meet the hypotheses -/

/-- `CholmodSolver` with a cached analysis for this sparsity pattern, or none. -/
theorem cholmod_regular (stale : Pattern → ScipyCoo ℝ → ℝ → List ℝ → Py (List ℝ)) (cache : CholmodCache) (addr : Nat) {A : Coo ℝ}
    (hA : CooWF A)
    (hcache : ∀ p, cache.get? addr = some p → p = ((A.shape.2, A.shape.1), (A.cols.zip A.rows).toFinset)) :
    SolvesRegular (fun A b l _ => (cholmodSolve stale cache addr A b l).1) A ∧
      ∀ z l (_i : Nat), z.length = A.shape.2 → 0 ≤ l → ∃ x, (cholmodSolve stale cache addr A z l).1 = .ok x := by
  refine ⟨fun b l _ x hb hl h => ?_, fun z l _ hz hl => ?_⟩
  · obtain ⟨hpd, x', h1, h2, h3, -⟩ := C35_cholmod stale cache addr A hA b hb l hl hcache
    have h : (cholmodSolve stale cache addr A b l).1 = .ok x := h
    rw [h1] at h
    cases Except.ok.inj h
    refine ⟨h2, (l + 1 / 100000) • (1 : Matrix _ _ ℝ), ?_, hpd, h3⟩
    exact Matrix.PosSemidef.one.smul (by positivity)
  · obtain ⟨-, x', h1, -⟩ := C35_cholmod stale cache addr A hA z hz l hl hcache
    exact ⟨x', h1⟩

/-- `CholmodSolver` with an empty cache. -/
theorem cholmod_zeroAtZero (stale : Pattern → ScipyCoo ℝ → ℝ → List ℝ → Py (List ℝ)) (addr : Nat) :
    ZeroAtZero (fun A b l _ => (cholmodSolve stale .empty addr A b l).1) := by
  intro A b l i x hb h
  have h : (cholmodSolve stale .empty addr A b l).1 = .ok x := h
  unfold cholmodSolve at h
  cases hS : A.T.asScipy with
  | error e => rw [hS] at h; cases h
  | ok S =>
    rw [hS] at h
    have ha : (cholmodAnalysis .empty addr S).1 = S.pattern := rfl
    simp only [ha, cholmodFactorSolve, if_true] at h
    split at h
    · cases h
    · split at h
      · cases Except.ok.inj h
        have hz : (fun i : Fin S.shape.1 => b.getD i 0) = 0 := by
          funext i
          rw [List.getD_eq_getElem?_getD]
          cases hi : b[i.val]? with
          | none => rfl
          | some y => exact hb y (List.mem_of_getElem? hi)
        rw [hz, mulVec_zero]
        simp
      · cases h

/-- For graphs of well-formed factors, `CholmodSolver` solves the regular normal equations of every Jacobian. -/
theorem cholmod_graph {C : Ty → VarClass ℝ} {g : GraphOps ℝ} {ws : List Var} (hg : SaneGraph C g ws)
    (stale : Pattern → ScipyCoo ℝ → ℝ → List ℝ → Py (List ℝ)) (addr : Nat) :
    AllJacobians C g ws (SolvesRegular fun A b l _ => (cholmodSolve stale .empty addr A b l).1) :=
  fun a a' c r A h1 h2 h3 h4 h5 h6 =>
    (cholmod_regular stale .empty addr (hg.jacobian a a' c r A h1 h2 h3 h4 h5 h6).1 (fun p hp => by cases hp)).1

/-- `ConjugateGradientSolver` with tolerance zero, for full column rank and in exact arithmetic. -/
theorem cg_regular {A : Coo ℝ} (hA : CooWF A) (hnd : (A.rows.zip A.cols).Nodup)
    (hrank : ∀ v, cooMatrix A A.shape.1 A.shape.2 *ᵥ v = 0 → v = 0) :
    SolvesRegular (fun A b l _ => cgSolve A b l 0) A ∧ SolvesNormal (fun A b l _ => cgSolve A b l 0) A ∧
      ∀ z l (_i : Nat), z.length = A.shape.2 → 0 ≤ l → ∃ x, cgSolve A z l 0 = .ok x := by
  refine ⟨fun b l _ x hb hl h => ?_, fun b _ x hb h => ?_, fun z l _ hz hl => ?_⟩
  · obtain ⟨x', h1, h2, h3⟩ := C36_exact A hA hnd b hb l hl hrank
    have h : cgSolve A b l 0 = .ok x := h
    rw [h1] at h
    cases Except.ok.inj h
    have hG : ((cooMatrix A A.shape.1 A.shape.2)ᵀ * cooMatrix A A.shape.1 A.shape.2).PosDef := by
      have := Matrix.PosDef.conjTranspose_mul_self (cooMatrix A A.shape.1 A.shape.2)
        (fun u v huv => sub_eq_zero.1 (hrank (u - v) (by rw [mulVec_sub, sub_eq_zero]; exact huv)))
      rwa [conjTranspose_eq_transpose_of_trivial] at this
    have hD : (l • diagonal fun j =>
        ((cooMatrix A A.shape.1 A.shape.2)ᵀ * cooMatrix A A.shape.1 A.shape.2) j j).PosSemidef := by
      refine Matrix.PosSemidef.smul ?_ hl
      exact Matrix.PosSemidef.diagonal fun j => hG.posSemidef.diag_nonneg
    exact ⟨h2, _, hD, hG.add_posSemidef hD, h3⟩
  · obtain ⟨x', h1, h2, h3⟩ := C36_exact A hA hnd b hb 0 le_rfl hrank
    have h : cgSolve A b 0 0 = .ok x := h
    rw [h1] at h
    cases Except.ok.inj h
    rw [zero_smul, add_zero] at h3
    exact ⟨h2, h3⟩
  · obtain ⟨x', h1, -⟩ := C36_exact A hA hnd z hz l hl hrank
    exact ⟨x', h1⟩

section
variable {CE : Ty → VarClass Ext} {gE : GraphOps Ext} {C : Ty → VarClass ℝ} {g : GraphOps ℝ} {ws vars : List Var}

/-! ### C48: stationary points -/

/-- **C48**, Gauss-Newton. Let `a` be assignments in any storage order which, in the storage order of the graph (`b`), are a
stationary point; let the retraction by zero change nothing, and let the linear solver solve (damped) regular normal equations of
the Jacobian. If the parameter tolerance is positive, `solve` takes exactly one step and returns exactly `a`. -/
theorem C48_gauss_newton (h : Lifts CE gE C g) (hg : SaneGraph C g ws) (hz : ZeroRetract C) {sE : GaussNewton Ext} {s : GaussNewton ℝ}
    (hs : LiftsGN sE s) (htol : 0 < s.parameterTolerance) {a b : Assign ℝ} (ha : IsAssignmentOf C vars a)
    (hv : ∀ v, v ∈ vars ↔ v ∈ ws) (hpos : ∀ t, 0 < (C t).paramDim) (hne : vars ≠ [])
    (hb : a.updateStorageLayout C g.layout = .ok b) {c : ℝ} {r : List ℝ} {A : Coo ℝ} (hrest : AtRest g b c r A)
    (hL : SolvesRegular s.linear A) (hok : ∀ z l i, z.length = A.shape.2 → 0 ≤ l → ∃ x, s.linear A z l i = .ok x) (fuel : Nat) :
    sE.solve CE gE fuel (a.map fin) = .ok (if fuel < 1 then none else some (a.map fin,
      hcbPrint s.verbose (.iteration 0 (some s.maxIterations) (fin c) none) ++ hcbPrint s.verbose (.terminated 1 (fin c)))) := by
  obtain ⟨hb1, hb2, hb3, hb4⟩ := to_graph_order hg ha hv hpos hne hb
  have hstep := gn_step_rest h hg hz hs htol hb1 hb2 hb3 hrest hL hok
  have hloop := whileLoop_sequence (done := fun s : State Ext => s.done) (step := sE.step CE gE)
    (s := fun k => State.map fin ⟨k, b, c, r, decide (1 ≤ k)⟩)
    (l := fun _ => hcbPrint s.verbose (.iteration 0 (some s.maxIterations) (fin c) none)) (K := 1)
    (by intro k hk; obtain rfl : k = 0 := by omega
        exact ⟨rfl, hstep⟩) rfl fuel
  unfold GaussNewton.solve baseSolve
  rw [h.layout, h.updateStorageLayout, hb]
  simp only [Except.map, py_bind_ok]
  rw [(initState_fin h).2 ⟨c, r, hrest.cost, rfl⟩]
  simp only [py_bind_ok, id]
  have hloop' : whileLoop (fun s : State Ext => s.done) (sE.step CE gE) fuel (State.map fin ⟨0, b, c, r, false⟩) = _ := hloop
  rw [hloop']
  by_cases hf : fuel < 1
  · simp only [if_pos hf, py_bind_ok]; rfl
  · simp only [if_neg hf, py_bind_ok]
    have e : (State.map fin ⟨1, b, c, r, decide (1 ≤ 1)⟩).assignments.updateStorageLayout CE (a.map fin).layout = .ok (a.map fin) := by
      show (b.map fin).updateStorageLayout CE a.layout = _
      rw [h.updateStorageLayout, hb4]; rfl
    rw [e, hs.verbose]
    simp [State.map, List.range_succ]

/-- **C48**, Levenberg-Marquardt. In the situation of `C48_gauss_newton` with positive damping settings, `solve` returns exactly
`a`, but only after all `max(1, max_iterations)` iterations: whatever the tolerances are, the loop does not end before. -/
theorem C48_levenberg_marquardt (h : Lifts CE gE C g) (hg : SaneGraph C g ws) (hz : ZeroRetract C) {sE : LevenbergMarquardt Ext}
    {s : LevenbergMarquardt ℝ} (hs : LiftsLM sE s) (p1 : 0 < s.lambdaInitial) (p2 : 1 ≤ s.lambdaFactor) (p3 : 0 < s.lambdaMin)
    {a b : Assign ℝ} (ha : IsAssignmentOf C vars a)
    (hv : ∀ v, v ∈ vars ↔ v ∈ ws) (hpos : ∀ t, 0 < (C t).paramDim) (hne : vars ≠ [])
    (hb : a.updateStorageLayout C g.layout = .ok b) {c : ℝ} {r : List ℝ} {A : Coo ℝ} (hrest : AtRest g b c r A)
    (hL : SolvesRegular s.linear A) (hok : ∀ z l i, z.length = A.shape.2 → 0 ≤ l → ∃ x, s.linear A z l i = .ok x) :
    ∃ log, ∀ fuel : Nat, sE.solve CE gE fuel (a.map fin) =
      .ok (if (fuel : Int) < max 1 s.maxIterations then none else
        some (a.map fin, log ++ hcbPrint s.verbose (.terminated (max 1 s.maxIterations).toNat (fin c)))) := by
  obtain ⟨hb1, hb2, hb3, hb4⟩ := to_graph_order hg ha hv hpos hne hb
  have hf0 : s.lambdaFactor ≠ 0 := by linarith
  set K := (max 1 s.maxIterations).toNat with hK
  let lam : Nat → ℝ := fun k => (nextLambda s false)^[k] s.lambdaInitial
  have hlam : ∀ k, 0 ≤ lam k := by
    intro k
    cases k with
    | zero => exact p1.le
    | succ k =>
      show 0 ≤ (nextLambda s false)^[k + 1] s.lambdaInitial
      rw [Function.iterate_succ_apply']
      exact (lt_max_of_lt_left p3).le
  let l : Nat → List (Msg Ext) := fun k => hcbPrint s.verbose (.iteration k (some s.maxIterations) (fin c) (some (fin (lam k))))
  have hloop := whileLoop_sequence (done := fun s : LMState Ext => s.done) (step := sE.step CE gE)
    (s := fun k => LMState.map fin ⟨⟨k, b, c, r, decide (K ≤ k)⟩, lam k⟩) (l := l) (K := K)
    (by
      intro k hk
      refine ⟨by simp [LMState.map, State.map, hk], ?_⟩
      show sE.step CE gE (LMState.map fin ⟨⟨k, b, c, r, decide (K ≤ k)⟩, lam k⟩) = _
      rw [lm_step_rest h hg hz hs hf0 hb1 hb2 hb3 hrest hL hok k _ (hlam k)]
      have e : decide (s.maxIterations - 1 ≤ (k : Int)) = decide (K ≤ k + 1) := by
        apply decide_eq_decide.2; omega
      have e2 : nextLambda s false (lam k) = lam (k + 1) := (Function.iterate_succ_apply' _ _ _).symm
      rw [e, e2])
    (by simp [LMState.map, State.map])
  refine ⟨(List.range K).flatMap l, fun fuel => ?_⟩
  unfold LevenbergMarquardt.solve baseSolve
  rw [h.layout, h.updateStorageLayout, hb]
  simp only [Except.map, py_bind_ok]
  rw [(lmInit_fin h hs).2 ⟨c, r, hrest.cost, rfl⟩]
  simp only [py_bind_ok]
  have e0 : decide (K ≤ 0) = false := by simp only [decide_eq_false_iff_not]; omega
  have hloop' := hloop fuel
  simp only [e0] at hloop'
  have hloop'' : whileLoop (fun s : LMState Ext => s.done) (sE.step CE gE) fuel
      (LMState.map fin ⟨⟨0, b, c, r, false⟩, s.lambdaInitial⟩) = _ := hloop'
  rw [hloop'']
  by_cases hf : fuel < K
  · have : (fuel : Int) < max 1 s.maxIterations := by omega
    simp only [if_pos hf, if_pos this, py_bind_ok]; rfl
  · have : ¬ (fuel : Int) < max 1 s.maxIterations := by omega
    simp only [if_neg hf, if_neg this, py_bind_ok]
    have e : (LMState.map fin ⟨⟨K, b, c, r, decide (K ≤ K)⟩, lam K⟩).assignments.updateStorageLayout CE (a.map fin).layout =
        .ok (a.map fin) := by
      show (b.map fin).updateStorageLayout CE a.layout = _
      rw [h.updateStorageLayout, hb4]; rfl
    rw [e, hs.verbose]
    rfl

/-- **C48**, dogleg. As for Levenberg-Marquardt; the radius has to be positive. -/
theorem C48_dogleg (h : Lifts CE gE C g) (hg : SaneGraph C g ws) (hz : ZeroRetract C) {sE : Dogleg Ext}
    {s : Dogleg ℝ} (hs : LiftsDogleg sE s) (p1 : 0 < s.radiusInitial)
    {a b : Assign ℝ} (ha : IsAssignmentOf C vars a)
    (hv : ∀ v, v ∈ vars ↔ v ∈ ws) (hpos : ∀ t, 0 < (C t).paramDim) (hne : vars ≠ [])
    (hb : a.updateStorageLayout C g.layout = .ok b) {c : ℝ} {r : List ℝ} {A : Coo ℝ} (hrest : AtRest g b c r A)
    (hL : SolvesRegular s.linear A) (hok : ∀ z l i, z.length = A.shape.2 → 0 ≤ l → ∃ x, s.linear A z l i = .ok x) :
    ∃ log, ∀ fuel : Nat, sE.solve CE gE fuel (a.map fin) =
      .ok (if (fuel : Int) < max 1 s.maxIterations then none else
        some (a.map fin, log ++ hcbPrint s.verbose (.terminated (max 1 s.maxIterations).toNat (fin c)))) := by
  obtain ⟨hb1, hb2, hb3, hb4⟩ := to_graph_order hg ha hv hpos hne hb
  set K := (max 1 s.maxIterations).toNat with hK
  let l : Nat → List (Msg Ext) := fun k => hcbPrint s.verbose (.iteration k (some s.maxIterations) (fin c) (some (fin s.radiusInitial)))
  have hloop := whileLoop_sequence (done := fun s : DoglegState Ext => s.done) (step := sE.step CE gE)
    (s := fun k => DoglegState.map fin ⟨⟨k, b, c, r, decide (K ≤ k)⟩, s.radiusInitial⟩) (l := l) (K := K)
    (by
      intro k hk
      refine ⟨by simp [DoglegState.map, State.map, hk], ?_⟩
      show sE.step CE gE (DoglegState.map fin ⟨⟨k, b, c, r, decide (K ≤ k)⟩, s.radiusInitial⟩) = _
      rw [dogleg_step_rest h hg hz hs hb1 hb2 hb3 hrest hL hok k _ p1]
      have e : decide (s.maxIterations - 1 ≤ (k : Int)) = decide (K ≤ k + 1) := by
        apply decide_eq_decide.2; omega
      rw [e])
    (by simp [DoglegState.map, State.map])
  refine ⟨(List.range K).flatMap l, fun fuel => ?_⟩
  unfold Dogleg.solve baseSolve
  rw [h.layout, h.updateStorageLayout, hb]
  simp only [Except.map, py_bind_ok]
  rw [(doglegInit_fin h hs).2 ⟨c, r, hrest.cost, rfl⟩]
  simp only [py_bind_ok]
  have e0 : decide (K ≤ 0) = false := by simp only [decide_eq_false_iff_not]; omega
  have hloop' := hloop fuel
  simp only [e0] at hloop'
  have hloop'' : whileLoop (fun s : DoglegState Ext => s.done) (sE.step CE gE) fuel
      (DoglegState.map fin ⟨⟨0, b, c, r, false⟩, s.radiusInitial⟩) = _ := hloop'
  rw [hloop'']
  by_cases hf : fuel < K
  · have : (fuel : Int) < max 1 s.maxIterations := by omega
    simp only [if_pos hf, if_pos this, py_bind_ok]; rfl
  · have : ¬ (fuel : Int) < max 1 s.maxIterations := by omega
    simp only [if_neg hf, if_neg this, py_bind_ok]
    have e : (DoglegState.map fin ⟨⟨K, b, c, r, decide (K ≤ K)⟩, s.radiusInitial⟩).assignments.updateStorageLayout CE (a.map fin).layout =
        .ok (a.map fin) := by
      show (b.map fin).updateStorageLayout CE a.layout = _
      rw [h.updateStorageLayout, hb4]; rfl
    rw [e, hs.verbose]
    rfl

/-! ### C50: linear problems -/

/-- **C50**, one step. If the residual is affine along retractions and the linear solver solves the normal equations, then in every
Gauss-Newton execution the state after a step has finite cost, not larger than the cost of any retraction of the assignments before
the step. -/
theorem C50_gauss_newton_step (h : Lifts CE gE C g) (hg : SaneGraph C g ws) (haff : AffineGraph C g ws) {sE : GaussNewton Ext}
    {s : GaussNewton ℝ} (hs : LiftsGN sE s) (hL : AllJacobians C g ws (SolvesNormal s.linear)) {a : Assign ℝ}
    (ha : IsAssignmentOf C ws a) (hl : a.layout = g.layout) {st st' st'' : State Ext} {k : Nat} {log log' : List (Msg Ext)}
    (hi : initState gE (a.map fin) = .ok st) (hr : Runs (fun s => s.done) (sE.step CE gE) k st st' log)
    (hstep : sE.step CE gE st' = .ok (st'', log')) :
    ∃ (b b' : Assign ℝ) (c : ℝ) (r : List ℝ), st'.assignments = b.map fin ∧ st''.assignments = b'.map fin ∧ st''.cost = fin c ∧
      g.computeCost b' = .ok (c, r) ∧
      ∀ d e c' r', d.length = g.localLayout.dim → b.manifoldRetract C ⟨d, g.localLayout⟩ = .ok e → g.computeCost e = .ok (c', r') → c ≤ c' := by
  obtain ⟨c, r, hc, rfl⟩ := (initState_fin h).1 hi
  have inv := hr.invariant (P := fun st => ∃ q : State ℝ, st = q.map fin ∧ GoodState C g ws q ∧
      g.computeCost q.assignments = .ok (q.cost, q.residual)) (by
    rintro _ p' l ⟨q, rfl, hq, hcur⟩ hstep
    obtain ⟨A, ATr, d, b, c, r, conv, -, -, -, hb, hc, -, rfl, -⟩ := (gnStep_fin h hs).1 hstep
    exact ⟨_, rfl, hq.next hb hc true rfl rfl rfl, hc⟩) ⟨_, rfl, GoodState.start ha hl hc _ _, hc⟩
  obtain ⟨q, rfl, hq, hcur⟩ := inv
  obtain ⟨A, ATr, d, b, c, r, conv, hA, hT, hx, hb, hc, -, rfl, -⟩ := (gnStep_fin h hs).1 hstep
  refine ⟨q.assignments, b, c, r, rfl, rfl, rfl, hc, ?_⟩
  intro d' e c' r' hd' he hc'
  obtain ⟨hwf, hdim⟩ := hq.jac hg hA
  obtain ⟨l1, l2, l3⟩ := matmul_vec (cooWF_T hwf) hT
  have hrl : q.residual.length = A.shape.1 := l1
  obtain ⟨hxl, hxe⟩ := hq.all hL hA _ _ _ (by rw [List.length_map]; exact l2) hx
  rw [affine_cost hg haff hq.assignment hq.layout hcur hA hrl (hxl.trans hdim) hb hc,
    affine_cost hg haff hq.assignment hq.layout hcur hA hrl hd' he hc']
  apply normal_minimizes
  rw [hxe, vec_neg_list (show ATr.length = A.shape.2 from l2)]
  unfold descent
  rw [mulVec_neg]
  have l3' : Spec.vec ATr A.shape.2 = cooMatrix A.T A.shape.2 A.shape.1 *ᵥ Spec.vec q.residual A.shape.1 := l3
  rw [l3', cooMatrix_T]

/-- Every assignments object is reached by a retraction if all variables use the default retraction. -/
theorem retract_reaches (hg : SaneGraph C g ws) (hE : UsesDefaultRetraction C ws) {a b : Assign ℝ} (ha : IsAssignmentOf C ws a)
    (hla : a.layout = g.layout) (hb : IsAssignmentOf C ws b) (hlb : b.layout = g.layout) :
    ∃ d, d.length = g.localLayout.dim ∧ a.manifoldRetract C ⟨d, g.localLayout⟩ = .ok b := by
  have hfl : a.layout.localFlag = false := by rw [hla, hg.layout]; rfl
  have hdim : g.layout.dim = g.localLayout.dim := by
    have hz : IsAssignmentOf C ws ⟨List.replicate g.localLayout.dim 0, g.localLayout⟩ :=
      ⟨hg.nodup, by simp only [hg.localLayout, make_localFlag], by simp⟩
    have := (retract_adds C hg.classes ws a _ ha hfl hz (by simp only [hg.localLayout, make_localFlag]) hE).2
    rw [ha.2.2, hla] at this
    simpa using this
  have hlen : (List.zipWith (· - ·) b.storage a.storage).length = g.localLayout.dim := by
    rw [List.length_zipWith, hb.2.2, ha.2.2, hla, hlb, hdim, min_self]
  have hd : IsAssignmentOf C ws ⟨List.zipWith (· - ·) b.storage a.storage, g.localLayout⟩ :=
    ⟨hg.nodup, by simp only [hg.localLayout, make_localFlag], hlen⟩
  refine ⟨_, hlen, ?_⟩
  rw [(retract_adds C hg.classes ws a _ ha hfl hd (by simp only [hg.localLayout, make_localFlag]) hE).1]
  have hs : List.zipWith (· + ·) a.storage (List.zipWith (· - ·) b.storage a.storage) = b.storage := by
    have hl2 : a.storage.length = b.storage.length := by rw [ha.2.2, hb.2.2, hla, hlb]
    apply List.ext_getElem
    · simp [hl2]
    · intro i h1 h2; simp
  rw [hs, hla, ← hlb]

/-- **C50**, executions. For variables with the default retraction and an affine residual: after one or more steps the cost is the
global minimum over all assignments. -/
theorem C50_gauss_newton (h : Lifts CE gE C g) (hg : SaneGraph C g ws) (haff : AffineGraph C g ws)
    (hE : UsesDefaultRetraction C ws) {sE : GaussNewton Ext}
    {s : GaussNewton ℝ} (hs : LiftsGN sE s) (hL : AllJacobians C g ws (SolvesNormal s.linear)) {a : Assign ℝ}
    (ha : IsAssignmentOf C ws a) (hl : a.layout = g.layout) {st st' : State Ext} {k : Nat} {log : List (Msg Ext)}
    (hi : initState gE (a.map fin) = .ok st) (hr : Runs (fun s => s.done) (sE.step CE gE) (k + 1) st st' log) :
    ∃ (b : Assign ℝ) (c : ℝ) (r : List ℝ), st'.assignments = b.map fin ∧ st'.cost = fin c ∧ g.computeCost b = .ok (c, r) ∧
      ∀ e c' r', IsAssignmentOf C ws e → e.layout = g.layout → g.computeCost e = .ok (c', r') → c ≤ c' := by
  cases hr with
  | step h1 h2 h3 =>
    obtain ⟨b, b', c, r, e1, e2, e3, e4, e5⟩ := C50_gauss_newton_step h hg haff hs hL ha hl hi h1 h3
    refine ⟨b', c, r, e2, e3, e4, fun e c' r' he hle hc' => ?_⟩
    obtain ⟨c0, r0, hc0, rfl⟩ := (initState_fin h).1 hi
    obtain ⟨q, rfl, hq⟩ := gn_runs_fin h hs (GoodState.start ha hl hc0 _ _) h1
    have hbq : b = q.assignments := by
      have e1' : q.assignments.map fin = b.map fin := e1
      have i1 := congrArg Assign.storage e1'
      have i2 := congrArg Assign.layout e1'
      have i1' : q.assignments.storage = b.storage := List.map_injective_iff.2 fin_injective i1
      cases b; cases hh : q.assignments
      rw [hh] at i1' i2
      simp only [Assign.map] at i1' i2
      rw [i1', i2]
    subst hbq
    obtain ⟨d, hd1, hd2⟩ := retract_reaches hg hE hq.assignment hq.layout he hle
    exact e5 d e c' r' hd1 hd2 hc'

/-- **C50**, `solve`. The returned assignments are, in the graph's storage order, a global minimum of the cost. -/
theorem C50_gauss_newton_solve (h : Lifts CE gE C g) (hg : SaneGraph C g ws) (haff : AffineGraph C g ws)
    (hE : UsesDefaultRetraction C ws) (hpos : ∀ t, 0 < (C t).paramDim) {sE : GaussNewton Ext}
    {s : GaussNewton ℝ} (hs : LiftsGN sE s) (hL : AllJacobians C g ws (SolvesNormal s.linear)) {a : Assign ℝ}
    (ha : IsAssignmentOf C vars a) (hv : ∀ v, v ∈ vars ↔ v ∈ ws) (hne : vars ≠ []) {fuel : Nat} {out : Assign Ext}
    {log : List (Msg Ext)} (hsol : sE.solve CE gE fuel (a.map fin) = .ok (some (out, log))) :
    ∃ (b : Assign ℝ) (c : ℝ) (r : List ℝ), (b.updateStorageLayout C a.layout).map (Assign.map fin) = .ok out ∧
      g.computeCost b = .ok (c, r) ∧
      ∀ e c' r', IsAssignmentOf C ws e → e.layout = g.layout → g.computeCost e = .ok (c', r') → c ≤ c' := by
  obtain ⟨b0, st, st', l, h1, h2, h3, h4, -⟩ := baseSolve_some.1 hsol
  rw [h.layout, h.updateStorageLayout] at h1
  obtain ⟨b1, hb1, rfl⟩ := py_map_eq_ok.1 h1
  obtain ⟨i1, i2, -, -⟩ := to_graph_order hg ha hv hpos hne hb1
  obtain ⟨k, -, hr, hd⟩ := runs_of_whileLoop h3
  cases k with
  | zero =>
    cases hr
    obtain ⟨c, r, -, rfl⟩ := (initState_fin h).1 h2
    cases hd
  | succ k =>
    obtain ⟨b, c, r, e1, e2, e3, e4⟩ := C50_gauss_newton h hg haff hE hs hL i1 i2 h2 hr
    refine ⟨b, c, r, ?_, e3, e4⟩
    have e1' : (id st').assignments = b.map fin := e1
    rw [e1', h.updateStorageLayout] at h4
    exact h4

end

end Jaxfg.Props
