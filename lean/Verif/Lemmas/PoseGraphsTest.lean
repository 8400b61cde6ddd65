/- What tests/test_pose_graphs.py computes, step by step. -/
import Verif.Model.PoseGraphsTest
import Verif.Lemmas.SimpleScript
import Verif.Lemmas.CgSolve
import Verif.Lemmas.SolverRuns
import Verif.Lemmas.Simulation

namespace Jaxfg.Simple
open Spec
open Ext (fin)

theorem poseTest_eq (n : Nat) : poseTestProblem n = simpleProblem n := by
  have h : Noise.diagonalFromCovariance ⟨[3], List.replicate 3 1⟩ = simpleNoise := by
    simp [Noise.diagonalFromCovariance, simpleNoise]
  unfold poseTestProblem simpleProblem poseTestFactors simpleFactors
  rw [h]
  rfl

theorem start_eq (n : Nat) : at_ n [1, 0, 0, 0] [1, 0, 0, 0] = pt n (-2) (4 / 3) := by
  rw [pt, onAxis]; norm_num

theorem nll_pt (n : Nat) (s t : ℝ) : (G n).computeJointNll g2oFactors g2oClasses (pt n s t) false =
    .ok (1 / 3 + s ^ 2 / 2 + 3 * t ^ 2 / 2) := by
  have hc := cost_pt n s t
  have e : ((G n).ops g2oFactors g2oClasses).computeCost = (G n).computeCost g2oFactors g2oClasses := rfl
  rw [e] at hc
  unfold Graph.computeCost at hc
  simp only [py_bind_eq_ok, py_return_eq_ok, Prod.mk.injEq] at hc
  obtain ⟨r, h1, h2, rfl⟩ := hc
  have hl : (G n).factorStacks.mapM Graph.stackLogDet = .ok [0, 0] := by
    refine Eq.trans (b := .ok [[-2 * Real.log |([1, 1, 1] : List ℝ).prod|, -2 * Real.log |([1, 1, 1] : List ℝ).prod|].sum,
      [-2 * Real.log |([1, 1, 1] : List ℝ).prod|].sum]) rfl ?_
    simp
  unfold Graph.computeJointNll
  rw [h1, hl]
  simp only [py_bind_ok, Bool.false_eq_true, if_false]
  refine congrArg Except.ok ?_
  rw [← h2]
  simp

/-- The assertions hold if the cost is less than at the start. -/
theorem asserts_ok (n : Nat) (s t : ℝ) (h : s ^ 2 / 2 + 3 * t ^ 2 / 2 < 14 / 3) :
    poseTestAsserts n (G n) (pt n (-2) (4 / 3)) (pt n s t) = .ok () := by
  obtain ⟨p, hp⟩ : ∃ p, p = 1 / 3 + (s + t) / 2 := ⟨_, rfl⟩
  obtain ⟨q, hq⟩ : ∃ q, q = 5 / 3 + (s - t) / 2 := ⟨_, rfl⟩
  have hpt : pt n s t = onAxis n p q := by rw [pt, hp, hq]
  have hlt : (1 / 3 + (-2 : ℝ) ^ 2 / 2 + 3 * (4 / 3 : ℝ) ^ 2 / 2) > 1 / 3 + s ^ 2 / 2 + 3 * t ^ 2 / 2 := by
    have : (1 / 3 + (-2 : ℝ) ^ 2 / 2 + 3 * (4 / 3 : ℝ) ^ 2 / 2) = 1 / 3 + 14 / 3 := by norm_num
    rw [this]
    linarith
  unfold poseTestAsserts
  rw [nll_pt, nll_pt]
  simp only [py_bind_ok]
  rw [hpt, getValue0, getValue1, getStacked]
  have e0 : pyGet [se2Value p 0 0, se2Value q 0 0] 0 = .ok (se2Value p 0 0) := rfl
  have e1 : pyGet [se2Value p 0 0, se2Value q 0 0] 1 = .ok (se2Value q 0 0) := rfl
  have ht : ∀ x, (se2Value x 0 0).treedef = LieGroup.se2.treedef := fun x => rfl
  simp only [py_bind_ok, e0, e1, ht, decide_eq_true hlt, pyAssert, List.all_cons, List.all_nil]
  simp

/-! ### Conjugate gradient on the axis -/

theorem ata_diagonals (p q : ℝ) : ataDiagonals (J p q) 6 = [2, 2, 2 + (q - p) ^ 2, 2, 2, 2] := by
  simp [ataDiagonals, J, scatterAdd]
  norm_num
  ring

theorem ata_axis (p q l d e : ℝ) : ataFunction (J p q) [2, 2, 2 + (q - p) ^ 2, 2, 2, 2] l [d, 0, 0, e, 0, 0] =
    .ok [(2 + 2 * l) * d - e, 0, 0, (2 + 2 * l) * e - d, 0, 0] := by
  unfold ataFunction
  rw [matmul_axis]
  simp only [py_bind_ok, matmul_T_axis]
  refine congrArg Except.ok ?_
  simp
  constructor <;> ring

/-- Vectors on the axis. -/
def OnAxis (l : List ℝ) : Prop := ∃ d e, l = [d, 0, 0, e, 0, 0]

theorem OnAxis.add {x y : List ℝ} : OnAxis x → OnAxis y → OnAxis (List.zipWith (· + ·) x y)
  | ⟨a, b, hx⟩, ⟨c, d, hy⟩ => ⟨a + c, b + d, by simp [hx, hy]⟩

theorem OnAxis.sub {x y : List ℝ} : OnAxis x → OnAxis y → OnAxis (List.zipWith (· - ·) x y)
  | ⟨a, b, hx⟩, ⟨c, d, hy⟩ => ⟨a - c, b - d, by simp [hx, hy]⟩

theorem OnAxis.mul (t : ℝ) {x : List ℝ} : OnAxis x → OnAxis (x.map (t * ·))
  | ⟨a, b, hx⟩ => ⟨t * a, t * b, by simp [hx]⟩

theorem OnAxis.pre (m : ℝ) {x : List ℝ} : OnAxis x → OnAxis (jacobiPreconditioner [2, 2, m, 2, 2, 2] x)
  | ⟨a, b, hx⟩ => ⟨a / 2, b / 2, by simp [hx, jacobiPreconditioner]⟩

theorem cgLoop_axis (p q l atol2 : ℝ) : ∀ (k : Nat) (s s' : CgState), OnAxis s.x → OnAxis s.r → OnAxis s.p →
    cgLoop (ataFunction (J p q) [2, 2, 2 + (q - p) ^ 2, 2, 2, 2] l) (jacobiPreconditioner [2, 2, 2 + (q - p) ^ 2, 2, 2, 2]) atol2 k s = .ok s' →
    OnAxis s'.x
  | 0, s, s', hx, _, _, h => by
    cases h
    exact hx
  | k + 1, s, s', hx, hr, hd, h => by
    unfold cgLoop at h
    split at h
    · obtain ⟨d0, d1, hd'⟩ := hd
      have hA : OnAxis [(2 + 2 * l) * d0 - d1, 0, 0, (2 + 2 * l) * d1 - d0, 0, 0] := ⟨_, _, rfl⟩
      unfold cgBody at h
      simp only [hd', ata_axis, py_bind_ok, py_pure] at h
      rw [← hd'] at h
      have hd : OnAxis s.p := ⟨d0, d1, hd'⟩
      exact cgLoop_axis p q l atol2 k _ s' (hx.add (hd.mul _)) (hr.sub (hA.mul _)) (((hr.sub (hA.mul _)).pre _).add (hd.mul _)) h
    · cases h
      exact hx

theorem J_rank (p q : ℝ) (v : Fin 6 → ℝ) (hv : (cooMatrix (J p q) 9 6).mulVec v = 0) : v = 0 := by
  funext i
  have h0 := congrFun hv 0
  have h1 := congrFun hv 1
  have h2 := congrFun hv 2
  have h3 := congrFun hv 3
  have h4 := congrFun hv 4
  have h5 := congrFun hv 5
  simp [Matrix.mulVec, dotProduct, Fin.sum_univ_succ, cooMatrix, entries, J] at h0 h1 h2 h3 h4 h5
  fin_cases i
  · exact h0
  · exact h1
  · exact h2
  · exact h3
  · exact h4
  · exact h5

/-- Conjugate gradient stays on the axis and solves the system there. -/
theorem cg_axis (p q l tol b c : ℝ) (hl : 0 ≤ l) : ∃ d e, cgSolve (J p q) [b, 0, 0, c, 0, 0] l tol = .ok [d, 0, 0, e, 0, 0] ∧
    (b - ((2 + 2 * l) * d - e)) ^ 2 + (c - ((2 + 2 * l) * e - d)) ^ 2 ≤ tol ^ 2 * (b ^ 2 + c ^ 2) := by
  have hrank : ∀ v, (cooMatrix (J p q) (J p q).shape.1 (J p q).shape.2).mulVec v = 0 → v = 0 := J_rank p q
  obtain ⟨x, hx, hlen, hres⟩ := cg_ok (opsMatch (J_wf p q) l) (cgMatrix_symm (J p q) l) (cgPreconditioner_symm (J p q))
    (cgMatrix_pd (J p q) hl hrank) (cgPreconditioner_pd (J p q) hrank) (b := [b, 0, 0, c, 0, 0]) rfl tol
  have hx' : cgSolve (J p q) [b, 0, 0, c, 0, 0] l tol = .ok x := hx
  have hax : OnAxis x := by
    unfold cgSolve cg at hx'
    have e6 : ([b, 0, 0, c, 0, 0] : List ℝ).length = 6 := rfl
    have e0 : List.replicate 6 (0 : ℝ) = [0, 0, 0, 0, 0, 0] := rfl
    simp only [e6, ata_diagonals, e0, ata_axis, py_bind_ok, py_bind_eq_ok, py_return_eq_ok] at hx'
    obtain ⟨s', hs', rfl⟩ := hx'
    refine cgLoop_axis p q l _ _ _ s' ⟨0, 0, rfl⟩ ?_ ?_ hs'
    · exact OnAxis.sub ⟨_, _, rfl⟩ ⟨_, _, rfl⟩
    · exact (OnAxis.sub ⟨_, _, rfl⟩ ⟨_, _, rfl⟩).pre _
  obtain ⟨d, e, rfl⟩ := hax
  refine ⟨d, e, hx', ?_⟩
  obtain ⟨y, hy1, hy2, hy3⟩ := (opsMatch (J_wf p q) l).op [d, 0, 0, e, 0, 0] rfl
  have e6 : ataDiagonals (J p q) (J p q).shape.2 = [2, 2, 2 + (q - p) ^ 2, 2, 2, 2] := ata_diagonals p q
  rw [e6, ata_axis] at hy1
  cases hy1
  rw [← hy3] at hres
  have hres' : (vec [b, 0, 0, c, 0, 0] 6 - vec [(2 + 2 * l) * d - e, 0, 0, (2 + 2 * l) * e - d, 0, 0] 6) ⬝ᵥ
      (vec [b, 0, 0, c, 0, 0] 6 - vec [(2 + 2 * l) * d - e, 0, 0, (2 + 2 * l) * e - d, 0, 0] 6) ≤
      tol ^ 2 * (vec [b, 0, 0, c, 0, 0] 6 ⬝ᵥ vec [b, 0, 0, c, 0, 0] 6) := hres
  simp [dotProduct, Fin.sum_univ_succ, vec] at hres'
  linarith

/-! ### Steps -/

/-- The Jacobian at these errors. -/
noncomputable def Jst (s t : ℝ) : Coo ℝ := J (1 / 3 + (s + t) / 2) (5 / 3 + (s - t) / 2)

/-- The step from the errors `s`, `t` to `s'`, `t'`. -/
noncomputable def stepTo (s t s' t' : ℝ) : List ℝ := [(s' - s + (t' - t)) / 2, 0, 0, (s' - s - (t' - t)) / 2, 0, 0]

/-- The negative gradient. -/
noncomputable def descentAt (s t : ℝ) : List ℝ := [-(s + 3 * t) / 2, 0, 0, -(s - 3 * t) / 2, 0, 0]

theorem jac_pt (n : Nat) (s t : ℝ) : ((G n).ops g2oFactors g2oClasses).jacobian (pt n s t) (rs s t) = .ok (Jst s t) := jac_onAxis ..

theorem descent_pt (s t : ℝ) : (Jst s t).T.matmul ((rs s t).map fun x => -x) = .ok (descentAt s t) := by
  simp [Coo.matmul, Coo.T, Jst, J, rs, descentAt, scatterAdd, gather, pyAssert]
  constructor <;> ring

theorem retract_pt (n : Nat) (s t s' t' : ℝ) : (pt n s t).manifoldRetract g2oClasses ⟨stepTo s t s' t', (G n).localLayout⟩ =
    .ok (pt n s' t') := by
  rw [pt, stepTo, retract_eq, pt]
  congr 2 <;> ring

/-- On the axis the residuals are linear. -/
theorem predicted_pt (s t s' t' : ℝ) : ∃ As, (Jst s t).matmul (stepTo s t s' t') = .ok As ∧ As.length = (rs s t).length ∧
    predicted As (rs s t) = 1 / 3 + s' ^ 2 / 2 + 3 * t' ^ 2 / 2 := by
  refine ⟨_, matmul_axis .., rfl, ?_⟩
  simp only [predicted, rs, sqNorm, List.zipWith_cons_cons, List.zipWith_nil_right, List.map_cons, List.map_nil, List.sum_cons, List.sum_nil]
  ring

theorem conv_pt (n k : Nat) (hk : k < 10) (s t c : ℝ) (delta : List ℝ) :
    convergedTest g2oClasses Criteria.defaults (stateAt n k s t false) c delta (G n).localLayout (descentAt s t) =
      .ok (costTest Criteria.defaults (stateAt n k s t false) c || parameterTest Criteria.defaults (stateAt n k s t false) delta) := by
  have hg : gradientTest g2oClasses Criteria.defaults (stateAt n k s t false) (G n).localLayout (descentAt s t) = .ok false := by
    unfold gradientTest
    simp only [stateAt, pt, descentAt, retract_eq, py_bind_ok]
    have e2 : ∀ p q p' q' : ℝ, ∃ x xs, List.zipWith (· - ·) (onAxis n p q).storage (onAxis n p' q').storage = x :: xs :=
      fun _ _ _ _ => ⟨_, _, rfl⟩
    obtain ⟨x, xs, e2⟩ := e2 (1 / 3 + (s + t) / 2) (5 / 3 + (s - t) / 2) (1 / 3 + (s + t) / 2 + -(s + 3 * t) / 2)
      (5 / 3 + (s - t) / 2 + -(s - 3 * t) / 2)
    rw [e2]
    simp [Criteria.defaults, hk]
  unfold convergedTest
  rw [hg]
  simp only [py_bind_ok, Bool.or_false]
  rfl

/-- The quality of a step on the axis is one. -/
theorem quality_pt {c x : ℝ} (h : x ≠ c) : Scal.le (fin (1 / 1000)) (fin (x - c) / fin (x - c)) = true := by
  rw [fin_div (sub_ne_zero.2 h), div_self (sub_ne_zero.2 h), fin_le]
  norm_num

/-- The cost at these errors. -/
noncomputable def costAt (s t : ℝ) : ℝ := 1 / 3 + s ^ 2 / 2 + 3 * t ^ 2 / 2

/-- One iteration of Levenberg-Marquardt with conjugate gradient. -/
theorem lm_step {CE : Ty → VarClass Ext} {gE : GraphOps Ext} {n : Nat} (h : Lifts CE gE g2oClasses ((G n).ops g2oFactors g2oClasses))
    {sE : LevenbergMarquardt Ext} {tol : ℝ} (hs : LiftsLM sE (LevenbergMarquardt.defaults fun A b l i => cgSolve A b l (cgTolerance tol i)))
    (k : Nat) (hk : k < 10) (s t l : ℝ) (hl : 0 ≤ l) :
    ∃ s' t', (2 * l * s - (1 + 2 * l) * s') ^ 2 + (2 * l * t - (3 + 2 * l) * t') ^ 2 ≤ tol ^ 2 * (s ^ 2 + 9 * t ^ 2) ∧
      ∀ d, costAt s' t' ≠ costAt s t →
        (costTest Criteria.defaults (stateAt n k s t false) (costAt s' t') ||
          parameterTest Criteria.defaults (stateAt n k s t false) (stepTo s t s' t')) = d →
        sE.step CE gE (LMState.map fin ⟨stateAt n k s t false, l⟩) =
          .ok (LMState.map fin ⟨stateAt n (k + 1) s' t' d, l / 2⟩, [.iteration k (some 100) (fin (costAt s t)) (some (fin l))]) := by
  obtain ⟨x, y, hxy, hres⟩ := cg_axis (1 / 3 + (s + t) / 2) (5 / 3 + (s - t) / 2) l tol (-(s + 3 * t) / 2) (-(s - 3 * t) / 2) hl
  refine ⟨s + (x + y), t + (x - y), by nlinarith [hres], fun d hne hd => ?_⟩
  have hst : [x, 0, 0, y, 0, 0] = stepTo s t (s + (x + y)) (t + (x - y)) := by
    simp only [stepTo]
    norm_num
  rw [hst] at hxy
  obtain ⟨As, hA1, hA2, hA3⟩ := predicted_pt s t (s + (x + y)) (t + (x - y))
  refine (lmStep_fin h hs (by show (2 : ℝ) ≠ 0; norm_num)).2 ⟨Jst s t, descentAt s t, stepTo s t (s + (x + y)) (t + (x - y)),
    pt n (s + (x + y)) (t + (x - y)), costAt (s + (x + y)) (t + (x - y)), rs (s + (x + y)) (t + (x - y)), As, true, d, jac_pt n s t, descent_pt s t, hxy,
    retract_pt n s t _ _, cost_pt _ _ _, hA1, hA2, ?_, ?_, ?_, rfl⟩
  · rw [show predicted As (stateAt n k s t false).residual = costAt (s + (x + y)) (t + (x - y)) from hA3]
    exact (quality_pt hne).symm
  · rw [← hd]
    exact conv_pt n k hk s t _ _
  · have : ¬ 99 ≤ k := by omega
    have e : (LevenbergMarquardt.defaults fun A b l i => cgSolve A b l (cgTolerance tol i)).maxIterations = 100 := rfl
    have e2 : (LevenbergMarquardt.defaults fun A b l i => cgSolve A b l (cgTolerance tol i)).lambdaFactor = 2 := rfl
    refine congrArg (LMState.map fin) ?_
    simp only [lmNextReal, nextLambda, e, e2, stateAt, costAt]
    simp [this]

/-- The Gauss-Newton step that CHOLMOD finds. -/
noncomputable def gnAt (s t : ℝ) : List ℝ := stepTo s t (s / 100001) (t / 300001)

theorem cholmod_pt (stale : Pattern → ScipyCoo ℝ → ℝ → List ℝ → Py (List ℝ)) (cache : CholmodCache) (addr : Nat) (hcache : CacheOK cache addr)
    (s t : ℝ) : (cholmodSolve stale cache addr (Jst s t) (descentAt s t) 0).1 = .ok (gnAt s t) := by
  unfold gnAt stepTo descentAt
  apply cholmod_eq _ _ _ hcache <;> ring

theorem sqNorm_stepTo (s t s' t' : ℝ) : sqNorm (stepTo s t s' t') = ((s' - s) ^ 2 + (t' - t) ^ 2) / 2 := by
  simp only [stepTo, sqNorm, List.map_cons, List.map_nil, List.sum_cons, List.sum_nil]
  ring

/-- One iteration of dogleg with CHOLMOD, if the step is known. -/
theorem dogleg_step {CE : Ty → VarClass Ext} {gE : GraphOps Ext} {n : Nat} (h : Lifts CE gE g2oClasses ((G n).ops g2oFactors g2oClasses))
    {stale : Pattern → ScipyCoo ℝ → ℝ → List ℝ → Py (List ℝ)} {cache : Nat → CholmodCache} {addr : Nat}
    (hcache : ∀ i, CacheOK (cache i) addr) {sE : Dogleg Ext}
    (hs : LiftsDogleg sE (Dogleg.defaults fun A b l i => (cholmodSolve stale (cache i) addr A b l).1)) (k : Nat) (hk : k < 10)
    (s t s' t' ρ : ℝ) {d : Bool}
    (hstep : doglegStep ((Jst s t).map fin) ((descentAt s t).map fin) ((gnAt s t).map fin) (fin ρ) = .ok ((stepTo s t s' t').map fin))
    (hne : costAt s' t' ≠ costAt s t)
    (hd : (costTest Criteria.defaults (stateAt n k s t false) (costAt s' t') ||
      parameterTest Criteria.defaults (stateAt n k s t false) (stepTo s t s' t')) = d) :
    sE.step CE gE (DoglegState.map fin ⟨stateAt n k s t false, ρ⟩) =
      .ok (DoglegState.map fin ⟨stateAt n (k + 1) s' t' d, max ρ (3 * nrm (stepTo s t s' t'))⟩,
        [.iteration k (some 100) (fin (costAt s t)) (some (fin ρ))]) := by
  have hlin : (Dogleg.defaults fun A b l i => (cholmodSolve stale (cache i) addr A b l).1).linear (Jst s t) (descentAt s t) 0 k = .ok (gnAt s t) :=
    cholmod_pt stale (cache k) addr (hcache k) s t
  obtain ⟨As, hA1, hA2, hA3⟩ := predicted_pt s t s' t'
  have hA3' : predicted As (stateAt n k s t false).residual = costAt s' t' := hA3
  have hq : fin (costAt s' t' - costAt s t) / fin (costAt s' t' - costAt s t) = fin 1 := by
    rw [fin_div (sub_ne_zero.2 hne), div_self (sub_ne_zero.2 hne)]
  refine (doglegSolverStep_fin h hs ?_).2 ⟨Jst s t, descentAt s t, gnAt s t, stepTo s t s' t', pt n s' t', costAt s' t', rs s' t', As,
    fin 1, d, jac_pt n s t, descent_pt s t, hlin, hstep, retract_pt n s t _ _, cost_pt _ _ _, hA1, hA2, ?_, ?_, ?_, rfl⟩
  · intro A ATb gn dE h1 h2 h3 h4
    have h1' : Jst s t = A := Except.ok.inj ((jac_pt n s t).symm.trans h1)
    subst h1'
    have h2' : descentAt s t = ATb := Except.ok.inj ((descent_pt s t).symm.trans h2)
    subst h2'
    have h3' : gnAt s t = gn := Except.ok.inj (hlin.symm.trans h3)
    subst h3'
    exact ⟨_, Except.ok.inj (h4.symm.trans hstep)⟩
  · rw [hA3']
    exact hq.symm
  · rw [← hd]
    exact conv_pt n k hk s t _ _
  · have : ¬ 99 ≤ k := by omega
    have e : (Dogleg.defaults fun A b l i => (cholmodSolve stale (cache i) addr A b l).1).maxIterations = 100 := rfl
    have e2 : Scal.le (fin (Dogleg.defaults fun A b l i => (cholmodSolve stale (cache i) addr A b l).1).stepQualityMin) (fin 1) = true := by
      rw [fin_le]
      show (1 / 1000 : ℝ) ≤ 1
      norm_num
    have e3 : nextRadius (fin 1) ρ (stepTo s t s' t') = max ρ (3 * nrm (stepTo s t s' t')) := by
      unfold nextRadius
      rw [if_neg (by rw [fin_lt]; norm_num), if_pos (by rw [fin_lt]; norm_num)]
    refine congrArg (DoglegState.map fin) ?_
    rw [e2]
    simp only [doglegNextReal, e, e3, stateAt, costAt]
    simp [this]

/-- Inside the trust region the step is that of Gauss-Newton. -/
theorem dogleg_inside (s t ρ : ℝ) (hρ : 0 < ρ) (h : (s ^ 2 + t ^ 2) / 2 ≤ ρ ^ 2) :
    doglegStep ((Jst s t).map fin) ((descentAt s t).map fin) ((gnAt s t).map fin) (fin ρ) = .ok ((stepTo s t (s / 100001) (t / 300001)).map fin) := by
  refine (doglegStep_fin (r := rs s t) (J_wf _ _) (descent_pt s t) rfl hρ).1 ?_
  rw [nrm, Real.sqrt_le_left hρ.le, gnAt, sqNorm_stepTo]
  nlinarith [sq_nonneg s, sq_nonneg t]

/-- The first step: steepest descent up to the radius. -/
theorem dogleg_first {u : ℝ} (hu : u = 1 / √10) :
    doglegStep ((Jst (-2) (4 / 3)).map fin) ((descentAt (-2) (4 / 3)).map fin) ((gnAt (-2) (4 / 3)).map fin) (fin 1) =
      .ok ((stepTo (-2) (4 / 3) (-2 + 2 * u) (4 / 3 - 4 * u)).map fin) := by
  have hb : descentAt (-2) (4 / 3) = [-1, 0, 0, 3, 0, 0] := by
    simp only [descentAt]
    norm_num
  have h10 : (0 : ℝ) < √10 := Real.sqrt_pos.2 (by norm_num)
  have h1 : (3 : ℝ) ≤ √10 := Real.le_sqrt_of_sq_le (by norm_num)
  have hAb : (Jst (-2) (4 / 3)).matmul (descentAt (-2) (4 / 3)) = .ok [1, 0, 0, -3, 0, 0, -4, 0, 0] := by
    rw [hb, Jst, matmul_axis]
    norm_num
  have hout : (1 : ℝ) < nrm (gnAt (-2) (4 / 3)) := by
    rw [nrm, gnAt, sqNorm_stepTo, Real.lt_sqrt (by norm_num)]
    norm_num
  have key := doglegStep_formula (r := rs (-2) (4 / 3)) (J_wf _ _) (descent_pt (-2) (4 / 3)) hAb rfl one_pos hout (by
    rw [hb]
    intro h0
    have := h0 (-1) (by simp)
    norm_num at this)
  simp only at key
  have hn : sqNorm (descentAt (-2) (4 / 3)) / sqNorm [1, 0, 0, -3, 0, 0, -4, 0, 0] = 5 / 13 := by
    rw [hb]
    norm_num [sqNorm]
  have hna : nrm ((descentAt (-2) (4 / 3)).map fun x => 5 / 13 * x) = 5 / 13 * √10 := by
    rw [hb, nrm]
    have : sqNorm ([-1, 0, 0, 3, 0, 0].map fun x : ℝ => 5 / 13 * x) = (5 / 13) ^ 2 * 10 := by norm_num [sqNorm]
    rw [this, Real.sqrt_mul (by norm_num), Real.sqrt_sq (by norm_num)]
  rw [hn, hna, if_pos (by linarith)] at key
  refine Eq.trans key ?_
  rw [hb]
  refine congrArg Except.ok (congrArg (List.map fin) ?_)
  simp only [List.map_cons, List.map_nil, stepTo, hu]
  have e : ∀ x : ℝ, 1 / (5 / 13 * √10) * (5 / 13 * x) = x * (1 / √10) := by
    intro x
    field_simp
  simp only [e]
  norm_num
  constructor <;> ring

end Jaxfg.Simple
