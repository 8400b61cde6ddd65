/- A graph with one scalar variable `x` and one factor with the residual `p + q x + s x²` and unit noise: examples for the solver
theorems, and counterexamples to properties that the code violates. -/
import Verif.Lemmas.ExampleGraph
import Verif.Lemmas.SolverRuns
import Verif.Props.LinSolve
import Verif.Model.Defaults

namespace Jaxfg

open Ext (fin)

/-- The solvers on `Ext`. -/
noncomputable def GaussNewton.lift (s : GaussNewton ℝ) : GaussNewton Ext :=
  { s.toCriteria.map fin with verbose := s.verbose, linear := LinSolver.lift s.linear }
noncomputable def LevenbergMarquardt.lift (s : LevenbergMarquardt ℝ) : LevenbergMarquardt Ext :=
  { s.toCriteria.map fin with verbose := s.verbose, linear := LinSolver.lift s.linear, stepQualityMin := fin s.stepQualityMin
                              lambdaInitial := fin s.lambdaInitial, lambdaFactor := fin s.lambdaFactor
                              lambdaMin := fin s.lambdaMin, lambdaMax := fin s.lambdaMax }
noncomputable def Dogleg.lift (s : Dogleg ℝ) : Dogleg Ext :=
  { s.toCriteria.map fin with verbose := s.verbose, linear := LinSolver.lift s.linear, stepQualityMin := fin s.stepQualityMin
                              radiusInitial := fin s.radiusInitial }

theorem liftsGN_lift (s : GaussNewton ℝ) : LiftsGN s.lift s := ⟨rfl, rfl, liftsSolver_lift _⟩
theorem liftsLM_lift (s : LevenbergMarquardt ℝ) : LiftsLM s.lift s := ⟨rfl, rfl, liftsSolver_lift _, rfl, rfl, rfl, rfl, rfl⟩
theorem liftsDogleg_lift (s : Dogleg ℝ) : LiftsDogleg s.lift s := ⟨rfl, rfl, liftsSolver_lift _, rfl, rfl⟩

namespace Poly
open Spec
open Ex (C x)

/-- Residual `p + q x + s x²`, Jacobian `q + 2 s x`. -/
noncomputable def F : Nat → FactorClass := fun _ =>
  { hint := some (.tuple [fun t => t == 0])
    residual := fun self vs =>
      let v := (vs.getD 0 ⟨0, []⟩).flatten.getD 0 0
      let c := (self.params.getD 0 ⟨[], []⟩).data
      [c.getD 0 0 + c.getD 1 0 * v + c.getD 2 0 * v ^ 2]
    jacobians := fun self vs =>
      let v := (vs.getD 0 ⟨0, []⟩).flatten.getD 0 0
      let c := (self.params.getD 0 ⟨[], []⟩).data
      [⟨[1, 1], [c.getD 1 0 + 2 * c.getD 2 0 * v]⟩] }

noncomputable def f (p q s : ℝ) : Factor := ⟨0, [x], .diagonal ⟨[1], [1]⟩, [⟨[3], [p, q, s]⟩]⟩

theorem f_wf (p q s : ℝ) : FactorWF F C (f p q s) := by
  have hN : NoiseWF (f p q s).noise 1 1 := ⟨⟨rfl, rfl⟩, rfl⟩
  have hd : rdim (f p q s) = 1 := noiseDim_eq hN
  refine ⟨by rw [hd]; omega, by simp [f], by rw [hd]; exact hN, ?_, ?_, ?_, ?_⟩
  · intro a ha
    simp only [f, List.mem_cons, List.not_mem_nil, or_false] at ha
    subst ha; rfl
  · exact .cons rfl .nil
  · intro vals hv
    rw [hd]; rfl
  · intro vals hv
    rw [hd]
    refine .cons ?_ .nil
    exact ⟨rfl, rfl⟩

/-- The layouts. -/
noncomputable def lay : Layout := Layout.make C [x] false
noncomputable def llay : Layout := Layout.make C [x] true

/-- The graph that `StackedFactorGraph.make` builds. -/
noncomputable def g (p q s : ℝ) : Graph where
  factorStacks := [⟨1, 0, [0], .diagonal, [⟨[1, 1], [1]⟩, ⟨[1, 3], [p, q, s]⟩], [[[0]]], lay⟩]
  jacobianCoords := [(0, 0)]
  layout := lay
  localLayout := llay
  residualDim := 1

theorem make_eq (p q s : ℝ) : Graph.make C [f p q s] = .ok (g p q s) := rfl

theorem sane (p q s : ℝ) : SaneGraph C ((g p q s).ops F C) [x] := by
  obtain ⟨g', h1, h2⟩ := sane_graph Ex.good (fs := [f p q s]) (by simpa using f_wf p q s) (by simp)
  rw [make_eq] at h1
  cases Except.ok.inj h1
  exact h2

/-- The assignments `x = v`. -/
noncomputable def at_ (v : ℝ) : Assign ℝ := ⟨[v], lay⟩

theorem at_assignment (v : ℝ) : IsAssignmentOf C [x] (at_ v) := ⟨by simp, rfl, rfl⟩

theorem cost_eq (p q s v : ℝ) :
    ((g p q s).ops F C).computeCost (at_ v) = .ok ((p + q * v + s * v ^ 2) ^ 2, [p + q * v + s * v ^ 2]) := by
  have : ((g p q s).ops F C).computeCost (at_ v) =
    .ok ((1 * (p + q * v + s * v ^ 2)) ^ 2 + 0, [1 * (p + q * v + s * v ^ 2)]) := rfl
  rw [this]; simp

theorem jac_eq (p q s v r : ℝ) : ((g p q s).ops F C).jacobian (at_ v) [r] = .ok ⟨[q + 2 * s * v], [0], [0], (1, 1)⟩ := by
  have : ((g p q s).ops F C).jacobian (at_ v) [r] = .ok ⟨[1 * (q + 2 * s * v)], [0], [0], (1, 1)⟩ := rfl
  rw [this]; simp

theorem retract_eq (v d : ℝ) : (at_ v).manifoldRetract C ⟨[d], llay⟩ = .ok (at_ (v + d)) := rfl

theorem matmul_eq (j y : ℝ) : Coo.matmul ⟨[j], [0], [0], (1, 1)⟩ [y] = .ok [j * y] := by
  have : Coo.matmul ⟨[j], [0], [0], (1, 1)⟩ [y] = .ok [0 + j * y] := rfl
  rw [this, zero_add]

theorem matmul_T_eq (j y : ℝ) : (Coo.T ⟨[j], [0], [0], (1, 1)⟩).matmul [y] = .ok [j * y] := matmul_eq j y

/-- Zero retraction does nothing. -/
theorem zeroRetract : ZeroRetract C := by
  intro t v d hv hd hl
  have h1 := isValueOf_length (Ex.wellShaped t) hv
  show unravel _ (List.zipWith (· + ·) v.flatten d) = v
  have e : List.zipWith (· + ·) v.flatten d = v.flatten := by
    have hld : d.length = v.flatten.length := by rw [hl, h1, Ex.localDim, Ex.paramDim]
    apply List.ext_getElem
    · simp [hld]
    · intro i hi1 hi2
      have : d[i]'(by omega) = 0 := hd _ (List.getElem_mem _)
      simp [this]
  rw [e]
  exact unravel_flatten hv

/-- `CholmodSolver` -/
noncomputable def chol (stale : Pattern → ScipyCoo ℝ → ℝ → List ℝ → Py (List ℝ)) (addr : Nat) : LinSolver ℝ :=
  fun A b l _ => (cholmodSolve stale .empty addr A b l).1

theorem coo_wf (j : ℝ) : CooWF (⟨[j], [0], [0], (1, 1)⟩ : Coo ℝ) := ⟨rfl, rfl, by simp, by simp⟩

theorem chol_eq (stale : Pattern → ScipyCoo ℝ → ℝ → List ℝ → Py (List ℝ)) (addr : Nat) (j b l : ℝ) (hl : 0 ≤ l) (i : Nat) :
    chol stale addr ⟨[j], [0], [0], (1, 1)⟩ [b] l i = .ok [b / (j ^ 2 + l + 1 / 100000)] := by
  obtain ⟨-, y, h1, h2, h3, -⟩ := Props.C35_cholmod stale .empty addr ⟨[j], [0], [0], (1, 1)⟩ (coo_wf j) [b] rfl l hl
    (fun p hp => by cases hp)
  show (cholmodSolve stale .empty addr _ [b] l).1 = _
  rw [h1]
  match y, h2 with
  | [z], _ =>
    have hD : 0 < j ^ 2 + l + 1 / 100000 := by positivity
    have hm : cooMatrix (⟨[j], [0], [0], (1, 1)⟩ : Coo ℝ) 1 1 0 0 = j := by
      simp [cooMatrix, entries]
    have h4 : ((cooMatrix (⟨[j], [0], [0], (1, 1)⟩ : Coo ℝ) 1 1).transpose * cooMatrix (⟨[j], [0], [0], (1, 1)⟩ : Coo ℝ) 1 1 +
      (l + 1 / 100000) • (1 : Matrix (Fin 1) (Fin 1) ℝ)).mulVec (vec [z] 1) = vec [b] 1 := h3
    have h5 := congrFun h4 0
    simp only [Matrix.mulVec, dotProduct, Matrix.add_apply, Matrix.mul_apply, Matrix.transpose_apply, Matrix.smul_apply,
      Matrix.one_apply_eq, Fin.sum_univ_one, hm] at h5
    have h6 : (j * j + (l + 1 / 100000) • 1) * z = b := h5
    rw [smul_eq_mul] at h6
    congr 2
    rw [eq_div_iff hD.ne', ← h6]
    ring

/-- The convergence test does not raise. -/
theorem converged_ok (t : Criteria ℝ) (k : Nat) (v c : ℝ) (r : List ℝ) (dn : Bool) (c' : ℝ) (d : List ℝ) (ng : ℝ) :
    ∃ conv, convergedTest C t ⟨k, at_ v, c, r, dn⟩ c' d llay [ng] = .ok conv := ⟨_, rfl⟩

end Poly

end Jaxfg
