/- Least-squares vocabulary for statements about solver steps. -/
import Verif.Spec.Sparse
import Verif.Spec.Noise
import Verif.Spec.Assign
import Verif.Spec.Graph
import Verif.Model.Solver
import Mathlib.LinearAlgebra.Matrix.PosDef
import Mathlib.Analysis.Real.Sqrt

namespace Jaxfg.Spec
open Matrix
variable {m n : Nat}

/-- Cost of the linearized problem: `|M x + r|²`. -/
def modelCost (M : Matrix (Fin m) (Fin n) ℝ) (r : Fin m → ℝ) (x : Fin n → ℝ) : ℝ := (M *ᵥ x + r) ⬝ᵥ (M *ᵥ x + r)

/-- The direction of steepest descent of the cost at `0` (half the negative gradient). -/
def descent (M : Matrix (Fin m) (Fin n) ℝ) (r : Fin m → ℝ) : Fin n → ℝ := Mᵀ *ᵥ (-r)

/-- `a` is the Cauchy point: the point on the line of steepest descent where the linearized cost is least. -/
def IsCauchyPoint (M : Matrix (Fin m) (Fin n) ℝ) (r : Fin m → ℝ) (a : Fin n → ℝ) : Prop :=
  (∃ t : ℝ, a = t • descent M r) ∧ ∀ t : ℝ, modelCost M r a ≤ modelCost M r (t • descent M r)

/-- `d` is on the path from `0` to `a` to `b`. -/
def OnDogleg (a b d : Fin n → ℝ) : Prop := ∃ t : ℝ, 0 ≤ t ∧ t ≤ 1 ∧ (d = t • a ∨ d = a + t • (b - a))

/-- `x` solves the normal equations of `min |M x + r|²` with some non-negative damping that makes them regular:
`(MᵀM + D) x = -Mᵀ r`. Plain Gauss-Newton steps of full-rank problems (`D = 0`), Levenberg-Marquardt steps (`D = λ I` or
`λ diag(MᵀM)`) and the steps of CHOLMOD with its built-in `beta` are of this form. -/
def SolvesDamped (M : Matrix (Fin m) (Fin n) ℝ) (r : Fin m → ℝ) (x : Fin n → ℝ) : Prop :=
  ∃ D : Matrix (Fin n) (Fin n) ℝ, D.PosSemidef ∧ (Mᵀ * M + D).PosDef ∧ (Mᵀ * M + D) *ᵥ x = descent M r

/-- What the theorems need of a graph: its layouts are built from the distinct variables `ws`, the cost is the squared norm of the
residual, and Jacobians are matrices with one column per local coordinate. (`sane_graph`: graphs made of well-formed factors are
of this form.) -/
structure SaneGraph (C : Ty → VarClass ℝ) (g : GraphOps ℝ) (ws : List Var) : Prop where
  classes : GoodClasses C
  nodup : ws.Nodup
  layout : g.layout = Layout.make C ws false
  localLayout : g.localLayout = Layout.make C ws true
  cost : ∀ a c r, g.computeCost a = .ok (c, r) → c = sqNorm r
  jacobian : ∀ a a' c r A, IsAssignmentOf C ws a → a.layout = g.layout → IsAssignmentOf C ws a' → a'.layout = g.layout →
    g.computeCost a' = .ok (c, r) → g.jacobian a r = .ok A → CooWF A ∧ A.shape.2 = g.localLayout.dim

/-- `P` holds for every Jacobian that an execution can ask for: taken at assignments in the order of the graph, with the residual
of (possibly other) assignments in that order. -/
def AllJacobians (C : Ty → VarClass ℝ) (g : GraphOps ℝ) (ws : List Var) (P : Coo ℝ → Prop) : Prop :=
  ∀ a a' c r A, IsAssignmentOf C ws a → a.layout = g.layout → IsAssignmentOf C ws a' → a'.layout = g.layout →
    g.computeCost a' = .ok (c, r) → g.jacobian a r = .ok A → P A

/-- Retraction by zero changes nothing. -/
def ZeroRetract (C : Ty → VarClass ℝ) : Prop :=
  ∀ t x d, IsValueOf (C t) x → (∀ y ∈ d, y = 0) → d.length = (C t).localDim → (C t).retract x d = x

/-- The linear solver solves the normal equations of `A`, with some non-negative damping that makes them regular. -/
def SolvesRegular (L : LinSolver ℝ) (A : Coo ℝ) : Prop :=
  ∀ b l i x, b.length = A.shape.2 → 0 ≤ l → L A b l i = .ok x → x.length = A.shape.2 ∧
    ∃ D : Matrix (Fin A.shape.2) (Fin A.shape.2) ℝ, D.PosSemidef ∧
      ((cooMatrix A A.shape.1 A.shape.2)ᵀ * cooMatrix A A.shape.1 A.shape.2 + D).PosDef ∧
      ((cooMatrix A A.shape.1 A.shape.2)ᵀ * cooMatrix A A.shape.1 A.shape.2 + D) *ᵥ Spec.vec x A.shape.2 = Spec.vec b A.shape.2

/-- The linear solver answers a zero right-hand side with zero. -/
def ZeroAtZero (L : LinSolver ℝ) : Prop := ∀ A b l i x, (∀ y ∈ b, y = 0) → L A b l i = .ok x → ∀ y ∈ x, y = 0

/-- The three tests that let a solver stop before `max_iterations`, for a step from `p` with update `delta` to cost `c`; `ng` is the
direction `-Aᵀr`. The gradient test as the code has it: every entry of the storage decreases by less than the tolerance, or grows
by any amount. -/
def StopReason (C : Ty → VarClass ℝ) (t : Criteria ℝ) (p : State ℝ) (c : ℝ) (delta ng : List ℝ) (ll : Layout) : Prop :=
  (p.cost ≠ 0 ∧ |c - p.cost| / p.cost < t.costTolerance) ∨
  (t.gradientToleranceStartStep ≤ p.iterations ∧ ∃ moved, p.assignments.manifoldRetract C ⟨ng, ll⟩ = .ok moved ∧
    ∀ y ∈ List.zipWith (· - ·) p.assignments.storage moved.storage, y < t.gradientTolerance) ∨
  √(sqNorm delta) < (√(sqNorm p.assignments.storage) + t.parameterTolerance) * t.parameterTolerance

/-- `b` is a stationary point, with cost `c`, residual `r` and Jacobian `A`: the gradient `Aᵀ r` of half the cost is zero. -/
structure AtRest (g : GraphOps ℝ) (b : Assign ℝ) (c : ℝ) (r : List ℝ) (A : Coo ℝ) : Prop where
  cost : g.computeCost b = .ok (c, r)
  jac : g.jacobian b r = .ok A
  gradient : ∃ z, A.T.matmul r = .ok z ∧ ∀ y ∈ z, y = 0

/-- The linear solver, when called without damping, returns a solution of the normal equations of `A`. -/
def SolvesNormal (L : LinSolver ℝ) (A : Coo ℝ) : Prop :=
  ∀ b i x, b.length = A.shape.2 → L A b 0 i = .ok x → x.length = A.shape.2 ∧
    ((cooMatrix A A.shape.1 A.shape.2)ᵀ * cooMatrix A A.shape.1 A.shape.2) *ᵥ Spec.vec x A.shape.2 = Spec.vec b A.shape.2

/-- The residual of the graph is affine along retractions, with the Jacobian of the graph as its linear part. -/
def AffineGraph (C : Ty → VarClass ℝ) (g : GraphOps ℝ) (ws : List Var) : Prop :=
  ∀ a c r A d b c' r', IsAssignmentOf C ws a → a.layout = g.layout → g.computeCost a = .ok (c, r) → g.jacobian a r = .ok A →
    d.length = g.localLayout.dim → a.manifoldRetract C ⟨d, g.localLayout⟩ = .ok b → g.computeCost b = .ok (c', r') →
    ∃ y, A.matmul d = .ok y ∧ r'.length = r.length ∧ ∀ i, r'.getD i 0 = y.getD i 0 + r.getD i 0

/-- The residual of the factor is affine in the deltas of its variables, with its Jacobians as the linear part. -/
def AffineFactor (F : Nat → FactorClass) (C : Ty → VarClass ℝ) (f : Factor) : Prop :=
  ∀ vals δs, ValuesFor C f.vars vals → List.Forall₂ (fun v d => d.length = (C v.ty).localDim) f.vars δs →
    Spec.vec ((F f.cls).residual f.self (List.zipWith (fun (p : Var × Value ℝ) d => (C p.1.ty).retract p.2 d) (f.vars.zip vals) δs))
        (rdim f) = Spec.vec ((F f.cls).residual f.self vals) (rdim f) +
      ((f.vars.zip (((F f.cls).jacobians f.self vals).zip δs)).map fun p =>
        arrMat p.2.1 (rdim f) (C p.1.ty).localDim *ᵥ Spec.vec p.2.2 (C p.1.ty).localDim).sum

end Jaxfg.Spec
