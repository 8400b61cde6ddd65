/-
The nonlinear solvers in exact arithmetic. A factor graph over the real numbers (Verif.Model.Graph) is run through the
solvers of Verif.Model.Solver over `Ext`: where all arguments are finite, every operation of the graph, of the variable
classes and of the linear solver is the real one. What they do with infinities and NaN is left open.
-/
import Verif.Model.Solver
import Verif.Model.Graph

namespace Jaxfg
open Ext (fin)

/-- The operations that the solvers use of a `StackedFactorGraph`. -/
noncomputable def Graph.ops (F : Nat → FactorClass) (C : Ty → VarClass ℝ) (g : Graph) : GraphOps ℝ where
  layout := g.layout
  localLayout := g.localLayout
  computeCost := g.computeCost F C
  jacobian := g.computeWhitenedResidualJacobian F C

/-- The finite part of an extended number. -/
noncomputable def Ext.toReal : Ext → ℝ
  | fin x => x
  | _ => 0

/-- Element-wise maps. -/
def Arr.map {α β : Type} (f : α → β) (a : Arr α) : Arr β := ⟨a.shape, a.data.map f⟩
def Value.map {α β : Type} (f : α → β) (v : Value α) : Value β := ⟨v.treedef, v.leaves.map (Arr.map f)⟩
def Assign.map {α β : Type} (f : α → β) (a : Assign α) : Assign β := ⟨a.storage.map f, a.layout⟩
def Coo.map {α β : Type} (f : α → β) (A : Coo α) : Coo β := ⟨A.values.map f, A.rows, A.cols, A.shape⟩
def State.map {α β : Type} (f : α → β) (s : State α) : State β :=
  { iterations := s.iterations, assignments := s.assignments.map f, cost := f s.cost, residual := s.residual.map f, done := s.done }
def LMState.map {α β : Type} (f : α → β) (s : LMState α) : LMState β := { s.toState.map f with lambd := f s.lambd }
def DoglegState.map {α β : Type} (f : α → β) (s : DoglegState α) : DoglegState β := { s.toState.map f with radius := f s.radius }
def Criteria.map {α β : Type} (f : α → β) (t : Criteria α) : Criteria β :=
  { maxIterations := t.maxIterations, costTolerance := f t.costTolerance, gradientTolerance := f t.gradientTolerance,
    gradientToleranceStartStep := t.gradientToleranceStartStep, parameterTolerance := f t.parameterTolerance }

/-- `CE` and `gE` are the variable classes `C` and the graph `g` on finite arguments. -/
structure Lifts (CE : Ty → VarClass Ext) (gE : GraphOps Ext) (C : Ty → VarClass ℝ) (g : GraphOps ℝ) : Prop where
  default : ∀ t, (CE t).default = (C t).default.map fin
  localDim : ∀ t, (CE t).localDim = (C t).localDim
  retract : ∀ t x d, (CE t).retract (x.map fin) (d.map fin) = ((C t).retract x d).map fin
  layout : gE.layout = g.layout
  localLayout : gE.localLayout = g.localLayout
  cost : ∀ a, gE.computeCost (a.map fin) = (g.computeCost a).map fun p => (fin p.1, p.2.map fin)
  jacobian : ∀ a r, gE.jacobian (a.map fin) (r.map fin) = (g.jacobian a r).map (Coo.map fin)

/-- `LE` is the linear solver `L` on finite arguments. -/
def LiftsSolver (LE : LinSolver Ext) (L : LinSolver ℝ) : Prop :=
  ∀ A b l i, LE (A.map fin) (b.map fin) (fin l) i = (L A b l i).map (List.map fin)

/-- An extension of variable classes to all arguments. -/
noncomputable def VarClass.lift (c : VarClass ℝ) : VarClass Ext where
  default := c.default.map fin
  localDim := c.localDim
  retract x d := (c.retract (x.map Ext.toReal) (d.map Ext.toReal)).map fin

/-- An extension of a graph to all arguments. -/
noncomputable def GraphOps.lift (g : GraphOps ℝ) : GraphOps Ext where
  layout := g.layout
  localLayout := g.localLayout
  computeCost a := (g.computeCost (a.map Ext.toReal)).map fun p => (fin p.1, p.2.map fin)
  jacobian a r := (g.jacobian (a.map Ext.toReal) (r.map Ext.toReal)).map (Coo.map fin)

/-- An extension of a linear solver to all arguments. -/
noncomputable def LinSolver.lift (L : LinSolver ℝ) : LinSolver Ext := fun A b l i =>
  (L (A.map Ext.toReal) (b.map Ext.toReal) l.toReal i).map (List.map fin)

/-- `GaussNewtonSolver(...)` with settings that are real numbers. -/
structure LiftsGN (sE : GaussNewton Ext) (s : GaussNewton ℝ) : Prop where
  criteria : sE.toCriteria = s.toCriteria.map fin
  verbose : sE.verbose = s.verbose
  linear : LiftsSolver sE.linear s.linear

/-- `LevenbergMarquardtSolver(...)` with settings that are real numbers. -/
structure LiftsLM (sE : LevenbergMarquardt Ext) (s : LevenbergMarquardt ℝ) : Prop where
  criteria : sE.toCriteria = s.toCriteria.map fin
  verbose : sE.verbose = s.verbose
  linear : LiftsSolver sE.linear s.linear
  stepQualityMin : sE.stepQualityMin = fin s.stepQualityMin
  lambdaInitial : sE.lambdaInitial = fin s.lambdaInitial
  lambdaFactor : sE.lambdaFactor = fin s.lambdaFactor
  lambdaMin : sE.lambdaMin = fin s.lambdaMin
  lambdaMax : sE.lambdaMax = fin s.lambdaMax

/-- `DoglegSolver(...)` with settings that are real numbers. -/
structure LiftsDogleg (sE : Dogleg Ext) (s : Dogleg ℝ) : Prop where
  criteria : sE.toCriteria = s.toCriteria.map fin
  verbose : sE.verbose = s.verbose
  linear : LiftsSolver sE.linear s.linear
  stepQualityMin : sE.stepQualityMin = fin s.stepQualityMin
  radiusInitial : sE.radiusInitial = fin s.radiusInitial

end Jaxfg
