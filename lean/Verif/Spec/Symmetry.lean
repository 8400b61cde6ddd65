/- Changes of a problem that should not matter. -/
import Verif.Model.Lift
import Verif.Spec.Graph
import Verif.Spec.Lie
import Verif.Spec.SolverReal

namespace Jaxfg.Spec
open Ext (fin)

/-- Replacing every factor `f` by `φ f` and every value `x` of a variable `v` by `τ v x` changes neither residuals nor Jacobians, and
commutes with retractions. `V` says which values of a variable are meant (unit quaternions, for example). `N f val` says where the
residual of `f` may change after all. -/
structure IsSymmetryAway (F : Nat → FactorClass) (C : Ty → VarClass ℝ) (fs : List Factor) (φ : Factor → Factor)
    (τ : Var → Value ℝ → Value ℝ) (V : Var → Value ℝ → Prop) (N : Factor → (Var → Value ℝ) → Prop) : Prop where
  cls : ∀ f ∈ fs, (φ f).cls = f.cls
  vars : ∀ f ∈ fs, (φ f).vars = f.vars
  noise : ∀ f ∈ fs, (φ f).noise = f.noise
  shapes : ∀ f ∈ fs, (φ f).params.map (·.shape) = f.params.map (·.shape)
  value : ∀ v x, IsValueOf (C v.ty) x → V v x → IsValueOf (C v.ty) (τ v x)
  residual : ∀ f ∈ fs, ∀ val : Var → Value ℝ, (∀ v ∈ f.vars, IsValueOf (C v.ty) (val v) ∧ V v (val v)) → ¬ N f val →
    (F f.cls).residual (φ f).self (f.vars.map fun v => τ v (val v)) = (F f.cls).residual f.self (f.vars.map val)
  jacobians : ∀ f ∈ fs, ∀ val : Var → Value ℝ, (∀ v ∈ f.vars, IsValueOf (C v.ty) (val v) ∧ V v (val v)) →
    (F f.cls).jacobians (φ f).self (f.vars.map fun v => τ v (val v)) = (F f.cls).jacobians f.self (f.vars.map val)
  retract : ∀ v x d, IsValueOf (C v.ty) x → V v x → d.length = (C v.ty).localDim →
    V v ((C v.ty).retract x d) ∧ τ v ((C v.ty).retract x d) = (C v.ty).retract (τ v x) d

/-- The same without exceptions. -/
def IsSymmetry (F : Nat → FactorClass) (C : Ty → VarClass ℝ) (fs : List Factor) (φ : Factor → Factor)
    (τ : Var → Value ℝ → Value ℝ) (V : Var → Value ℝ → Prop) : Prop :=
  IsSymmetryAway F C fs φ τ V fun _ _ => False

/-- A graph under observation: computing the cost of assignments that are not `ok` raises an exception. -/
noncomputable def watched {S : Type} (ok : Assign S → Prop) (g : GraphOps S) : GraphOps S :=
  open Classical in { g with computeCost := fun a => if ok a then g.computeCost a else .error .assertion }

/-- The same question about assignments of finite numbers. -/
def okFin (ok : Assign ℝ → Prop) (a : Assign Ext) : Prop := ∃ b : Assign ℝ, a = b.map fin ∧ ok b

/-- `a` holds the values `val` and `a'` the values `τ v (val v)`, each over the variables of the factors in an order of its own. -/
structure Corresponding (C : Ty → VarClass ℝ) (fs : List Factor) (τ : Var → Value ℝ → Value ℝ) (V : Var → Value ℝ → Prop)
    (vars vars' : List Var) (val : Var → Value ℝ) (a a' : Assign ℝ) : Prop where
  left : Holds C fs vars val a
  right : Holds C fs vars' (fun v => τ v (val v)) a'
  valid : ∀ v ∈ vars, V v (val v)

/-- Solutions of a linear solver have one entry for every column. -/
def SizedSolutions (L : LinSolver ℝ) : Prop :=
  ∀ A b l i x, CooWF A → b.length = A.shape.2 → L A b l i = .ok x → x.length = A.shape.2

/-- The settings switch off the two tests that depend on the coordinates of the stored values: the parameter test
(jaxfg/solvers/_mixins.py:91-99) and the gradient test (jaxfg/solvers/_mixins.py:75-89). -/
def CoordinateFree (t : Criteria ℝ) : Prop :=
  t.parameterTolerance = 0 ∧ 1 ≤ t.gradientToleranceStartStep ∧ t.maxIterations ≤ t.gradientToleranceStartStep

/-- Whenever `solve` returns from `a`, it returns finite numbers, `solve'` returns from `a'` after the same number of steps, with
the same printed lines, and the results are related by `O`. -/
def SolvesAlike (solve solve' : Nat → Assign Ext → Py (Option (Assign Ext × List (Msg Ext)))) (a a' : Assign ℝ)
    (O : Assign ℝ → Assign ℝ → Prop) : Prop :=
  ∀ fuel out log, solve fuel (a.map fin) = .ok (some (out, log)) →
    ∃ o o', out = o.map fin ∧ solve' fuel (a'.map fin) = .ok (some (o'.map fin, log)) ∧ O o o'

/-- `f'` is the pose factor `f` in other coordinates of the world: the frames of reference of the group `k` are moved by `m k`. A
prior on a pose changes its mean. A measurement between two poses does not depend on the world. -/
inductive MovedFactor (F : Nat → FactorClass) (K : Ty → LieType) (m : LieType → List ℝ) : Factor → Factor → Prop
  | prior (cls : Nat) (v : Var) (mu : List ℝ) (noise : Noise) (hF : F cls = priorFactorClass (K v.ty).ops)
      (hmu : (K v.ty).Valid mu) :
      MovedFactor F K m (PriorFactor.make cls v ((K v.ty).ops.value mu) noise)
        (PriorFactor.make cls v ((K v.ty).ops.value ((K v.ty).ops.multiply (m (K v.ty)) mu)) noise)
  | between (cls : Nat) (a b : Var) (M : List ℝ) (noise : Noise) (f : Factor) (hF : F cls = betweenFactorClass (K a.ty).ops)
      (hM : (K a.ty).Valid M)
      (hf : BetweenFactor.make cls (fun t => (K t).ops.treedef) a b ((K a.ty).ops.value M) noise = .ok f) :
      MovedFactor F K m f f

/-- `o` holds a pose for every variable and `o'` the same pose, moved. -/
def MovedPoses (C : Ty → VarClass ℝ) (K : Ty → LieType) (m : LieType → List ℝ) (vars : List Var) (o o' : Assign ℝ) : Prop :=
  ∀ v ∈ vars, ∃ x, (K v.ty).Valid x ∧ o.getValue C v = .ok ((K v.ty).ops.value x) ∧
    o'.getValue C v = .ok ((K v.ty).ops.value ((K v.ty).ops.multiply (m (K v.ty)) x))

end Jaxfg.Spec
