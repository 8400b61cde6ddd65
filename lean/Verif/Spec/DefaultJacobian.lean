/- Exact derivatives of residuals and retractions, as functions between vector spaces. -/
import Verif.Spec.Linearize
import Mathlib.Analysis.Calculus.FDeriv.Basic
import Mathlib.Topology.Algebra.Module.FiniteDimension
import Mathlib.LinearAlgebra.Matrix.ToLin

namespace Jaxfg.Spec
open Matrix

/-- Number of parameters of the listed variables together. -/
def paramTotal (C : Ty → VarClass ℝ) (vars : List Var) : Nat := (vars.map fun v => (C v.ty).paramDim).sum

/-- The values of the listed variables that a vector of all their parameters describes. -/
def unpackValues (C : Ty → VarClass ℝ) : List Var → List ℝ → List (Value ℝ)
  | [], _ => []
  | v :: vs, x => unravel (C v.ty).default (x.take (C v.ty).paramDim) :: unpackValues C vs (x.drop (C v.ty).paramDim)

/-- Multiplication by a matrix as a continuous linear map. -/
noncomputable def mulVecL {m n : Nat} (M : Matrix (Fin m) (Fin n) ℝ) : (Fin n → ℝ) →L[ℝ] (Fin m → ℝ) :=
  LinearMap.toContinuousLinearMap (Matrix.mulVecLin M)

/-- The matrix whose row `r` is the concatenation, over variables and leaves in order, of the elements `leaf[r, ...]` of leaf
arrays of shape `(m, *shape)`. -/
noncomputable def gradientMatrix (m n : Nat) (resJac : List (List (Arr ℝ))) : Matrix (Fin m) (Fin n) ℝ := fun r k =>
  (resJac.flatMap fun leaves => leaves.flatMap fun a => slice a.data (r.val * a.shape.tail.prod) a.shape.tail.prod).getD k 0

/-- The matrix with rows indexed by the elements of the leaves, in order, from leaf arrays of shape `(*shape, n)`. -/
noncomputable def stackedMatrix (m n : Nat) (leaves : List (Arr ℝ)) : Matrix (Fin m) (Fin n) ℝ := fun k c =>
  (leaves.flatMap (·.data)).getD (k.val * n + c.val) 0

/-- `resJac` has the structure of `vals` with leaves of shape `(rd, *shape)`, and its entries are the partial derivatives of
the residual (a differentiable function of all parameters) at `vals`. -/
def ResidualDerivatives (residual : List (Value ℝ) → List ℝ) (C : Ty → VarClass ℝ) (vars : List Var) (vals : List (Value ℝ))
    (rd : Nat) (resJac : List (List (Arr ℝ))) : Prop :=
  List.Forall₂ (fun v leaves => List.Forall₂ (fun leaf a => a.shape = rd :: leaf.shape ∧ a.data.length = a.size) v.leaves leaves)
      vals resJac ∧
    HasFDerivAt (fun x => vec (residual (unpackValues C vars (List.ofFn x))) rd)
      (mulVecL (gradientMatrix rd (paramTotal C vars) resJac)) (vec (vals.flatMap Value.flatten) (paramTotal C vars))

/-- `leaves` has the structure of `x` with leaves of shape `(*shape, localDim)`, and its entries are the partial derivatives at
zero of the retraction of `x`. -/
def RetractDerivatives (c : VarClass ℝ) (x : Value ℝ) (leaves : List (Arr ℝ)) : Prop :=
  List.Forall₂ (fun leaf a => a.shape = leaf.shape ++ [c.localDim] ∧ a.data.length = a.size) x.leaves leaves ∧
    HasFDerivAt (fun d => vec (c.retract x (List.ofFn d)).flatten c.paramDim) (mulVecL (stackedMatrix c.paramDim c.localDim leaves))
      (0 : Fin c.localDim → ℝ)

end Jaxfg.Spec
