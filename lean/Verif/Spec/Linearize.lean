/- What the linearization of a factor graph is meant to be, factor by factor. -/
import Verif.Spec.Graph
import Mathlib.Analysis.Calculus.Deriv.Basic

namespace Jaxfg.Spec
open Matrix

/-- The whitened Jacobian blocks of one factor, one for each of its variables, when the noise model is handed the residual
`r`. -/
noncomputable def whitenedJacobiansAt (F : Nat → FactorClass) (val : Var → Value ℝ) (f : Factor) (r : List ℝ) :
    Py (List (Arr ℝ)) :=
  ((F f.cls).jacobians f.self (f.vars.map val)).mapM fun J => f.noise.whitenJacobian J r

/-- Sum over the variables (with repetitions) of block times delta of the variable. -/
noncomputable def applyBlocks (C : Ty → VarClass ℝ) (rd : Nat) (vars : List Var) (Js : List (Arr ℝ)) (δ : Var → List ℝ) :
    Fin rd → ℝ :=
  ((vars.zip Js).map fun p => arrMat p.2 rd (C p.1.ty).localDim *ᵥ vec (δ p.1) (C p.1.ty).localDim).sum

/-- The values of the listed variables, each retracted by `t` times its delta. Deltas are given by position, so a variable
that is listed twice may be moved twice differently. -/
def movedValues (C : Ty → VarClass ℝ) (vars : List Var) (vals : List (Value ℝ)) (δs : List (List ℝ)) (t : ℝ) :
    List (Value ℝ) :=
  List.zipWith (fun (p : Var × Value ℝ) d => (C p.1.ty).retract p.2 (d.map (t * ·))) (vars.zip vals) δs

/-- The Jacobians the factor class computes at `vals` are the derivatives of its residual along the retractions of the
variables: every directional derivative, the direction given position by position, is the sum of Jacobian times delta. -/
def JacobiansCorrect (F : Nat → FactorClass) (C : Ty → VarClass ℝ) (f : Factor) (vals : List (Value ℝ)) : Prop :=
  ∀ δs : List (List ℝ), List.Forall₂ (fun v d => d.length = (C v.ty).localDim) f.vars δs →
    HasDerivAt (fun t : ℝ => vec ((F f.cls).residual f.self (movedValues C f.vars vals δs t)) (rdim f))
      (((f.vars.zip (((F f.cls).jacobians f.self vals).zip δs)).map fun p =>
        arrMat p.2.1 (rdim f) (C p.1.ty).localDim *ᵥ vec p.2.2 (C p.1.ty).localDim).sum) 0

end Jaxfg.Spec
