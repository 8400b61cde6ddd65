/- The total derivative of the residual of one factor. -/
import Verif.Spec.DefaultJacobian

namespace Jaxfg.Spec
open Matrix

/-- One local delta for every position of the list of variables. -/
abbrev Deltas (C : Ty → VarClass ℝ) (vars : List Var) : Type := (i : Fin vars.length) → Fin (C (vars.get i).ty).localDim → ℝ

/-- The values, each retracted by the delta of its position. -/
def movedBy (C : Ty → VarClass ℝ) (vars : List Var) (vals : List (Value ℝ)) (x : Deltas C vars) : List (Value ℝ) :=
  List.ofFn fun i => (C (vars.get i).ty).retract (vals.getD i ⟨0, []⟩) (List.ofFn (x i))

/-- The Jacobians that the factor class computes at `vals` are together the total (Fréchet) derivative, at zero, of the residual of the
retracted values as a function of all deltas. -/
def JacobiansTotal (F : Nat → FactorClass) (C : Ty → VarClass ℝ) (f : Factor) (vals : List (Value ℝ)) : Prop :=
  HasFDerivAt (fun x : Deltas C f.vars => vec ((F f.cls).residual f.self (movedBy C f.vars vals x)) (rdim f))
    (∑ i : Fin f.vars.length, (mulVecL (arrMat (((F f.cls).jacobians f.self vals).getD i ⟨[], []⟩) (rdim f) (C (f.vars.get i).ty).localDim)).comp
      (ContinuousLinearMap.proj i)) 0

end Jaxfg.Spec
