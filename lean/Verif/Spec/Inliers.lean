/- Residuals below the thresholds of Huber wrappers. -/
import Verif.Spec.Information

namespace Jaxfg.Spec

/-- A noise model without its Huber wrappers. -/
def stripHuber : Noise → Noise
  | .huber w _ => stripHuber w
  | N => N

/-- The same measurement without Huber wrappers. -/
def plain (f : Factor) : Factor := { f with noise := stripHuber f.noise }

/-- `x` is below the threshold of every Huber wrapper of the noise model. -/
def BelowThresholds : Noise → ℝ → Prop
  | .huber w δ, x => (∀ d ∈ δ.data, x < d) ∧ BelowThresholds w x
  | _, _ => True

/-- For these values of its variables, the weighted residual of the factor is below the thresholds of its wrappers. -/
def Inlier (F : Nat → FactorClass) (f : Factor) (vals : List (Value ℝ)) : Prop :=
  ∀ w, (stripHuber f.noise).whiten ((F f.cls).residual f.self vals) = .ok w → BelowThresholds f.noise (√(w.map (· ^ 2)).sum)

/-- All factors are inliers at the assignment. -/
def Inliers (F : Nat → FactorClass) (C : Ty → VarClass ℝ) (fs : List Factor) (a : Assign ℝ) : Prop :=
  ∀ f ∈ fs, ∀ vals, f.vars.mapM (a.getValue C) = .ok vals → Inlier F f vals

open Classical in
/-- The problem `g`, watched by somebody who stops the program when it is evaluated at an assignment without the property `P`. -/
noncomputable def watchedFor (P : Assign ℝ → Prop) (g : GraphOps ℝ) : GraphOps ℝ :=
  { g with computeCost := fun a => if P a then g.computeCost a else .error .assertion }

end Jaxfg.Spec
