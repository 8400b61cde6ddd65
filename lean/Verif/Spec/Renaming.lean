/- The same problem with other variable objects, other variable classes and other factor classes. -/
import Verif.Spec.Order

namespace Jaxfg.Spec

/-- The factors `fs'` are the factors `fs` in some order, with every variable `v` replaced by `ρ v` and every factor `f` by `φ f`. The
class of `ρ v` may be another one than that of `v`, but with the same default value and retraction; the class of `φ f` may be another
one than that of `f`, with other fields, but it computes the same residuals and Jacobians. -/
structure Renamed (F F' : Nat → FactorClass) (C C' : Ty → VarClass ℝ) (ρ : Var → Var) (φ : Factor → Factor) (fs fs' : List Factor) : Prop where
  factors : (fs.map φ).Perm fs'
  distinct : ∀ f ∈ fs, ∀ v ∈ f.vars, ∀ h ∈ fs, ∀ w ∈ h.vars, ρ v = ρ w → v = w
  classes : ∀ f ∈ fs, ∀ v ∈ f.vars, C' (ρ v).ty = C v.ty
  vars : ∀ f ∈ fs, (φ f).vars = f.vars.map ρ
  noise : ∀ f ∈ fs, (φ f).noise = f.noise
  residual : ∀ f ∈ fs, ∀ vals, ValuesFor C f.vars vals → (F' (φ f).cls).residual (φ f).self vals = (F f.cls).residual f.self vals
  jacobians : ∀ f ∈ fs, ∀ vals, ValuesFor C f.vars vals → (F' (φ f).cls).jacobians (φ f).self vals = (F f.cls).jacobians f.self vals

/-- The two assignments hold the same values: that of `v` in the first one is that of `ρ v` in the second one. -/
structure RenamedValues (C C' : Ty → VarClass ℝ) (ρ : Var → Var) (fs fs' : List Factor) (vars vars' : List Var) (val : Var → Value ℝ)
    (a a' : Assign ℝ) : Prop where
  left : Holds C fs vars (fun v => val (ρ v)) a
  right : Holds C' fs' vars' val a'

end Jaxfg.Spec
