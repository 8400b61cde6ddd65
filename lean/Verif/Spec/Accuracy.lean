/- Vocabulary for the accuracy of `solve` on linear problems: costs and distances of values, without storage or matrices. -/
import Verif.Model.Lift
import Verif.Spec.SolverReal

namespace Jaxfg.Spec

/-- `c` is the cost of the values `val`: the sum, over the factors, of the squared norm of the whitened residual. -/
def HasCost (F : Nat → FactorClass) (fs : List Factor) (val : Var → Value ℝ) (c : ℝ) : Prop :=
  ∃ w : Factor → List ℝ, (∀ f ∈ fs, whitenedAt F val f = .ok (w f)) ∧ c = (fs.map fun f => sqNorm (w f)).sum

/-- Sum of the squared differences of all numbers in the values of the variables. -/
noncomputable def sqDist (vars : List Var) (val val' : Var → Value ℝ) : ℝ :=
  (vars.map fun v => sqNorm (List.zipWith (· - ·) (val v).flatten (val' v).flatten)).sum

/-- The measurements determine the variables: between any two choices of values, the whitened residuals change by at least `σ` times
as much as the values (both squared). -/
def Determines (F : Nat → FactorClass) (C : Ty → VarClass ℝ) (fs : List Factor) (vars : List Var) (σ : ℝ) : Prop :=
  ∀ (val val' : Var → Value ℝ) (w w' : Factor → List ℝ), (∀ v ∈ vars, IsValueOf (C v.ty) (val v) ∧ IsValueOf (C v.ty) (val' v)) →
    (∀ f ∈ fs, whitenedAt F val f = .ok (w f) ∧ whitenedAt F val' f = .ok (w' f)) →
    σ * sqDist vars val val' ≤ (fs.map fun f => sqNorm (List.zipWith (· - ·) (w f) (w' f))).sum

/-- `m` are values for the variables, with cost `c`, and no other values have a lower cost. -/
def IsOptimum (F : Nat → FactorClass) (C : Ty → VarClass ℝ) (fs : List Factor) (vars : List Var) (m : Var → Value ℝ) (c : ℝ) : Prop :=
  (∀ v ∈ vars, IsValueOf (C v.ty) (m v)) ∧ HasCost F fs m c ∧
    ∀ m' c', (∀ v ∈ vars, IsValueOf (C v.ty) (m' v)) → HasCost F fs m' c' → c ≤ c'

/-- From the values `val`, stored by `a`, `solve` returns values whose cost exceeds every other cost by at most `θ` times as much as
the cost of `val` does. If the measurements determine the variables up to `σ`, and `m` is the optimum, the returned values are that
close to `m`. Fuel is needed for `max(1, N)` steps only. -/
def SolvesWithin (F : Nat → FactorClass) (C : Ty → VarClass ℝ) (fs : List Factor) (vars : List Var) (σ θ : ℝ) (val : Var → Value ℝ)
    (a : Assign ℝ) (N : Int) (solve : Nat → Assign Ext → Py (Option (Assign Ext × List (Msg Ext)))) : Prop :=
  ∃ (o : Assign ℝ) (log : List (Msg Ext)) (val' : Var → Value ℝ) (c₀ c : ℝ), o.layout = a.layout ∧ Holds C fs vars val' o ∧
    HasCost F fs val c₀ ∧ HasCost F fs val' c ∧
    (∀ fuel : Nat, max 1 N ≤ fuel → solve fuel (a.map Ext.fin) = .ok (some (o.map Ext.fin, log))) ∧
    (∀ m c', (∀ v ∈ vars, IsValueOf (C v.ty) (m v)) → HasCost F fs m c' → c - c' ≤ θ * (c₀ - c')) ∧
    ∀ m c', IsOptimum F C fs vars m c' → σ * sqDist vars val' m ≤ c - c'

end Jaxfg.Spec
