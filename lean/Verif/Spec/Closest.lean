/- Vocabulary for linear problems whose measurements do not determine the variables: optima, and the one closest to the initial values. -/
import Verif.Spec.Accuracy

namespace Jaxfg.Spec

/-- The measurements determine the variables as far as they see them: the difference between any two choices of values, after moving
the second one where no residual changes, is at most `1 / σ` times the change of the whitened residuals (both squared). -/
def DeterminesSeen (F : Nat → FactorClass) (C : Ty → VarClass ℝ) (fs : List Factor) (vars : List Var) (σ : ℝ) : Prop :=
  ∀ (val val' : Var → Value ℝ) (w w' : Factor → List ℝ), (∀ v ∈ vars, IsValueOf (C v.ty) (val v) ∧ IsValueOf (C v.ty) (val' v)) →
    (∀ f ∈ fs, whitenedAt F val f = .ok (w f) ∧ whitenedAt F val' f = .ok (w' f)) →
    ∃ val'', (∀ v ∈ vars, IsValueOf (C v.ty) (val'' v)) ∧ (∀ f ∈ fs, whitenedAt F val'' f = .ok (w' f)) ∧
      σ * sqDist vars val val'' ≤ (fs.map fun f => sqNorm (List.zipWith (· - ·) (w f) (w' f))).sum

/-- `m` is an optimum, with cost `c`, and no optimum is closer to `val`. -/
def IsClosestOptimum (F : Nat → FactorClass) (C : Ty → VarClass ℝ) (fs : List Factor) (vars : List Var) (val m : Var → Value ℝ) (c : ℝ) :
    Prop :=
  IsOptimum F C fs vars m c ∧ ∀ m' c', IsOptimum F C fs vars m' c' → sqDist vars val m ≤ sqDist vars val m'

/-- From the values `val`, stored by `a`, `solve` returns values whose cost exceeds the least cost by at most `θ` times as much as the
cost of `val` does, and whose squared distance from the optimum closest to `val` is at most `1 / σ` times that excess. Fuel is needed
for `max(1, N)` steps only. -/
def SolvesToClosest (F : Nat → FactorClass) (C : Ty → VarClass ℝ) (fs : List Factor) (vars : List Var) (σ θ : ℝ) (val : Var → Value ℝ)
    (a : Assign ℝ) (N : Int) (solve : Nat → Assign Ext → Py (Option (Assign Ext × List (Msg Ext)))) : Prop :=
  ∃ (o : Assign ℝ) (log : List (Msg Ext)) (val' : Var → Value ℝ) (c₀ c : ℝ), o.layout = a.layout ∧ Holds C fs vars val' o ∧
    HasCost F fs val c₀ ∧ HasCost F fs val' c ∧
    (∀ fuel : Nat, max 1 N ≤ fuel → solve fuel (a.map Ext.fin) = .ok (some (o.map Ext.fin, log))) ∧
    ∀ m c', IsClosestOptimum F C fs vars val m c' → c - c' ≤ θ * (c₀ - c') ∧ σ * sqDist vars val' m ≤ c - c'

end Jaxfg.Spec
