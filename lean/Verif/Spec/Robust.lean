/- Vocabulary for linear problems with Huber wrappers. -/
import Verif.Spec.Huber
import Verif.Spec.Accuracy

namespace Jaxfg.Spec

/-- The residual of a factor, whitened by its noise model without the Huber wrapper. -/
noncomputable def innerAt (F : Nat → FactorClass) (val : Var → Value ℝ) (f : Factor) : Py (List ℝ) :=
  match f.noise with
  | .huber N _ => N.whiten ((F f.cls).residual f.self (f.vars.map val))
  | N => N.whiten ((F f.cls).residual f.self (f.vars.map val))

/-- The measurements determine the variables: between any two choices of values, the residuals, whitened without Huber weights, change
by at least `σ` times as much as the values (both squared). -/
def DeterminesInner (F : Nat → FactorClass) (C : Ty → VarClass ℝ) (fs : List Factor) (vars : List Var) (σ : ℝ) : Prop :=
  ∀ (val val' : Var → Value ℝ) (w w' : Factor → List ℝ), (∀ v ∈ vars, IsValueOf (C v.ty) (val v) ∧ IsValueOf (C v.ty) (val' v)) →
    (∀ f ∈ fs, innerAt F val f = .ok (w f) ∧ innerAt F val' f = .ok (w' f)) →
    σ * sqDist vars val val' ≤ (fs.map fun f => sqNorm (List.zipWith (· - ·) (w f) (w' f))).sum

/-- The sum over the factors of the losses that grow with exponent 5/4 above the thresholds. -/
noncomputable def totalLoss (F : Nat → FactorClass) (fs : List Factor) (val : Var → Value ℝ) : ℝ :=
  (fs.map fun f => factorLoss fiveFourthsLoss F val f).sum

/-- `m` is small enough for values whose total loss is at most `L`: at most 1/10, and bounded by the threshold of every Huber wrapper,
the more the larger `L` is. -/
def SmallFor (fs : List Factor) (L m : ℝ) : Prop :=
  0 < m ∧ 10 * m ≤ 1 ∧ ∀ f ∈ fs, ∀ N δ, f.noise = .huber N ⟨[], [δ]⟩ → (10 * m) ^ 4 * (L + δ ^ 2) ^ 3 ≤ 8 * δ ^ 6

/-- The values `y` of the variables have the least total loss. -/
def LeastLoss (F : Nat → FactorClass) (C : Ty → VarClass ℝ) (fs : List Factor) (vars : List Var) (y : Var → Value ℝ) : Prop :=
  (∀ v ∈ vars, IsValueOf (C v.ty) (y v)) ∧ ∀ m, (∀ v ∈ vars, IsValueOf (C v.ty) (m v)) → totalLoss F fs y ≤ totalLoss F fs m

/-- What `k` steps from `val` to `val'` have left: the loss has not grown, its excess over the least loss is at most the `k`-th power
of a factor below one times what it was, and it bounds the distance from the values with the least loss. -/
def Approaches (F : Nat → FactorClass) (C : Ty → VarClass ℝ) (fs : List Factor) (vars : List Var) (σ μ : ℝ) (k : Nat)
    (val val' : Var → Value ℝ) : Prop :=
  totalLoss F fs val' ≤ totalLoss F fs val ∧ ∀ m y, SmallFor fs (totalLoss F fs val) m → LeastLoss F C fs vars y →
    totalLoss F fs val' - totalLoss F fs y ≤ (1 - m * σ / (σ + μ)) ^ k * (totalLoss F fs val - totalLoss F fs y) ∧
    m * σ / 2 * sqDist vars val' y ≤ totalLoss F fs val' - totalLoss F fs y

end Jaxfg.Spec
