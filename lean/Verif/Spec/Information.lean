/- The information in a list of factors. -/
import Verif.Spec.Order

namespace Jaxfg.Spec
open Matrix

/-- What a factor compares with which measurement, whatever the precision: everything but the noise model. -/
def quantity (f : Factor) : Nat × List Var × List (Arr ℝ) := (f.cls, f.vars, f.params)

/-- Residual functions that do not look at the noise model. -/
def NoiseBlind (K : FactorClass) : Prop :=
  ∀ (s : FactorSelf) (N : Noise) (vals : List (Value ℝ)),
    K.residual { s with noise := N } vals = K.residual s vals ∧ K.jacobians { s with noise := N } vals = K.jacobians s vals

/-- The precision matrix (inverse covariance) of a noise model without Huber wrapper for residuals of size `n`. -/
noncomputable def noisePrecision (N : Noise) (n : Nat) : Matrix (Fin n) (Fin n) ℝ := (noiseMat N n n)ᵀ * noiseMat N n n

open Classical in
/-- The total precision with which the factors measure `q` by residuals of size `n`. -/
noncomputable def information (fs : List Factor) (q : Nat × List Var × List (Arr ℝ)) (n : Nat) : Matrix (Fin n) (Fin n) ℝ :=
  ((fs.filter fun f => NoiseGaussian f.noise ∧ quantity f = q ∧ rdim f = n).map fun f => noisePrecision f.noise n).sum

open Classical in
/-- Two lists of factors over the same variables measure the same quantities with the same total precision. Factors with a Huber
wrapper must be the same, in any order. -/
structure SameInformation (fs fs' : List Factor) : Prop where
  vars : ∀ v, (∃ f ∈ fs, v ∈ f.vars) ↔ ∃ f ∈ fs', v ∈ f.vars
  robust : (fs.filter fun f => ¬ NoiseGaussian f.noise).Perm (fs'.filter fun f => ¬ NoiseGaussian f.noise)
  gaussian : ∀ q n, information fs' q n = information fs q n

/-- `A.T @ A` is the same for both matrices, up to the order `σ` of the unknowns. -/
structure SameNormalEquations {n : Nat} (σ : Equiv.Perm (Fin n)) (A A' : Coo ℝ) : Prop where
  wf : CooWF A
  wf' : CooWF A'
  cols : A.shape.2 = n
  cols' : A'.shape.2 = n
  normal : (cooMatrix A' A'.shape.1 n)ᵀ * cooMatrix A' A'.shape.1 n =
    ((cooMatrix A A.shape.1 n)ᵀ * cooMatrix A A.shape.1 n).submatrix σ σ

/-- The linear solver reads the equations only through the normal equations, in any order of the unknowns. -/
def NormalOnly (L : LinSolver ℝ) : Prop :=
  ∀ (n : Nat) (σ : Equiv.Perm (Fin n)) (A A' : Coo ℝ) (b b' x : List ℝ) (lambd : ℝ) (it : Nat),
    SameNormalEquations σ A A' → Permuted σ b b' → L A b lambd it = .ok x → ∃ x', L A' b' lambd it = .ok x' ∧ Permuted σ x x'

/-- The same for matrices that list no position twice. -/
def NormalOnlyDistinct (L : LinSolver ℝ) : Prop :=
  ∀ (n : Nat) (σ : Equiv.Perm (Fin n)) (A A' : Coo ℝ) (b b' x : List ℝ) (lambd : ℝ) (it : Nat),
    SameNormalEquations σ A A' → (A.rows.zip A.cols).Nodup → (A'.rows.zip A'.cols).Nodup → Permuted σ b b' → L A b lambd it = .ok x →
    ∃ x', L A' b' lambd it = .ok x' ∧ Permuted σ x x'

end Jaxfg.Spec
