/- What noise models are meant to compute. -/
import Verif.Model.Noise
import Verif.Spec.Sparse

namespace Jaxfg.Spec

/-- Sum of squares. -/
def sqNorm (l : List ℝ) : ℝ := (l.map fun x => x ^ 2).sum

/-- `a` is an `(m, n)` array. -/
def IsMat (a : Arr ℝ) (m n : Nat) : Prop := a.shape = [m, n] ∧ a.data.length = m * n

/-- `a` is a vector of size `n`. -/
def IsVec (a : Arr ℝ) (n : Nat) : Prop := a.shape = [n] ∧ a.data.length = n

/-- A two-dimensional array read as a matrix (row-major). -/
def arrMat (a : Arr ℝ) (m n : Nat) : Matrix (Fin m) (Fin n) ℝ := fun i j => a.data.getD (i.val * n + j.val) 0

/-- A noise model for residuals of size `n` with whitened residuals of size `m`: array shapes agree, Huber thresholds are
positive scalars. -/
def NoiseWF : Noise → Nat → Nat → Prop
  | .gaussian W, n, m => IsMat W m n
  | .diagonal d, n, m => IsVec d n ∧ m = n
  | .huber w δ, n, m => NoiseWF w n m ∧ ∃ d, δ = ⟨[], [d]⟩ ∧ 0 < d

/-- No Huber wrapper. -/
def NoiseGaussian : Noise → Prop
  | .huber _ _ => False
  | _ => True

/-- Whitening as a map between vector spaces (used only where whitening succeeds). -/
noncomputable def whitenVec (N : Noise) (n m : Nat) (r : Fin n → ℝ) : Fin m → ℝ :=
  match N.whiten (List.ofFn r) with
  | .ok w => vec w m
  | .error _ => 0

/-- The matrix of a model without Huber wrapper: its square root precision matrix. -/
noncomputable def noiseMat (N : Noise) (n m : Nat) : Matrix (Fin m) (Fin n) ℝ :=
  match N with
  | .gaussian W => arrMat W m n
  | .diagonal d => fun i j => if i.val = j.val then d.data.getD i.val 0 else 0
  | .huber _ _ => 0

end Jaxfg.Spec
