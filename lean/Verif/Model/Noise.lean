/-
Noise models: jaxfg/noises/_gaussians.py, jaxfg/noises/_huber.py. Numbers are exact reals.
-/
import Verif.Model.Value
import Verif.Model.Cholesky
import Mathlib.Analysis.Real.Sqrt
import Mathlib.Data.Real.Basic
import Mathlib.Algebra.BigOperators.Group.Finset.Basic

namespace Jaxfg

/-- Entry `(i, j)` of a row-major array with `k` columns. -/
noncomputable def Arr.at2 (a : Arr ℝ) (k i j : Nat) : ℝ := a.data.getD (i * k + j) 0

/-- An `(m, k)` array from its entries. -/
def Arr.of2 (m k : Nat) (f : Nat → Nat → ℝ) : Arr ℝ :=
  ⟨[m, k], (List.range m).flatMap fun i => (List.range k).map fun j => f i j⟩

/-- `jnp.einsum("ij,j->i", W, r)`. As in numpy, an axis of size one is repeated to match the other operand; other shapes that do not
match raise. -/
noncomputable def einsumMatVec (W : Arr ℝ) (r : List ℝ) : Py (List ℝ) :=
  match W.shape with
  | [m, n] =>
    if r.length = n then .ok ((List.range m).map fun i => ∑ j ∈ Finset.range n, W.at2 n i j * r.getD j 0)
    else if r.length = 1 then .ok ((List.range m).map fun i => ∑ j ∈ Finset.range n, W.at2 n i j * r.getD 0 0)
    else if n = 1 then .ok ((List.range m).map fun i => ∑ j ∈ Finset.range r.length, W.at2 1 i 0 * r.getD j 0)
    else .error .value
  | _ => .error .value

/-- `jnp.einsum("ij,jk->ik", W, J)`, with the same treatment of axes of size one. -/
noncomputable def einsumMatMat (W J : Arr ℝ) : Py (Arr ℝ) :=
  match W.shape, J.shape with
  | [m, n], [n', k] =>
    if n' = n then .ok (.of2 m k fun i c => ∑ j ∈ Finset.range n, W.at2 n i j * J.at2 k j c)
    else if n' = 1 then .ok (.of2 m k fun i c => ∑ j ∈ Finset.range n, W.at2 n i j * J.at2 k 0 c)
    else if n = 1 then .ok (.of2 m k fun i c => ∑ j ∈ Finset.range n', W.at2 1 i 0 * J.at2 k j c)
    else .error .value
  | _, _ => .error .value

/-- `jnp.linalg.norm(v)` of a vector. -/
noncomputable def norm2 (v : List ℝ) : ℝ := Real.sqrt ((v.map fun x => x ^ 2).sum)

/-- A scalar array used as a number; other shapes raise (simplification: broadcasting is not modelled). -/
def Arr.scalar (a : Arr ℝ) : Py ℝ :=
  match a.shape, a.data with
  | [], [x] => .ok x
  | _, _ => .error .value

/-- The noise model classes of the library with their array fields: `Gaussian` (jaxfg/noises/_gaussians.py:11-14),
`DiagonalGaussian` (lines 42-45), `HuberWrapper` (jaxfg/noises/_huber.py:9-21). User-defined noise models are not
modelled. -/
inductive Noise where
  | gaussian (sqrtPrecisionMatrix : Arr ℝ)
  | diagonal (sqrtPrecisionDiagonal : Arr ℝ)
  | huber (wrapped : Noise) (delta : Arr ℝ)

/-- The pytree structure of a noise model. -/
inductive NoiseDef where
  | gaussian
  | diagonal
  | huber (wrapped : NoiseDef)
deriving DecidableEq

/-- An array from a matrix. -/
noncomputable def Arr.ofMat {m n : Nat} (M : Matrix (Fin m) (Fin n) ℝ) : Arr ℝ :=
  ⟨[m, n], (List.finRange m).flatMap fun i => (List.finRange n).map fun j => M i j⟩

/-- An array read as a matrix. -/
noncomputable def Arr.toMat (a : Arr ℝ) (m n : Nat) : Matrix (Fin m) (Fin n) ℝ := fun i j => a.at2 n i.val j.val

namespace Noise

/-- `Gaussian.make_from_covariance(covariance)`, jaxfg/noises/_gaussians.py:16-23. `jnp.linalg.inv` is the matrix inverse,
`jnp.linalg.cholesky` is `cholesky` (JAX symmetrizes its input first, which changes nothing for symmetric matrices). -/
noncomputable def gaussianFromCovariance (S : Arr ℝ) : Py Noise :=
  match S.shape with
  | [m, n] => if m = n then .ok (.gaussian (.ofMat (cholesky (S.toMat m m))⁻¹)) else .error .assertion
  | _ => .error .assertion

/-- `DiagonalGaussian.make_from_covariance(diagonal)`, jaxfg/noises/_gaussians.py:47-53. Variances that are not positive
give infinities or NaN in the code; theorems assume positive variances. -/
noncomputable def diagonalFromCovariance (d : Arr ℝ) : Noise :=
  .diagonal ⟨d.shape, d.data.map fun x => 1 / Real.sqrt x⟩

/-- Treedef of a noise model seen as a pytree (a `pytree_dataclass` of array fields). -/
def treedef : Noise → NoiseDef
  | gaussian _ => .gaussian
  | diagonal _ => .diagonal
  | huber w _ => .huber w.treedef

/-- Array leaves of a noise model, in field order. -/
def leaves : Noise → List (Arr ℝ)
  | gaussian W => [W]
  | diagonal d => [d]
  | huber w δ => w.leaves ++ [δ]

/-- `get_residual_dim()`: the last axis of the array field. jaxfg/noises/_gaussians.py:25-27, 55-57, _huber.py:23-25.
A scalar has no last axis (`IndexError`). -/
def residualDim : Noise → Py Nat
  | gaussian W => match W.shape.getLast? with | some n => .ok n | none => .error .index
  | diagonal d => match d.shape.getLast? with | some n => .ok n | none => .error .index
  | huber w _ => w.residualDim

/-- `whiten_residual_vector(residual_vector)`: jaxfg/noises/_gaussians.py:29-31, 59-62, _huber.py:27-36.
`delta` must be a scalar in the model. `jnp.where` selects; the branch not taken has no effect on the value.
At `norm = 0` with `delta <= 0` the code divides by zero (NaN); theorems assume `delta > 0`. -/
noncomputable def whiten : Noise → List ℝ → Py (List ℝ)
  | gaussian W, r => einsumMatVec W r
  | diagonal d, r => do
    pyAssert ([r.length] = d.shape)
    return List.zipWith (· * ·) d.data r
  | huber w δ, r => do
    let r' ← w.whiten r
    let d ← δ.scalar
    let n := norm2 r'
    return if n < d then r' else r'.map (· * Real.sqrt (d / n))

/-- `whiten_jacobian(jacobian, residual_vector)`: jaxfg/noises/_gaussians.py:33-39, 64-76, _huber.py:38-51. -/
noncomputable def whitenJacobian : Noise → Arr ℝ → List ℝ → Py (Arr ℝ)
  | gaussian W, J, _ => einsumMatMat W J
  | diagonal d, J, r =>
    match J.shape with
    | [n, k] => do
      pyAssert ([r.length] = d.shape && d.shape = [n])
      return .of2 n k fun i c => d.data.getD i 0 * J.at2 k i c
    | _ => .error .assertion
  | huber w δ, J, r => do
    let J' ← w.whitenJacobian J r
    let d ← δ.scalar
    let n := norm2 r
    return if n < d then J' else ⟨J'.shape, J'.data.map (· * Real.sqrt (d / n))⟩

end Noise

end Jaxfg
