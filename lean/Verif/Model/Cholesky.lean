/-
The dense Cholesky factorization as jaxfg uses it (numpy/JAX library routine).
-/
import Mathlib.Data.Matrix.Mul
import Mathlib.LinearAlgebra.Matrix.NonsingularInverse
import Mathlib.Data.Real.Basic

namespace Jaxfg

/-- `L` is the lower Cholesky factor of `S`. -/
structure IsCholesky {n : Nat} (S L : Matrix (Fin n) (Fin n) ℝ) : Prop where
  lower : ∀ i j, i < j → L i j = 0
  diag_pos : ∀ i, 0 < L i i
  mul_self : L * L.transpose = S

/-- `jnp.linalg.cholesky(S)` / `onp.linalg.cholesky(S)`: the lower Cholesky factor (shown to exist and to be unique for every
symmetric positive definite `S` in `Verif.Lemmas.Cholesky`). For other inputs the library returns NaN or raises; the zero
matrix here is a placeholder that no theorem uses. -/
noncomputable def cholesky {n : Nat} (S : Matrix (Fin n) (Fin n) ℝ) : Matrix (Fin n) (Fin n) ℝ :=
  open Classical in if h : ∃ L, IsCholesky S L then h.choose else 0

end Jaxfg
