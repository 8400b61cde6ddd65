/- Lemmas about the linear subproblem solvers. -/
import Verif.Model.LinSolve
import Verif.Props.Sparse
import Verif.Lemmas.ConjugateGradient
import Mathlib.LinearAlgebra.Matrix.NonsingularInverse
import Mathlib.Algebra.Order.Star.Real

namespace Jaxfg
open Matrix Spec

theorem asScipy_ok {A : Coo ℝ} (h : CooWF A) : A.asScipy = .ok ⟨A.values, A.rows, A.cols, A.shape⟩ := by
  unfold Coo.asScipy
  obtain ⟨h1, h2, h3, h4⟩ := h
  rw [if_pos]
  exact ⟨by omega, by omega, by simpa using h3, by simpa using h4⟩

theorem toMatrix_eq {A : Coo ℝ} : ScipyCoo.toMatrix ⟨A.values, A.rows, A.cols, A.shape⟩ = cooMatrix A A.shape.1 A.shape.2 := rfl

/-- The matrix that CHOLMOD factorizes, for a matrix with `m` rows and `n` columns. -/
noncomputable def normalMatrix {m n : Nat} (A : Matrix (Fin m) (Fin n) ℝ) (beta : ℝ) : Matrix (Fin n) (Fin n) ℝ :=
  Aᵀ * A + beta • 1

theorem normalMatrix_posDef {m n : Nat} (A : Matrix (Fin m) (Fin n) ℝ) {beta : ℝ} (hb : 0 < beta) : (normalMatrix A beta).PosDef := by
  unfold normalMatrix
  have h1 : (Aᵀ * A).PosSemidef := by
    have := posSemidef_conjTranspose_mul_self A
    rwa [conjTranspose_eq_transpose_of_trivial] at this
  exact PosDef.posSemidef_add h1 (PosDef.one.smul hb)

open Classical in
/-- A solve with an analysis of the right pattern. -/
theorem cholmodFactorSolve_ok (stale : Pattern → ScipyCoo ℝ → ℝ → List ℝ → Py (List ℝ)) {A : Coo ℝ} {b : List ℝ}
    (hb : b.length = A.shape.2) {beta : ℝ} (hbeta : 0 < beta) :
    cholmodFactorSolve stale (ScipyCoo.pattern ⟨A.T.values, A.T.rows, A.T.cols, A.T.shape⟩) ⟨A.T.values, A.T.rows, A.T.cols, A.T.shape⟩ beta b =
      .ok (List.ofFn ((normalMatrix (cooMatrix A A.shape.1 A.shape.2) beta)⁻¹ *ᵥ vec b A.shape.2)) := by
  unfold cholmodFactorSolve
  rw [if_pos rfl, if_neg (by simpa [Coo.T] using hb)]
  have hN : cooMatrix A.T A.shape.2 A.shape.1 * (cooMatrix A.T A.shape.2 A.shape.1)ᵀ + beta • 1 =
      normalMatrix (cooMatrix A A.shape.1 A.shape.2) beta := by
    rw [Props.cooMatrix_T, transpose_transpose]; rfl
  change (if (cooMatrix A.T A.shape.2 A.shape.1 * (cooMatrix A.T A.shape.2 A.shape.1)ᵀ + beta • 1).PosDef then
    Except.ok (List.ofFn ((cooMatrix A.T A.shape.2 A.shape.1 * (cooMatrix A.T A.shape.2 A.shape.1)ᵀ + beta • 1)⁻¹ *ᵥ vec b A.shape.2))
    else Except.error Err.value) = _
  rw [hN, if_pos (normalMatrix_posDef (cooMatrix A A.shape.1 A.shape.2) hbeta)]

end Jaxfg
