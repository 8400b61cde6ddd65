/- Existence and uniqueness of the Cholesky factor. -/
import Verif.Model.Cholesky
import Mathlib.Analysis.Matrix.LDL
import Mathlib.LinearAlgebra.Matrix.Block
import Mathlib.LinearAlgebra.Matrix.PosDef
import Mathlib.Analysis.Real.Sqrt

namespace Jaxfg
open Matrix
variable {n : Nat}

abbrev Mat (n : Nat) := Matrix (Fin n) (Fin n) ℝ

/-- Lower triangular. -/
def IsLower (L : Mat n) : Prop := ∀ i j, i < j → L i j = 0

theorem isLower_iff {L : Mat n} : IsLower L ↔ L.BlockTriangular OrderDual.toDual := by
  constructor
  · intro h i j hij; exact h i j hij
  · intro h i j hij; exact h (i := i) (j := j) hij

theorem IsLower.det {L : Mat n} (h : IsLower L) : L.det = ∏ i, L i i :=
  Matrix.det_of_isLowerTriangular L (isLower_iff.1 h)

theorem IsLower.isUnit {L : Mat n} (h : IsLower L) (hd : ∀ i, L i i ≠ 0) : IsUnit L := by
  rw [Matrix.isUnit_iff_isUnit_det, h.det, isUnit_iff_ne_zero]
  exact Finset.prod_ne_zero_iff.2 fun i _ => hd i

theorem IsLower.diag_ne {L : Mat n} (h : IsLower L) (hu : IsUnit L) (i : Fin n) : L i i ≠ 0 := by
  rw [Matrix.isUnit_iff_isUnit_det, h.det, isUnit_iff_ne_zero] at hu
  exact Finset.prod_ne_zero_iff.1 hu i (Finset.mem_univ i)

theorem IsLower.inv {L : Mat n} (h : IsLower L) (hu : IsUnit L) : IsLower L⁻¹ := by
  have := hu.invertible
  exact isLower_iff.2 (blockTriangular_inv_of_blockTriangular (isLower_iff.1 h))

theorem IsLower.mul {L M : Mat n} (h : IsLower L) (h' : IsLower M) : IsLower (L * M) :=
  isLower_iff.2 ((isLower_iff.1 h).mul (isLower_iff.1 h'))

theorem isLower_diagonal (d : Fin n → ℝ) : IsLower (diagonal d) := by
  intro i j hij
  exact diagonal_apply_ne _ hij.ne

theorem IsCholesky.isUnit {S L : Mat n} (h : IsCholesky S L) : IsUnit L :=
  IsLower.isUnit h.lower fun i => (h.diag_pos i).ne'

theorem IsLower.mul_diag {L M : Mat n} (h : IsLower L) (h' : IsLower M) (i : Fin n) : (L * M) i i = L i i * M i i := by
  rw [Matrix.mul_apply]
  apply Finset.sum_eq_single i
  · intro j _ hj
    rcases lt_or_gt_of_ne hj with hlt | hgt
    · rw [h' j i hlt, mul_zero]
    · rw [h i j hgt, zero_mul]
  · intro h; exact absurd (Finset.mem_univ i) h

/-- The Cholesky factor is unique. -/
theorem IsCholesky.unique {S L₁ L₂ : Mat n} (h₁ : IsCholesky S L₁) (h₂ : IsCholesky S L₂) : L₁ = L₂ := by
  have hu₁ := h₁.isUnit
  have hu₂ := h₂.isUnit
  have hd₁ := (Matrix.isUnit_iff_isUnit_det L₁).1 hu₁
  have hd₂ := (Matrix.isUnit_iff_isUnit_det L₂).1 hu₂
  have hd₁t : IsUnit L₁.transpose.det := by rwa [Matrix.det_transpose]
  have hd₂t : IsUnit L₂.transpose.det := by rwa [Matrix.det_transpose]
  set M : Mat n := L₂⁻¹ * L₁ with hM
  have hlow : IsLower M := (IsLower.inv h₂.lower hu₂).mul h₁.lower
  -- M is also the transposed inverse of itself
  have hMM : M * M.transpose = 1 := by
    rw [hM, Matrix.transpose_mul, Matrix.mul_assoc, ← Matrix.mul_assoc L₁, h₁.mul_self, ← h₂.mul_self,
      Matrix.transpose_nonsing_inv, Matrix.mul_assoc, Matrix.mul_nonsing_inv _ hd₂t, Matrix.mul_one,
      Matrix.nonsing_inv_mul _ hd₂]
  have hMu : IsUnit M := by
    rw [Matrix.isUnit_iff_isUnit_det]
    exact Matrix.isUnit_det_of_right_inverse hMM
  have hMinv : M⁻¹ = M.transpose := Matrix.inv_eq_right_inv hMM
  have hup : IsLower M.transpose := by rw [← hMinv]; exact hlow.inv hMu
  have hdiag : ∀ i j, i ≠ j → M i j = 0 := by
    intro i j hij
    rcases lt_or_gt_of_ne hij with hlt | hgt
    · exact hlow i j hlt
    · exact hup j i hgt
  have hL : L₂ * M = L₁ := by rw [hM, ← Matrix.mul_assoc, Matrix.mul_nonsing_inv _ hd₂, Matrix.one_mul]
  have hpos : ∀ i, 0 < M i i := by
    intro i
    have h1 := IsLower.mul_diag h₂.lower hlow i
    rw [hL] at h1
    have h2 := h₁.diag_pos i
    rw [h1] at h2
    exact (pos_iff_pos_of_mul_pos h2).1 (h₂.diag_pos i)
  have hone : M = 1 := by
    ext i j
    by_cases hij : i = j
    · subst hij
      have h1 := IsLower.mul_diag hlow hup i
      rw [hMM, Matrix.transpose_apply, Matrix.one_apply_eq] at h1
      rw [Matrix.one_apply_eq]
      nlinarith [hpos i]
    · rw [hdiag i j hij, Matrix.one_apply_ne hij]
  rw [← hL, hone, Matrix.mul_one]

theorem posDef_diagEntries {S : Mat n} (hS : S.PosDef) (i : Fin n) : 0 < LDL.diagEntries hS i := by
  have h1 := LDL.diag_eq_lowerInv_conj hS
  have hinj : Function.Injective (LDL.lowerInv hS).vecMul := by
    have := LDL.invertibleLowerInv hS
    exact Matrix.vecMul_injective_of_isUnit (isUnit_of_invertible _)
  have h2 : (LDL.diag hS).PosDef := by
    rw [h1]
    exact hS.mul_mul_conjTranspose_same hinj
  have := h2.diag_pos (i := i)
  simpa [LDL.diag] using this

/-- Every symmetric positive definite matrix has a Cholesky factor. -/
theorem exists_isCholesky {S : Mat n} (hS : S.PosDef) : ∃ L, IsCholesky S L := by
  have := LDL.invertibleLowerInv hS
  have hlowInv : IsLower (LDL.lowerInv hS) := fun i j hij => LDL.lowerInv_triangular hS hij
  have hu : IsUnit (LDL.lowerInv hS) := isUnit_of_invertible _
  have hlow : IsLower (LDL.lower hS) := hlowInv.inv hu
  have hlu : IsUnit (LDL.lower hS) := by
    rw [Matrix.isUnit_iff_isUnit_det, LDL.lower]
    exact Matrix.isUnit_nonsing_inv_det _ ((Matrix.isUnit_iff_isUnit_det _).1 hu)
  have hne := hlow.diag_ne hlu
  set L₀ := LDL.lower hS with hL₀
  set d := LDL.diagEntries hS with hd
  have hdpos : ∀ i, 0 < d i := posDef_diagEntries hS
  let s : Fin n → ℝ := fun i => SignType.sign (L₀ i i) * Real.sqrt (d i)
  have hsign : ∀ i, ((SignType.sign (L₀ i i) : SignType) : ℝ) * ((SignType.sign (L₀ i i) : SignType) : ℝ) = 1 := by
    intro i
    rcases lt_or_gt_of_ne (hne i) with h | h
    · simp [sign_neg h]
    · simp [sign_pos h]
  have hss : ∀ i, s i * s i = d i := by
    intro i
    have : s i * s i = (((SignType.sign (L₀ i i) : SignType) : ℝ) * ((SignType.sign (L₀ i i) : SignType) : ℝ)) *
        (Real.sqrt (d i) * Real.sqrt (d i)) := by simp only [s]; ring
    rw [this, hsign, one_mul, Real.mul_self_sqrt (hdpos i).le]
  refine ⟨L₀ * diagonal s, ?_, ?_, ?_⟩
  · exact hlow.mul (isLower_diagonal s)
  · intro i
    rw [IsLower.mul_diag hlow (isLower_diagonal s), diagonal_apply_eq]
    simp only [s]
    rw [← mul_assoc]
    apply mul_pos _ (Real.sqrt_pos.2 (hdpos i))
    rw [mul_comm]
    rcases lt_or_gt_of_ne (hne i) with h | h
    · simp [sign_neg h, h]
    · simp [sign_pos h, h]
  · have h := LDL.lower_conj_diag hS
    rw [← hL₀, Matrix.conjTranspose_eq_transpose_of_trivial] at h
    rw [Matrix.transpose_mul, Matrix.diagonal_transpose, Matrix.mul_assoc, ← Matrix.mul_assoc (diagonal s),
      Matrix.diagonal_mul_diagonal, ← Matrix.mul_assoc]
    have he : (fun i => s i * s i) = d := funext hss
    rw [he]
    exact h

theorem cholesky_spec {S : Mat n} (hS : S.PosDef) : IsCholesky S (cholesky S) := by
  have h := exists_isCholesky hS
  unfold cholesky
  rw [dif_pos h]
  exact h.choose_spec

theorem cholesky_eq {S L : Mat n} (h : IsCholesky S L) : cholesky S = L := by
  have h' : ∃ L, IsCholesky S L := ⟨L, h⟩
  unfold cholesky
  rw [dif_pos h']
  exact h'.choose_spec.unique h

end Jaxfg
