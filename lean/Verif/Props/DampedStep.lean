/-
C85: the steps of CHOLMOD as functions of the damping. `μ = lambd + 1e-5` is the damping that CHOLMOD adds to `AᵀA`.
-/
import Verif.Lemmas.DampedStep
import Verif.Props.LinSolve

namespace Jaxfg.Props
open Spec Matrix

section
variable (stale : Pattern → ScipyCoo ℝ → ℝ → List ℝ → Py (List ℝ)) {cache : CholmodCache} {addr : Nat} {A : Coo ℝ} {b : List ℝ}

/-- **C85, trust region.** For every matrix `A`, residual `r` and damping, the step that CHOLMOD returns for the problem
`min |A x + r|²` is the one and only minimum among all steps that are not longer. -/
theorem C85_trust_region (hA : CooWF A) (hc : CacheFits cache addr A) {r : List ℝ} (hb : A.T.matmul (r.map (- ·)) = .ok b)
    {lambd : ℝ} (hl : 0 ≤ lambd) :
    ∃ x, (cholmodSolve stale cache addr A b lambd).1 = .ok x ∧ x.length = A.shape.2 ∧
      ∀ y : Fin A.shape.2 → ℝ, Spec.length y ≤ Spec.length (Spec.vec x A.shape.2) →
        let cost := modelCost (cooMatrix A A.shape.1 A.shape.2) (Spec.vec r A.shape.1)
        cost (Spec.vec x A.shape.2) ≤ cost y ∧ (cost y = cost (Spec.vec x A.shape.2) → y = Spec.vec x A.shape.2) := by
  obtain ⟨hrl, hbl, hbv⟩ := descent_ok hA hb
  obtain ⟨-, x, h1, h2, h3, -⟩ := C35_cholmod stale cache addr A hA b hbl lambd hl hc
  rw [hbv] at h3
  exact ⟨x, h1, h2, fun y hy => ridge_trust (by positivity) h3 ((Real.sqrt_le_sqrt_iff (dot_self_nonneg _)).1 hy)⟩

/-- **C85, more damping.** With more damping the step is not longer, and the cost of the linearized problem is not lower. Unless the
gradient is zero, the step is shorter and the cost is higher. -/
theorem C85_more_damping (hA : CooWF A) (hc : CacheFits cache addr A) {cache' : CholmodCache} {addr' : Nat} (hc' : CacheFits cache' addr' A)
    {r : List ℝ} (hb : A.T.matmul (r.map (- ·)) = .ok b) {lambd lambd' : ℝ} (hl : 0 ≤ lambd) (hl' : lambd < lambd') :
    ∃ x x', (cholmodSolve stale cache addr A b lambd).1 = .ok x ∧ (cholmodSolve stale cache' addr' A b lambd').1 = .ok x' ∧
      let cost := modelCost (cooMatrix A A.shape.1 A.shape.2) (Spec.vec r A.shape.1)
      Spec.length (Spec.vec x' A.shape.2) ≤ Spec.length (Spec.vec x A.shape.2) ∧
      cost (Spec.vec x A.shape.2) ≤ cost (Spec.vec x' A.shape.2) ∧
      ((∃ y ∈ b, y ≠ 0) → Spec.length (Spec.vec x' A.shape.2) < Spec.length (Spec.vec x A.shape.2) ∧
        cost (Spec.vec x A.shape.2) < cost (Spec.vec x' A.shape.2)) := by
  obtain ⟨hrl, hbl, hbv⟩ := descent_ok hA hb
  obtain ⟨-, x, h1, h2, h3, -⟩ := C35_cholmod stale cache addr A hA b hbl lambd hl hc
  obtain ⟨-, x', k1, k2, k3, -⟩ := C35_cholmod stale cache' addr' A hA b hbl lambd' (by linarith) hc'
  rw [hbv] at h3 k3
  obtain ⟨e1, e2, e3⟩ := ridge_mono (by positivity) (by linarith : lambd + 1 / 100000 < lambd' + 1 / 100000) h3 k3
  refine ⟨x, x', h1, k1, Real.sqrt_le_sqrt e1, e2, ?_⟩
  rintro ⟨y, hy, hy0⟩
  obtain ⟨e4, e5⟩ := e3 fun h0 => hy0 ((mem_zero_vec hbl).2 (hbv.trans h0) y hy)
  exact ⟨Real.sqrt_lt_sqrt (dot_self_nonneg _) e4, e5⟩

/-- **C85, accuracy.** If no eigenvalue of `AᵀA` is below `σ ≥ 0` and `y` is a solution of `AᵀA y = b`, then the answer of CHOLMOD is at
distance at most `μ / (σ + μ) |y|` from `y`. -/
theorem C85_accuracy (hA : CooWF A) (hc : CacheFits cache addr A) (hb : b.length = A.shape.2) {lambd : ℝ} (hl : 0 ≤ lambd) {σ : ℝ}
    (hσ : 0 ≤ σ) (hS : StiffAtLeast σ A) {y : Fin A.shape.2 → ℝ}
    (hy : ((cooMatrix A A.shape.1 A.shape.2)ᵀ * cooMatrix A A.shape.1 A.shape.2) *ᵥ y = Spec.vec b A.shape.2) :
    let μ := lambd + 1 / 100000
    ∃ x, (cholmodSolve stale cache addr A b lambd).1 = .ok x ∧ x.length = A.shape.2 ∧
      Spec.length (Spec.vec x A.shape.2 - y) ≤ μ / (σ + μ) * Spec.length y := by
  intro μ
  obtain ⟨-, x, h1, h2, h3, -⟩ := C35_cholmod stale cache addr A hA b hb lambd hl hc
  exact ⟨x, h1, h2, ridge_error hσ (by positivity) hS h3 hy⟩

/-- **C85, the accuracy is sharp.** For an eigenvector `y` of `AᵀA` with eigenvalue `σ ≥ 0` and right-hand side `σ y`, the answer is
`σ / (σ + μ) y`. -/
theorem C85_sharp (hA : CooWF A) (hc : CacheFits cache addr A) (hb : b.length = A.shape.2) {lambd : ℝ} (hl : 0 ≤ lambd) {σ : ℝ}
    (hσ : 0 ≤ σ) {y : Fin A.shape.2 → ℝ}
    (hy : ((cooMatrix A A.shape.1 A.shape.2)ᵀ * cooMatrix A A.shape.1 A.shape.2) *ᵥ y = σ • y) (hby : Spec.vec b A.shape.2 = σ • y) :
    let μ := lambd + 1 / 100000
    ∃ x, (cholmodSolve stale cache addr A b lambd).1 = .ok x ∧ x.length = A.shape.2 ∧
      Spec.vec x A.shape.2 = (σ / (σ + μ)) • y := by
  intro μ
  have hμ : 0 < σ + μ := by positivity
  obtain ⟨-, x, h1, h2, -, h4, -⟩ := C35_cholmod stale cache addr A hA b hb lambd hl hc
  refine ⟨x, h1, h2, (h4 _ ?_).symm⟩
  rw [hby, mulVec_smul, add_mulVec, hy, smul_mulVec, one_mulVec, ← add_smul, smul_smul, div_mul_cancel₀ _ hμ.ne']

/-- **C85, large damping.** If no eigenvalue of `AᵀA` is above `κ`, the step is `b / μ` up to a relative error of `κ / (κ + μ)`: with
more and more damping it becomes a short step of steepest descent. -/
theorem C85_large_damping (hA : CooWF A) (hc : CacheFits cache addr A) (hb : b.length = A.shape.2) {lambd : ℝ} (hl : 0 ≤ lambd) {κ : ℝ}
    (hκ : 0 ≤ κ) (hS : SoftAtMost κ A) :
    let μ := lambd + 1 / 100000
    ∃ x, (cholmodSolve stale cache addr A b lambd).1 = .ok x ∧ x.length = A.shape.2 ∧
      Spec.length (Spec.vec b A.shape.2 - μ • Spec.vec x A.shape.2) ≤ κ / (κ + μ) * Spec.length (Spec.vec b A.shape.2) := by
  intro μ
  obtain ⟨-, x, h1, h2, h3, -⟩ := C35_cholmod stale cache addr A hA b hb lambd hl hc
  exact ⟨x, h1, h2, ridge_gradient hκ (by positivity) hS h3⟩

/-- **C85, tests/test_sparse.py.** The comparison of the test, `assert_allclose(x_ours, x_onp, atol=1e-5, rtol=1e-5)`, holds for CHOLMOD
if the exact solution is not longer than the least eigenvalue of `AᵀA` plus `1e-5`. -/
theorem C85_test (hA : CooWF A) (hc : CacheFits cache addr A) (hb : b.length = A.shape.2) {σ : ℝ} (hσ : 0 ≤ σ) (hS : StiffAtLeast σ A)
    {y : Fin A.shape.2 → ℝ}
    (hy : ((cooMatrix A A.shape.1 A.shape.2)ᵀ * cooMatrix A A.shape.1 A.shape.2) *ᵥ y = Spec.vec b A.shape.2)
    (hlen : Spec.length y ≤ σ + 1 / 100000) :
    ∃ x, (cholmodSolve stale cache addr A b 0).1 = .ok x ∧ x.length = A.shape.2 ∧
      ∀ i, |Spec.vec x A.shape.2 i - y i| ≤ 1 / 100000 + 1 / 100000 * |y i| := by
  obtain ⟨x, h1, h2, h3⟩ := C85_accuracy stale hA hc hb le_rfl hσ hS hy
  refine ⟨x, h1, h2, fun i => ?_⟩
  have h4 : |Spec.vec x A.shape.2 i - y i| ≤ Spec.length (Spec.vec x A.shape.2 - y) := by
    rw [← Real.sqrt_sq_eq_abs]
    refine Real.sqrt_le_sqrt ?_
    rw [sq]
    exact Finset.single_le_sum (f := fun i => (Spec.vec x A.shape.2 - y) i * (Spec.vec x A.shape.2 - y) i)
      (fun i _ => mul_self_nonneg _) (Finset.mem_univ i)
  have hpos : 0 < σ + 1 / 100000 := by positivity
  have h5 : (0 + 1 / 100000) / (σ + (0 + 1 / 100000)) * Spec.length y ≤ 1 / 100000 := by
    rw [zero_add, div_mul_eq_mul_div, div_le_iff₀ hpos]
    exact mul_le_mul_of_nonneg_left hlen (by norm_num)
  have h6 := abs_nonneg (y i)
  linarith [h4.trans (h3.trans h5)]

end

/-- The matrix of `C85_test_fails`: 20 rows and 5 columns, with `1/4` on the diagonal. -/
noncomputable def quarter : Coo ℝ := ⟨List.replicate 5 (1 / 4), [0, 1, 2, 3, 4], [0, 1, 2, 3, 4], (20, 5)⟩

/-- **C85, tests/test_sparse.py can fail.** For the matrix `quarter`, of the shape in the test, and the right-hand side with entries 1,
the answer of CHOLMOD is off by more than the tolerance of the test in every entry. -/
theorem C85_test_fails (stale : Pattern → ScipyCoo ℝ → ℝ → List ℝ → Py (List ℝ)) (addr : Nat) :
    CooWF quarter ∧ ∃ y : Fin 5 → ℝ,
      ((cooMatrix quarter 20 5)ᵀ * cooMatrix quarter 20 5) *ᵥ y = Spec.vec (List.replicate 5 1) 5 ∧
      ∃ x, (cholmodSolve stale .empty addr quarter (List.replicate 5 1) 0).1 = .ok x ∧ x.length = 5 ∧
        ∀ i, 1 / 100000 + 1 / 100000 * |y i| < |Spec.vec x 5 i - y i| := by
  have hA : CooWF quarter := by unfold CooWF; simp [quarter]
  have hM : (cooMatrix quarter 20 5)ᵀ * cooMatrix quarter 20 5 = (1 / 16 : ℝ) • (1 : Matrix (Fin 5) (Fin 5) ℝ) := by
    have e : ∀ (i : Fin 20) (j : Fin 5), cooMatrix quarter 20 5 i j = if i.1 = j.1 then 1 / 4 else 0 := by
      intro i j
      fin_cases i <;> fin_cases j <;> simp [cooMatrix, entries, quarter]
    ext i j
    rw [mul_apply, Finset.sum_eq_single (⟨i.1, by omega⟩ : Fin 20)]
    · rw [transpose_apply, e, e, Matrix.smul_apply, one_apply]
      by_cases h : i = j
      · subst h; norm_num
      · have : ¬ i.1 = j.1 := fun h' => h (Fin.ext h')
        simp [h, this]
    · intro k _ hk
      have : ¬ k.1 = i.1 := fun h' => hk (Fin.ext h')
      rw [transpose_apply, e, if_neg this, zero_mul]
    · simp
  have hb : Spec.vec (List.replicate 5 (1 : ℝ)) 5 = (1 / 16 : ℝ) • fun _ => (16 : ℝ) := by
    ext i; fin_cases i <;> simp [Spec.vec]
  have hy : ((cooMatrix quarter 20 5)ᵀ * cooMatrix quarter 20 5) *ᵥ (fun _ => (16 : ℝ)) = (1 / 16 : ℝ) • fun _ => (16 : ℝ) := by
    rw [hM, smul_mulVec, one_mulVec]
  refine ⟨hA, fun _ => 16, hy.trans hb.symm, ?_⟩
  obtain ⟨x, h1, h2, h3⟩ := C85_sharp stale hA (cache := .empty) (addr := addr) (fun p h => by simp [PyDict.empty, PyDict.get?] at h)
    (b := List.replicate 5 1) (by simp [quarter]) le_rfl (by norm_num : (0 : ℝ) ≤ 1 / 16) hy hb
  refine ⟨x, h1, h2, fun i => ?_⟩
  have h4 : Spec.vec x 5 i = (1 / 16) / (1 / 16 + (0 + 1 / 100000)) * 16 := congrFun h3 i
  rw [h4]
  change 1 / 100000 + 1 / 100000 * |(16 : ℝ)| < |_ - (16 : ℝ)|
  rw [abs_of_pos (by norm_num : (0 : ℝ) < 16), abs_of_neg (by norm_num)]
  norm_num

/-- A case of the hypotheses of C85: the matrix `[2]`, the residual `-2`, no factorization kept, the eigenvalue 4 and the exact solution 1. -/
example (addr : Nat) : let A : Coo ℝ := ⟨[2], [0], [0], (1, 1)⟩
    CooWF A ∧ CacheFits .empty addr A ∧ A.T.matmul ([-2].map (- ·)) = .ok [4] ∧ StiffAtLeast 4 A ∧ SoftAtMost 4 A ∧
      ((cooMatrix A 1 1)ᵀ * cooMatrix A 1 1) *ᵥ (fun _ => 1) = Spec.vec [4] 1 ∧ Spec.length (fun _ : Fin 1 => (1 : ℝ)) ≤ 4 + 1 / 100000 := by
  have e : cooMatrix (⟨[2], [0], [0], (1, 1)⟩ : Coo ℝ) 1 1 = Matrix.of fun _ _ => 2 := by
    ext i j
    rw [Subsingleton.elim i 0, Subsingleton.elim j 0]
    simp [cooMatrix, entries]
  refine ⟨⟨rfl, rfl, by simp, by simp⟩, fun p h => by simp [PyDict.empty, PyDict.get?] at h, ?_, ?_, ?_, ?_, ?_⟩
  · have : (Coo.T (⟨[2], [0], [0], (1, 1)⟩ : Coo ℝ)).matmul ([-2].map (- ·)) = .ok [0 + 2 * - -2] := rfl
    rw [this]; norm_num
  · intro v
    show 4 * (v ⬝ᵥ v) ≤ (cooMatrix (⟨[2], [0], [0], (1, 1)⟩ : Coo ℝ) 1 1 *ᵥ v) ⬝ᵥ (cooMatrix _ 1 1 *ᵥ v)
    rw [e]; simp [dotProduct, mulVec]; exact le_of_eq (by ring)
  · intro v
    show (cooMatrix (⟨[2], [0], [0], (1, 1)⟩ : Coo ℝ) 1 1 *ᵥ v) ⬝ᵥ (cooMatrix _ 1 1 *ᵥ v) ≤ 4 * (v ⬝ᵥ v)
    rw [e]; simp [dotProduct, mulVec]; exact le_of_eq (by ring)
  · rw [e]
    ext i
    rw [← mulVec_mulVec]
    simp [mulVec, dotProduct, Spec.vec]; norm_num
  · simp [Spec.length, dotProduct]; norm_num

end Jaxfg.Props
