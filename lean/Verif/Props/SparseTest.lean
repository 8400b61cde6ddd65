/- C107: the tests of the linear solvers, tests/test_sparse.py. -/
import Verif.Lemmas.SparseTest
import Mathlib.Data.Fin.VecNotation

namespace Jaxfg.Props
open Matrix Jaxfg Spec

variable {m n : Nat}

/-- If `v · K v ≥ c |v|²` for all `v`, then `c |w| ≤ |K w|`. -/
theorem norm_le_of_coercive (K : Matrix (Fin n) (Fin n) ℝ) {c : ℝ} (hc : 0 ≤ c) (hK : ∀ v, c * (v ⬝ᵥ v) ≤ v ⬝ᵥ (K *ᵥ v)) (w : Fin n → ℝ) :
    c ^ 2 * (w ⬝ᵥ w) ≤ (K *ᵥ w) ⬝ᵥ (K *ᵥ w) := by
  have h0 : 0 ≤ (K *ᵥ w - c • w) ⬝ᵥ (K *ᵥ w - c • w) := Finset.sum_nonneg fun i _ => mul_self_nonneg _
  have h1 : (K *ᵥ w - c • w) ⬝ᵥ (K *ᵥ w - c • w) = (K *ᵥ w) ⬝ᵥ (K *ᵥ w) - 2 * c * (w ⬝ᵥ (K *ᵥ w)) + c ^ 2 * (w ⬝ᵥ w) := by
    simp only [sub_dotProduct, dotProduct_sub, smul_dotProduct, dotProduct_smul, smul_eq_mul, dotProduct_comm (K *ᵥ w) w]
    ring
  have h2 := mul_le_mul_of_nonneg_left (hK w) hc
  nlinarith

/-- A component is at most as large as the vector. -/
theorem abs_le_of_dotProduct (v : Fin n → ℝ) {c : ℝ} (hc : 0 ≤ c) (h : v ⬝ᵥ v ≤ c ^ 2) (i : Fin n) : |v i| ≤ c := by
  refine abs_le_of_sq_le_sq (le_trans ?_ h) hc
  rw [pow_two]
  exact Finset.single_le_sum (f := fun i => v i * v i) (fun i _ => mul_self_nonneg _) (Finset.mem_univ i)

/-- **C107, CHOLMOD, exactly.** For every drawn matrix of full column rank and every drawn vector, the test with a CHOLMOD solver that
has not been used before passes if and only if the solution `x` of `AᵀA x = ATb` satisfies `|w i| ≤ 1 + |x i|` for all `i`, where `w`
solves `(AᵀA + 0.00001) w = x`. Otherwise its assertion fails. -/
theorem C107_cholmod (stale : Pattern → ScipyCoo ℝ → ℝ → List ℝ → Py (List ℝ)) (cache : CholmodCache) (addr : Nat)
    (hfresh : cache.get? addr = none) (A : Matrix (Fin m) (Fin n) ℝ) (hA : ∀ v, A *ᵥ v = 0 → v = 0) (b x w : Fin n → ℝ)
    (hx : (Aᵀ * A) *ᵥ x = b) (hw : (Aᵀ * A) *ᵥ w + (1e-5 : ℝ) • w = x) :
    let test := (sparseTestSolvers stale cache addr).map fun solve => sparseTest solve A b
    (test[0]? = some (.ok ()) ↔ ∀ i, |w i| ≤ 1 + |x i|) ∧ (test[0]? = some (.ok ()) ∨ test[0]? = some (.error .assertion)) := by
  intro test
  obtain ⟨z, hz, hzl, hzu⟩ := SparseTest.cholmod_shape stale cache addr hfresh (SparseTest.coo A) (SparseTest.coo_wf A)
    (SparseTest.coo_shape A) (List.ofFn b) (by simp)
  rw [SparseTest.cooMatrix_coo] at hzu
  have hb : vec (List.ofFn b) n = b := vec_ofVec b
  rw [hb] at hzu
  have hz' : x - (1e-5 : ℝ) • w = vec z n := by
    apply hzu
    rw [mulVec_sub, mulVec_smul, hx]
    have h2 : (Aᵀ * A) *ᵥ w = x - (1e-5 : ℝ) • w := by rw [← hw]; simp
    rw [h2]
    funext i
    simp only [Pi.add_apply, Pi.sub_apply, Pi.smul_apply, smul_eq_mul]
    ring
  have hd : ∀ i, (|vec z n i - x i| ≤ (1e-5 : ℝ) + 1e-5 * |x i|) ↔ |w i| ≤ 1 + |x i| := by
    intro i
    rw [← hz']
    have : (x - (1e-5 : ℝ) • w) i - x i = -(1e-5 * w i) := by simp
    rw [this, abs_neg, abs_mul, abs_of_pos (by norm_num : (0 : ℝ) < 1e-5)]
    constructor <;> intro h <;> linarith
  have key := SparseTest.test_ok_iff (solve := fun A ATb => (cholmodSolve stale cache addr A ATb 0).1) (b := b) hz hzl hA hx
  simp only [hd] at key
  have ht : test[0]? = some (sparseTest (fun A ATb => (cholmodSolve stale cache addr A ATb 0).1) A b) := rfl
  rw [ht]
  simpa using key

/-- **C107, all solvers.** If `|A v|² ≥ sigma |v|²` for all `v`, the drawn vector is no longer than `1000 sigma`, and the solution is no
longer than `sigma + 0.00001`, then the tests pass with all three solvers. The conjugate gradient solvers do not need the last
condition. -/
theorem C107_passes (stale : Pattern → ScipyCoo ℝ → ℝ → List ℝ → Py (List ℝ)) (cache : CholmodCache) (addr : Nat)
    (hfresh : cache.get? addr = none) (A : Matrix (Fin m) (Fin n) ℝ) (sigma : ℝ) (hs : 0 < sigma)
    (hA : ∀ v, sigma * (v ⬝ᵥ v) ≤ (A *ᵥ v) ⬝ᵥ (A *ᵥ v)) (b x : Fin n → ℝ) (hx : (Aᵀ * A) *ᵥ x = b)
    (hb : b ⬝ᵥ b ≤ (1000 * sigma) ^ 2) :
    let test := (sparseTestSolvers stale cache addr).map fun solve => sparseTest solve A b
    (x ⬝ᵥ x ≤ (sigma + 1e-5) ^ 2 → test[0]? = some (.ok ())) ∧ test[1]? = some (.ok ()) ∧ test[2]? = some (.ok ()) := by
  intro test
  have hker : ∀ v, A *ᵥ v = 0 → v = 0 := by
    intro v hv
    have h := hA v
    rw [hv, zero_dotProduct] at h
    have h0 : 0 ≤ v ⬝ᵥ v := Finset.sum_nonneg fun i _ => mul_self_nonneg _
    exact dotProduct_self_eq_zero.1 (le_antisymm (by nlinarith) h0)
  have hH : ∀ v, (A *ᵥ v) ⬝ᵥ (A *ᵥ v) = v ⬝ᵥ ((Aᵀ * A) *ᵥ v) := by
    intro v
    rw [dotProduct_mulVec, ← mulVec_transpose, mulVec_mulVec, dotProduct_comm]
  have hG : ∀ v, sigma * (v ⬝ᵥ v) ≤ v ⬝ᵥ ((Aᵀ * A) *ᵥ v) := fun v => by rw [← hH]; exact hA v
  have hcg : ∀ tol : ℝ, tol = 1e-8 → sparseTest (fun A ATb => cgSolve A ATb 0 tol) A b = .ok () := by
    intro tol htol
    obtain ⟨z, hz, hzl, hzr⟩ := SparseTest.cg_shape (SparseTest.coo A) (SparseTest.coo_wf A) (SparseTest.coo_nodup A)
      (SparseTest.coo_shape A) (List.ofFn b) (by simp) tol (by rw [SparseTest.cooMatrix_coo]; exact hker)
    have hb' : vec (List.ofFn b) n = b := vec_ofVec b
    rw [SparseTest.cooMatrix_coo, hb', htol] at hzr
    refine (SparseTest.test_ok_iff hz hzl hker hx).1.2 fun i => ?_
    have h1 : (Aᵀ * A) *ᵥ (x - vec z n) = b - (Aᵀ * A) *ᵥ vec z n := by rw [mulVec_sub, hx]
    have h2 := norm_le_of_coercive _ hs.le hG (x - vec z n)
    rw [h1] at h2
    have h3 : (x - vec z n) ⬝ᵥ (x - vec z n) ≤ (1e-5 : ℝ) ^ 2 := by
      have h4 : sigma ^ 2 * ((x - vec z n) ⬝ᵥ (x - vec z n)) ≤ sigma ^ 2 * (1e-5 : ℝ) ^ 2 := by
        calc _ ≤ _ := h2
          _ ≤ _ := hzr
          _ ≤ (1e-8 : ℝ) ^ 2 * (1000 * sigma) ^ 2 := by gcongr
          _ = _ := by ring
      exact le_of_mul_le_mul_left h4 (by positivity)
    have h5 := abs_le_of_dotProduct _ (by norm_num : (0 : ℝ) ≤ 1e-5) h3 i
    rw [abs_sub_comm]
    have h6 : (0 : ℝ) ≤ 1e-5 * |x i| := by positivity
    have h7 : |x i - vec z n i| ≤ 1e-5 := h5
    linarith
  refine ⟨fun hxs => ?_, ?_, ?_⟩
  · set K : Matrix (Fin n) (Fin n) ℝ := Aᵀ * A + (1e-5 : ℝ) • (1 : Matrix (Fin n) (Fin n) ℝ) with hK
    have hKv : ∀ v, K *ᵥ v = (Aᵀ * A) *ᵥ v + (1e-5 : ℝ) • v := fun v => by rw [hK, add_mulVec, smul_mulVec, one_mulVec]
    have hKc : ∀ v, (sigma + 1e-5) * (v ⬝ᵥ v) ≤ v ⬝ᵥ (K *ᵥ v) := by
      intro v
      rw [hKv, dotProduct_add, dotProduct_smul, smul_eq_mul]
      have := hG v
      linarith
    have hdet : K.det ≠ 0 := by
      intro h0
      obtain ⟨v, hv, hv0⟩ := Matrix.exists_mulVec_eq_zero_iff.2 h0
      refine hv (dotProduct_self_eq_zero.1 (le_antisymm ?_ (Finset.sum_nonneg fun i _ => mul_self_nonneg _)))
      have := hKc v
      rw [hv0, dotProduct_zero] at this
      nlinarith
    have hw : K *ᵥ (K⁻¹ *ᵥ x) = x := by rw [mulVec_mulVec, mul_nonsing_inv _ (isUnit_iff_ne_zero.2 hdet), one_mulVec]
    refine (C107_cholmod stale cache addr hfresh A hker b x (K⁻¹ *ᵥ x) hx (by rw [← hKv]; exact hw)).1.2 fun i => ?_
    have h1 := norm_le_of_coercive K (by positivity) hKc (K⁻¹ *ᵥ x)
    rw [hw] at h1
    have h2 : (K⁻¹ *ᵥ x) ⬝ᵥ (K⁻¹ *ᵥ x) ≤ (1 : ℝ) ^ 2 := by
      have : (sigma + 1e-5) ^ 2 * ((K⁻¹ *ᵥ x) ⬝ᵥ (K⁻¹ *ᵥ x)) ≤ (sigma + 1e-5) ^ 2 * (1 : ℝ) ^ 2 := by
        rw [one_pow, mul_one]; exact h1.trans hxs
      exact le_of_mul_le_mul_left this (by positivity)
    have h3 := abs_le_of_dotProduct _ zero_le_one h2 i
    have h4 := abs_nonneg (x i)
    linarith
  · exact congrArg some (hcg _ rfl)
  · exact congrArg some (hcg _ (by unfold inexactTolerance; norm_num))

/-- **C107, singular draws.** If the columns of the drawn matrix are linearly dependent, for instance if a column has only zeros, the
test fails with every solver: if the solver returns, `onp.linalg.solve` raises. -/
theorem C107_singular (solve : Coo ℝ → List ℝ → Py (List ℝ)) (A : Matrix (Fin m) (Fin n) ℝ) (v : Fin n → ℝ) (hv : v ≠ 0)
    (hA : A *ᵥ v = 0) (b : Fin n → ℝ) :
    sparseTest solve A b ≠ .ok () ∧ ∀ x, solve (Coo.fromScipy (.ofDense A)) (List.ofFn b) = .ok x → sparseTest solve A b = .error .value := by
  have hdet : (Aᵀ * A).det = 0 := Matrix.exists_mulVec_eq_zero_iff.1 ⟨v, hv, by rw [← mulVec_mulVec, hA, mulVec_zero]⟩
  unfold sparseTest
  cases hs : solve (Coo.fromScipy (.ofDense A)) (List.ofFn b) with
  | error e => exact ⟨fun h => (nomatch h), fun x h => (nomatch h)⟩
  | ok x =>
    simp only [if_pos hdet]
    exact ⟨fun h => (nomatch h), fun _ _ => rfl⟩

/-- A draw of the tests: a 20 × 5 matrix with `c` on the diagonal. -/
noncomputable def diagDraw (c : ℝ) : Matrix (Fin 20) (Fin 5) ℝ := fun i j => if i = Fin.castLE (by norm_num) j then c else 0

theorem diagDraw_gram (c : ℝ) (v : Fin 5 → ℝ) : ((diagDraw c)ᵀ * diagDraw c) *ᵥ v = (c ^ 2) • v := by
  have : (diagDraw c)ᵀ * diagDraw c = (c ^ 2) • (1 : Matrix (Fin 5) (Fin 5) ℝ) := by
    funext i j
    simp only [mul_apply, transpose_apply, diagDraw, ite_mul, zero_mul, Finset.sum_ite_eq', Finset.mem_univ, if_true, Matrix.smul_apply,
      one_apply, smul_eq_mul, Fin.castLE_inj, mul_ite, mul_one, mul_zero, pow_two, eq_comm]
  rw [this, smul_mulVec, one_mulVec]

theorem diagDraw_norm (c : ℝ) (v : Fin 5 → ℝ) : (diagDraw c *ᵥ v) ⬝ᵥ (diagDraw c *ᵥ v) = c ^ 2 * (v ⬝ᵥ v) := by
  rw [dotProduct_mulVec, ← mulVec_transpose, mulVec_mulVec, diagDraw_gram, smul_dotProduct, smul_eq_mul]

example (stale : Pattern → ScipyCoo ℝ → ℝ → List ℝ → Py (List ℝ)) :
    sparseTest (fun A ATb => (cholmodSolve stale .empty 0 A ATb 0).1) (diagDraw 1) ![1, 0, 0, 0, 0] = .ok () := by
  refine Option.some.inj ((C107_passes stale .empty 0 rfl (diagDraw 1) 1 one_pos (fun v => by rw [diagDraw_norm]; simp)
    ![1, 0, 0, 0, 0] ![1, 0, 0, 0, 0] (by rw [diagDraw_gram]; simp) ?_).1 ?_)
  · norm_num [dotProduct, Fin.sum_univ_succ]
  · norm_num [dotProduct, Fin.sum_univ_succ]

/-- **C107, draws that fail.** The tests do not pass for all draws with a well defined answer: for the matrix `diagDraw 0.1` of full column
rank and the vector `(1, 0, 0, 0, 0)`, the assertion fails with CHOLMOD, because it solves `(AᵀA + 0.00001) x = ATb` although
`lambd` is zero; the conjugate gradient solvers pass. -/
theorem C107_regularized (stale : Pattern → ScipyCoo ℝ → ℝ → List ℝ → Py (List ℝ)) (cache : CholmodCache) (addr : Nat)
    (hfresh : cache.get? addr = none) :
    (sparseTestSolvers stale cache addr).map (fun solve => sparseTest solve (diagDraw (1 / 10)) ![1, 0, 0, 0, 0]) =
      [.error .assertion, .ok (), .ok ()] := by
  have hx : ((diagDraw (1 / 10))ᵀ * diagDraw (1 / 10)) *ᵥ ![100, 0, 0, 0, 0] = ![1, 0, 0, 0, 0] := by
    rw [diagDraw_gram]
    funext i; fin_cases i <;> norm_num
  have hH : ∀ v, (diagDraw (1 / 10) *ᵥ v) ⬝ᵥ (diagDraw (1 / 10) *ᵥ v) = 1 / 100 * (v ⬝ᵥ v) := by
    intro v
    rw [diagDraw_norm]
    norm_num
  have hker : ∀ v, (diagDraw (1 / 10)) *ᵥ v = 0 → v = 0 := by
    intro v hv
    have h := hH v
    rw [hv, zero_dotProduct] at h
    exact dotProduct_self_eq_zero.1 (by linarith)
  obtain ⟨-, h1, h2⟩ := C107_passes stale cache addr hfresh (diagDraw (1 / 10)) (1 / 100) (by norm_num) (fun v => (hH v).ge) ![1, 0, 0, 0, 0]
    ![100, 0, 0, 0, 0] hx (by simp [dotProduct, Fin.sum_univ_succ]; norm_num)
  have h0 := C107_cholmod stale cache addr hfresh (diagDraw (1 / 10)) hker ![1, 0, 0, 0, 0] ![100, 0, 0, 0, 0] ![10000000 / 1001, 0, 0, 0, 0] hx (by
    rw [diagDraw_gram]
    funext i; fin_cases i <;> norm_num)
  simp only [sparseTestSolvers, List.map_cons, List.map_nil, List.getElem?_cons_zero, List.getElem?_cons_succ, Option.some.injEq] at h0 h1 h2 ⊢
  rw [h1, h2]
  rcases h0.2 with h | h
  · have := h0.1.1 h 0
    norm_num [abs_of_pos] at this
  · rw [h]

end Jaxfg.Props
