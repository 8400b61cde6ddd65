/- One damped step on a linear least-squares problem. -/
import Verif.Spec.LinearRate
import Verif.Lemmas.Affine
import Verif.Lemmas.DoglegStep

namespace Jaxfg
open Spec Matrix
variable {m n : Nat}

/-- Cauchy-Schwarz. -/
theorem dot_sq_le (u v : Fin n → ℝ) : (u ⬝ᵥ v) ^ 2 ≤ (u ⬝ᵥ u) * (v ⬝ᵥ v) := by
  have := Finset.sum_mul_sq_le_sq_mul_sq Finset.univ u v
  simpa [dotProduct, sq] using this

theorem dot_gram (M : Matrix (Fin m) (Fin n) ℝ) (u v : Fin n → ℝ) : u ⬝ᵥ (Mᵀ * M) *ᵥ v = (M *ᵥ u) ⬝ᵥ (M *ᵥ v) := by
  rw [← mulVec_mulVec, dotProduct_mulVec, vecMul_transpose]

/-- A symmetric matrix can be moved across a dot product. -/
theorem dot_symm {D : Matrix (Fin n) (Fin n) ℝ} (hD : D.PosSemidef) (u v : Fin n → ℝ) : u ⬝ᵥ D *ᵥ v = (D *ᵥ u) ⬝ᵥ v := by
  have h : Dᵀ = D := by
    have := hD.isHermitian
    rwa [Matrix.IsHermitian, conjTranspose_eq_transpose_of_trivial] at this
  rw [dotProduct_mulVec, ← mulVec_transpose, h]

/-- `D² ≤ μ D` if `0 ≤ D ≤ μ`. -/
theorem psd_sq_le {D : Matrix (Fin n) (Fin n) ℝ} (hD : D.PosSemidef) {μ : ℝ} (hμ : 0 ≤ μ)
    (hle : ∀ v, v ⬝ᵥ D *ᵥ v ≤ μ * (v ⬝ᵥ v)) (w : Fin n → ℝ) : (D *ᵥ w) ⬝ᵥ (D *ᵥ w) ≤ μ * (w ⬝ᵥ D *ᵥ w) := by
  have key : ∀ t : ℝ, 0 ≤ w ⬝ᵥ D *ᵥ w - 2 * t * ((D *ᵥ w) ⬝ᵥ (D *ᵥ w)) + t ^ 2 * (μ * ((D *ᵥ w) ⬝ᵥ (D *ᵥ w))) := by
    intro t
    have h1 : 0 ≤ (w - t • D *ᵥ w) ⬝ᵥ D *ᵥ (w - t • D *ᵥ w) := by simpa using hD.dotProduct_mulVec_nonneg (w - t • D *ᵥ w)
    have h2 : (w - t • D *ᵥ w) ⬝ᵥ D *ᵥ (w - t • D *ᵥ w) =
        w ⬝ᵥ D *ᵥ w - 2 * t * ((D *ᵥ w) ⬝ᵥ (D *ᵥ w)) + t ^ 2 * ((D *ᵥ w) ⬝ᵥ D *ᵥ (D *ᵥ w)) := by
      have e : w ⬝ᵥ D *ᵥ (D *ᵥ w) = (D *ᵥ w) ⬝ᵥ (D *ᵥ w) := dot_symm hD _ _
      simp only [mulVec_sub, mulVec_smul, sub_dotProduct, dotProduct_sub, smul_dotProduct, dotProduct_smul, smul_eq_mul, e]
      ring
    have h3 := hle (D *ᵥ w)
    nlinarith [sq_nonneg t]
  have hww : 0 ≤ w ⬝ᵥ D *ᵥ w := by simpa using hD.dotProduct_mulVec_nonneg w
  rcases hμ.eq_or_lt with h0 | h0
  · have h1 := hle w
    have h2 := key 1
    rw [← h0] at h1 h2 ⊢
    linarith [dot_self_nonneg (D *ᵥ w)]
  · have h1 := key (1 / μ)
    have h2 : μ * (w ⬝ᵥ D *ᵥ w - 2 * (1 / μ) * ((D *ᵥ w) ⬝ᵥ (D *ᵥ w)) + (1 / μ) ^ 2 * (μ * ((D *ᵥ w) ⬝ᵥ (D *ᵥ w)))) =
        μ * (w ⬝ᵥ D *ᵥ w) - (D *ᵥ w) ⬝ᵥ (D *ᵥ w) := by
      field_simp; ring
    have h3 := mul_nonneg h0.le h1
    linarith

/-- The error left by a damped step, in the norm of the problem. -/
theorem error_contracts {M : Matrix (Fin m) (Fin n) ℝ} {D : Matrix (Fin n) (Fin n) ℝ} (hD : D.PosSemidef) {σ μ : ℝ} (hσ : 0 < σ)
    (hμ : 0 ≤ μ) (hM : ∀ v, σ * ((M *ᵥ v) ⬝ᵥ (M *ᵥ v)) ≤ ((Mᵀ * M) *ᵥ v) ⬝ᵥ ((Mᵀ * M) *ᵥ v))
    (hle : ∀ v, v ⬝ᵥ D *ᵥ v ≤ μ * (v ⬝ᵥ v)) {e e' : Fin n → ℝ}
    (h : (Mᵀ * M + D) *ᵥ e' = D *ᵥ e) :
    (σ + μ) ^ 2 * ((M *ᵥ e') ⬝ᵥ (M *ᵥ e')) ≤ μ ^ 2 * ((M *ᵥ e) ⬝ᵥ (M *ᵥ e)) := by
  obtain ⟨w, rfl⟩ : ∃ w, e = e' + w := ⟨e - e', by simp⟩
  have hw : D *ᵥ w = (Mᵀ * M) *ᵥ e' := by
    rw [add_mulVec, mulVec_add, add_comm] at h
    exact (add_left_cancel h).symm
  have b1 : w ⬝ᵥ D *ᵥ w = (M *ᵥ e') ⬝ᵥ (M *ᵥ w) := by rw [hw, dot_gram, dotProduct_comm]
  have b2 := psd_sq_le hD hμ hle w
  rw [hw] at b2
  have b1' : w ⬝ᵥ (Mᵀ * M) *ᵥ e' = (M *ᵥ e') ⬝ᵥ (M *ᵥ w) := by rw [dot_gram, dotProduct_comm]
  rw [b1'] at b2
  have c1 := hM e'
  have b5 := dot_sq_le (M *ᵥ e') (M *ᵥ w)
  have e2 : (M *ᵥ (e' + w)) ⬝ᵥ (M *ᵥ (e' + w)) =
      (M *ᵥ e') ⬝ᵥ (M *ᵥ e') + 2 * ((M *ᵥ e') ⬝ᵥ (M *ᵥ w)) + (M *ᵥ w) ⬝ᵥ (M *ᵥ w) := by
    rw [mulVec_add, add_dotProduct, dotProduct_add, dotProduct_add, dotProduct_comm (M *ᵥ w) (M *ᵥ e')]
    ring
  rw [e2]
  have n1 := dot_self_nonneg (M *ᵥ e')
  have n2 := dot_self_nonneg (M *ᵥ w)
  generalize (M *ᵥ e') ⬝ᵥ (M *ᵥ e') = E at *
  generalize (M *ᵥ e') ⬝ᵥ (M *ᵥ w) = P at *
  generalize (M *ᵥ w) ⬝ᵥ (M *ᵥ w) = W at *
  generalize ((Mᵀ * M) *ᵥ e') ⬝ᵥ ((Mᵀ * M) *ᵥ e') = G at *
  rcases n1.eq_or_lt with h0 | h0
  · have hP : P = 0 := by
      rw [← h0] at b5
      have := sq_nonneg P
      nlinarith
    rw [← h0, hP]
    nlinarith [mul_nonneg (sq_nonneg μ) n2]
  · have c2 : σ * E ≤ μ * P := c1.trans b2
    have c3 : σ ^ 2 * E ≤ μ ^ 2 * W := by
      have s1 : (σ * E) ^ 2 ≤ (μ * P) ^ 2 := pow_le_pow_left₀ (by positivity) c2 2
      have s2 : (μ * P) ^ 2 ≤ μ ^ 2 * (E * W) := by rw [mul_pow]; exact mul_le_mul_of_nonneg_left b5 (sq_nonneg μ)
      have : σ ^ 2 * E * E ≤ μ ^ 2 * W * E := by nlinarith
      exact le_of_mul_le_mul_right this h0
    nlinarith [mul_le_mul_of_nonneg_left c2 hμ]

/-- Every linear least-squares problem has a solution. -/
theorem normal_solution (M : Matrix (Fin m) (Fin n) ℝ) (r : Fin m → ℝ) : ∃ x, (Mᵀ * M) *ᵥ x = Mᵀ *ᵥ r := by
  have hle : LinearMap.range (Mᵀ * M).mulVecLin ≤ LinearMap.range Mᵀ.mulVecLin := by
    rintro _ ⟨x, rfl⟩
    exact ⟨M *ᵥ x, by simp⟩
  have hrank : Module.finrank ℝ (LinearMap.range (Mᵀ * M).mulVecLin) = Module.finrank ℝ (LinearMap.range Mᵀ.mulVecLin) := by
    have := rank_transpose_mul_self M
    rw [← rank_transpose M] at this
    exact this
  have heq := Submodule.eq_of_le_of_finrank_eq hle hrank
  obtain ⟨x, hx⟩ : Mᵀ *ᵥ r ∈ LinearMap.range (Mᵀ * M).mulVecLin := by rw [heq]; exact ⟨r, rfl⟩
  exact ⟨x, hx⟩

/-- If no eigenvalue of `MᵀM` is below `σ`, then no non-zero one is. -/
theorem stiff_seen {M : Matrix (Fin m) (Fin n) ℝ} {σ : ℝ} (hM : ∀ v, σ * (v ⬝ᵥ v) ≤ (M *ᵥ v) ⬝ᵥ (M *ᵥ v)) (v : Fin n → ℝ) :
    σ * ((M *ᵥ v) ⬝ᵥ (M *ᵥ v)) ≤ ((Mᵀ * M) *ᵥ v) ⬝ᵥ ((Mᵀ * M) *ᵥ v) := by
  have b3 := dot_sq_le v ((Mᵀ * M) *ᵥ v)
  rw [dot_gram] at b3
  have b4 := hM v
  have n1 := dot_self_nonneg (M *ᵥ v)
  have n2 := dot_self_nonneg ((Mᵀ * M) *ᵥ v)
  generalize (M *ᵥ v) ⬝ᵥ (M *ᵥ v) = E at *
  generalize ((Mᵀ * M) *ᵥ v) ⬝ᵥ ((Mᵀ * M) *ᵥ v) = G at *
  generalize v ⬝ᵥ v = N at *
  rcases n1.eq_or_lt with h0 | h0
  · rw [← h0]; simpa using n2
  · rcases le_total σ 0 with hs | hs
    · exact (mul_nonpos_of_nonpos_of_nonneg hs n1).trans n2
    · have : σ * E * E ≤ G * E := by nlinarith [mul_le_mul_of_nonneg_left b3 hs, mul_le_mul_of_nonneg_right b4 n2]
      exact le_of_mul_le_mul_right this h0

/-- The cost of a damped step, compared with any other point. -/
theorem damped_contracts {M : Matrix (Fin m) (Fin n) ℝ} {D : Matrix (Fin n) (Fin n) ℝ} (hD : D.PosSemidef) {σ μ : ℝ} (hσ : 0 < σ)
    (hμ : 0 ≤ μ) (hM : ∀ v, σ * ((M *ᵥ v) ⬝ᵥ (M *ᵥ v)) ≤ ((Mᵀ * M) *ᵥ v) ⬝ᵥ ((Mᵀ * M) *ᵥ v))
    (hle : ∀ v, v ⬝ᵥ D *ᵥ v ≤ μ * (v ⬝ᵥ v)) {r : Fin m → ℝ}
    {x : Fin n → ℝ} (hx : (Mᵀ * M + D) *ᵥ x = descent M r) (y : Fin n → ℝ) :
    modelCost M r x - modelCost M r y ≤ (μ / (σ + μ)) ^ 2 * (modelCost M r 0 - modelCost M r y) := by
  obtain ⟨z, hz⟩ : ∃ z, (Mᵀ * M) *ᵥ z = descent M r := normal_solution M (-r)
  have gap : ∀ v, modelCost M r v - modelCost M r z = (M *ᵥ (v - z)) ⬝ᵥ (M *ᵥ (v - z)) := by
    intro v
    rw [modelCost_expand, modelCost_expand, ← hz, dot_gram, dot_gram, mulVec_sub, sub_dotProduct, dotProduct_sub, dotProduct_sub,
      dotProduct_comm (M *ᵥ z) (M *ᵥ v)]
    ring
  have h1 : (Mᵀ * M + D) *ᵥ (x - z) = D *ᵥ (0 - z) := by
    rw [mulVec_sub, hx, add_mulVec, hz, mulVec_sub, mulVec_zero]
    abel
  have h2 := error_contracts hD hσ hμ hM hle h1
  rw [← gap, ← gap] at h2
  have hpos : 0 < σ + μ := by linarith
  have h3 : modelCost M r x - modelCost M r z ≤ (μ / (σ + μ)) ^ 2 * (modelCost M r 0 - modelCost M r z) := by
    rw [div_pow, div_mul_eq_mul_div, le_div_iff₀ (by positivity)]
    linarith
  have h4 : 0 ≤ modelCost M r y - modelCost M r z := by rw [gap]; exact dot_self_nonneg _
  have h5 : (μ / (σ + μ)) ^ 2 ≤ 1 := by
    apply pow_le_one₀ (by positivity)
    rw [div_le_one hpos]; linarith
  nlinarith

/-- Damped normal equations of a full-rank problem are regular. -/
theorem stiff_posDef {M : Matrix (Fin m) (Fin n) ℝ} {D : Matrix (Fin n) (Fin n) ℝ} {σ : ℝ} (hσ : 0 < σ)
    (hM : ∀ v, σ * (v ⬝ᵥ v) ≤ (M *ᵥ v) ⬝ᵥ (M *ᵥ v)) (hD : D.PosSemidef) : (Mᵀ * M + D).PosDef := by
  refine PosDef.add_posSemidef (Matrix.PosDef.of_dotProduct_mulVec_pos ?_ ?_) hD
  · have := (posSemidef_conjTranspose_mul_self M).isHermitian
    rwa [conjTranspose_eq_transpose_of_trivial] at this
  · intro v hv
    rw [star_trivial, dot_gram]
    have := mul_pos hσ (dot_self_pos hv)
    linarith [hM v]

/-- Damped steps change the residual by at most its norm. -/
theorem damped_seen_le {M : Matrix (Fin m) (Fin n) ℝ} {r : Fin m → ℝ} {x : Fin n → ℝ} (h : SolvesDamped M r x) : (M *ᵥ x) ⬝ᵥ (M *ᵥ x) ≤ r ⬝ᵥ r := by
  obtain ⟨D, hD, -, hx⟩ := h
  have h1 : 0 ≤ x ⬝ᵥ D *ᵥ x := by simpa using hD.dotProduct_mulVec_nonneg x
  have h2 : (M *ᵥ x) ⬝ᵥ (M *ᵥ x) + x ⬝ᵥ D *ᵥ x = (M *ᵥ x) ⬝ᵥ (-r) := by
    rw [← dot_gram, ← dotProduct_add, ← add_mulVec, hx]
    unfold descent
    rw [dotProduct_mulVec, vecMul_transpose]
  have h3 := dot_sq_le (M *ᵥ x) (-r)
  have h4 : (-r) ⬝ᵥ (-r) = r ⬝ᵥ r := by simp
  rw [h4] at h3
  have n1 := dot_self_nonneg (M *ᵥ x)
  have n2 := dot_self_nonneg r
  generalize (M *ᵥ x) ⬝ᵥ (M *ᵥ x) = E at *
  generalize (M *ᵥ x) ⬝ᵥ (-r) = P at *
  generalize r ⬝ᵥ r = R at *
  rcases n1.eq_or_lt with h0 | h0
  · rw [← h0]; exact n2
  · have : E * E ≤ E * R := by nlinarith
    exact le_of_mul_le_mul_left this h0

/-- Damped steps are bounded by the residual. -/
theorem damped_norm_le {M : Matrix (Fin m) (Fin n) ℝ} {σ : ℝ} (hM : ∀ v, σ * (v ⬝ᵥ v) ≤ (M *ᵥ v) ⬝ᵥ (M *ᵥ v)) {r : Fin m → ℝ}
    {x : Fin n → ℝ} (h : SolvesDamped M r x) : σ * (x ⬝ᵥ x) ≤ r ⬝ᵥ r :=
  (hM x).trans (damped_seen_le h)

/-- Points of the dogleg path have lower cost than its start. -/
theorem path_descends {M : Matrix (Fin m) (Fin n) ℝ} {r : Fin m → ℝ} {x d : Fin n → ℝ} (h : SolvesDamped M r x) (h0 : descent M r ≠ 0)
    (hd : let a := ((descent M r ⬝ᵥ descent M r) / ((M *ᵥ descent M r) ⬝ᵥ (M *ᵥ descent M r))) • descent M r
      (∃ t : ℝ, 0 < t ∧ t ≤ 1 ∧ d = t • a) ∨ (∃ t : ℝ, 0 ≤ t ∧ t ≤ 1 ∧ d = a + t • (x - a))) : modelCost M r d < r ⬝ᵥ r := by
  have hx := (SolvesDamped.descends h).2 h0
  rcases hd with ⟨t, t0, t1, ht⟩ | ⟨t, t0, t1, ht⟩
  · rw [ht]; exact cauchy_descends h0 t0 t1
  · rw [ht]
    refine lt_of_le_of_lt (modelCost_segment _ _ _ _ t0 t1) ?_
    have hca := cauchy_descends h0 (t := 1) one_pos le_rfl
    rw [one_smul] at hca
    rcases eq_or_lt_of_le t0 with rfl | tpos
    · simpa using hca
    · nlinarith

/-- What the solvers use of the steps that a linear solver returns on a linear problem. -/
def Contracts (σ : ℝ) (μ : ℝ → ℝ) (L : LinSolver ℝ) (A : Coo ℝ) : Prop :=
  ∀ b l i x (r : Fin A.shape.1 → ℝ), b.length = A.shape.2 → 0 ≤ l → L A b l i = .ok x →
    Spec.vec b A.shape.2 = descent (cooMatrix A A.shape.1 A.shape.2) r → x.length = A.shape.2 ∧
    SolvesDamped (cooMatrix A A.shape.1 A.shape.2) r (Spec.vec x A.shape.2) ∧
    (∀ y, modelCost (cooMatrix A A.shape.1 A.shape.2) r (Spec.vec x A.shape.2) - modelCost (cooMatrix A A.shape.1 A.shape.2) r y ≤
      (μ l / (σ + μ l)) ^ 2 * (modelCost (cooMatrix A A.shape.1 A.shape.2) r 0 - modelCost (cooMatrix A A.shape.1 A.shape.2) r y)) ∧
    σ * (Spec.vec x A.shape.2 ⬝ᵥ Spec.vec x A.shape.2) ≤ r ⬝ᵥ r

theorem contracts_of_stiff {σ : ℝ} {μ : ℝ → ℝ} {L : LinSolver ℝ} {A : Coo ℝ} (hσ : 0 < σ) (hμ : ∀ l, 0 ≤ l → 0 ≤ μ l)
    (hS : StiffAtLeast σ A) (hL : DampedUpTo μ L A) : Contracts σ μ L A := by
  intro b l i x r hb hl hx hr
  obtain ⟨h1, D, h2, h3, h4⟩ := hL b l i x hb hl hx
  rw [hr] at h4
  have hd : SolvesDamped (cooMatrix A A.shape.1 A.shape.2) r (Spec.vec x A.shape.2) := ⟨D, h2, stiff_posDef hσ hS h2, h4⟩
  exact ⟨h1, hd, damped_contracts h2 hσ (hμ l hl) (stiff_seen hS) h3 h4, damped_norm_le hS hd⟩

/-- `A @ -x = -(A @ x)` -/
theorem matmul_neg {A : Coo ℝ} (hA : CooWF A) {x y : List ℝ} (h : A.matmul x = .ok y) :
    A.matmul (x.map fun t => -t) = .ok (y.map fun t => -t) := by
  obtain ⟨h1, h2, h3⟩ := matmul_vec hA h
  obtain ⟨z, z1, z2, z3⟩ := matmul_ok hA (x := x.map fun t => -t) (by simpa using h1)
  rw [z1]
  congr 1
  rw [vec_neg_list h1, mulVec_neg, ← h3, ← vec_neg_list h2] at z3
  apply List.ext_getElem (by simp [z2, h2])
  intro i i1 i2
  have := congrFun z3 ⟨i, by omega⟩
  unfold Spec.vec at this
  simp only at this
  rwa [List.getD_eq_getElem _ _ i1, List.getD_eq_getElem _ _ i2] at this

end Jaxfg
