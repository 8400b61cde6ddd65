/-
Properties C26-C29: noise models (jaxfg/noises/).
-/
import Verif.Lemmas.Noise
import Mathlib.Topology.Instances.Real.Lemmas
import Mathlib.Topology.Algebra.Ring.Real
import Mathlib.Topology.Order.LiminfLimsup
import Mathlib.Topology.Algebra.Monoid
import Mathlib.Topology.Algebra.GroupWithZero

namespace Jaxfg.Props
open Spec Matrix

theorem noiseMat_quadratic {N : Noise} {n : Nat} (hN : NoiseWF N n n) (hg : NoiseGaussian N) {r : List ℝ} (hr : r.length = n) :
    ∃ w, N.whiten r = .ok w ∧ w.length = n ∧
      sqNorm w = vec r n ⬝ᵥ ((noiseMat N n n).transpose * noiseMat N n n) *ᵥ vec r n := by
  obtain ⟨w, h1, h2, h3⟩ := whiten_gaussian hN hg hr
  refine ⟨w, h1, h2, ?_⟩
  rw [sqNorm_eq h2, h3, ← Matrix.mulVec_mulVec, Matrix.dotProduct_mulVec (vec r n), Matrix.vecMul_transpose]

/-- **C26, full covariance.** `Gaussian.make_from_covariance(S)` with a positive definite `S`: whitening a residual of the
right size succeeds, and the squared norm of the result is the squared Mahalanobis distance `rᵀ S⁻¹ r`. -/
theorem C26_gaussian_mahalanobis (n : Nat) (S : Arr ℝ) (hS : IsMat S n n) (hpos : (arrMat S n n).PosDef) :
    ∃ N, Noise.gaussianFromCovariance S = .ok N ∧ N.residualDim = .ok n ∧ ∀ r : List ℝ, r.length = n →
      ∃ w, N.whiten r = .ok w ∧ w.length = n ∧ sqNorm w = vec r n ⬝ᵥ (arrMat S n n)⁻¹ *ᵥ vec r n := by
  have hc := cholesky_spec hpos
  set L := cholesky (arrMat S n n) with hL
  refine ⟨.gaussian (.ofMat L⁻¹), ?_, rfl, ?_⟩
  · simp only [Noise.gaussianFromCovariance, hS.1, if_true]
    rfl
  · intro r hr
    obtain ⟨w, h1, h2, h3⟩ := noiseMat_quadratic (N := .gaussian (.ofMat L⁻¹)) (isMat_ofMat _) trivial hr
    refine ⟨w, h1, h2, ?_⟩
    rw [h3]
    simp only [noiseMat]
    rw [arrMat_ofMat]
    congr 2
    rw [← hc.mul_self, Matrix.mul_inv_rev, Matrix.transpose_nonsing_inv]

theorem sqrt_inv_sq {x : ℝ} (h : 0 < x) : (1 / Real.sqrt x) * (1 / Real.sqrt x) = x⁻¹ := by
  rw [div_mul_div_comm, Real.mul_self_sqrt h.le, one_mul, one_div]

/-- **C26, diagonal covariance.** The same for `DiagonalGaussian.make_from_covariance(d)` with positive variances: the
squared norm of the whitened residual is the sum of `rᵢ² / dᵢ`. -/
theorem C26_diagonal_mahalanobis (n : Nat) (d : Arr ℝ) (hd : IsVec d n) (hpos : ∀ x ∈ d.data, 0 < x) :
    (Noise.diagonalFromCovariance d).residualDim = .ok n ∧ ∀ r : List ℝ, r.length = n →
      ∃ w, (Noise.diagonalFromCovariance d).whiten r = .ok w ∧ w.length = n ∧
        sqNorm w = ∑ i : Fin n, vec r n i ^ 2 / vec d.data n i := by
  constructor
  · simp [Noise.diagonalFromCovariance, Noise.residualDim, hd.1]
  intro r hr
  have hwf : NoiseWF (Noise.diagonalFromCovariance d) n n := ⟨⟨hd.1, by simpa using hd.2⟩, rfl⟩
  obtain ⟨w, h1, h2, h3⟩ := whiten_gaussian hwf trivial hr
  refine ⟨w, h1, h2, ?_⟩
  rw [sqNorm_eq h2, h3]
  simp only [dotProduct]
  apply Finset.sum_congr rfl
  intro i _
  have hi : i.val < d.data.length := by rw [hd.2]; exact i.2
  have : (noiseMat (Noise.diagonalFromCovariance d) n n *ᵥ vec r n) i = 1 / Real.sqrt (vec d.data n i) * vec r n i := by
    simp only [Matrix.mulVec, dotProduct, noiseMat, Noise.diagonalFromCovariance, ite_mul, zero_mul]
    rw [Finset.sum_eq_single i]
    · rw [if_pos rfl, getD_lt _ (by simpa using hi), List.getElem_map, vec_eq hd.2]
    · intro j _ hj
      rw [if_neg (fun h => hj (Fin.ext h.symm))]
    · simp
  rw [this]
  have hp : 0 < vec d.data n i := by
    rw [vec_eq hd.2]; exact hpos _ (List.getElem_mem _)
  have := sqrt_inv_sq hp
  rw [div_eq_mul_inv (_ ^ 2), ← this]
  ring

/-- A non-square covariance is rejected. -/
theorem C26_not_square_raises (S : Arr ℝ) (h : ∀ n, S.shape ≠ [n, n]) : Noise.gaussianFromCovariance S = .error .assertion := by
  unfold Noise.gaussianFromCovariance
  split
  · rename_i m n he
    rw [if_neg]
    rintro rfl
    exact h _ he
  · rfl

/-- A covariance with correlated entries meets the hypotheses of C26. -/
example : IsMat ⟨[2, 2], [2, 1, 1, 2]⟩ 2 2 ∧ (arrMat ⟨[2, 2], [2, 1, 1, 2]⟩ 2 2).PosDef := by
  refine ⟨⟨rfl, rfl⟩, ?_⟩
  have hM : arrMat ⟨[2, 2], [2, 1, 1, 2]⟩ 2 2 = !![2, 1; 1, 2] := by
    funext i j
    fin_cases i <;> fin_cases j <;> simp [arrMat]
  rw [hM]
  apply Matrix.PosDef.of_dotProduct_mulVec_pos
  · ext i j; fin_cases i <;> fin_cases j <;> simp
  · intro x hx
    have h : x 0 ≠ 0 ∨ x 1 ≠ 0 := by
      by_contra hc
      push Not at hc
      exact hx (by funext i; fin_cases i <;> simp [hc.1, hc.2])
    simp [Matrix.mulVec, dotProduct, Fin.sum_univ_two]
    rcases h with h | h <;> have := sq_pos_of_ne_zero h <;> nlinarith [sq_nonneg (x 0 + x 1), sq_nonneg (x 0), sq_nonneg (x 1)]

/-- **C27.** For positive variances, the diagonal model and the full Gaussian built from the diagonal matrix whiten every
residual and every Jacobian identically. -/
theorem C27_diagonal_agrees (n : Nat) (d : Arr ℝ) (hd : IsVec d n) (hpos : ∀ x ∈ d.data, 0 < x) :
    ∃ N, Noise.gaussianFromCovariance (.ofMat (Matrix.diagonal (vec d.data n))) = .ok N ∧
      (∀ r : List ℝ, r.length = n → ∃ w, (Noise.diagonalFromCovariance d).whiten r = .ok w ∧ N.whiten r = .ok w) ∧
      (∀ (J : Arr ℝ) (k : Nat) (r : List ℝ), IsMat J n k → r.length = n →
        ∃ R, (Noise.diagonalFromCovariance d).whitenJacobian J r = .ok R ∧ N.whitenJacobian J r = .ok R) := by
  have hp : ∀ i : Fin n, 0 < vec d.data n i := by
    intro i; rw [vec_eq hd.2]; exact hpos _ (List.getElem_mem _)
  have hc : IsCholesky (Matrix.diagonal (vec d.data n)) (Matrix.diagonal fun i => Real.sqrt (vec d.data n i)) := by
    refine ⟨isLower_diagonal _, ?_, ?_⟩
    · intro i; rw [Matrix.diagonal_apply_eq]; exact Real.sqrt_pos.2 (hp i)
    · rw [Matrix.diagonal_transpose, Matrix.diagonal_mul_diagonal]
      congr 1
      funext i
      exact Real.mul_self_sqrt (hp i).le
  have hch : cholesky (Matrix.diagonal (vec d.data n)) = Matrix.diagonal fun i => Real.sqrt (vec d.data n i) := cholesky_eq hc
  have hinv : (Matrix.diagonal fun i => Real.sqrt (vec d.data n i))⁻¹ =
      Matrix.diagonal fun i => 1 / Real.sqrt (vec d.data n i) := by
    apply Matrix.inv_eq_right_inv
    rw [Matrix.diagonal_mul_diagonal, ← Matrix.diagonal_one]
    congr 1
    funext i
    have := (Real.sqrt_pos.2 (hp i)).ne'
    field_simp
  refine ⟨.gaussian (.ofMat (Matrix.diagonal fun i => 1 / Real.sqrt (vec d.data n i))), ?_, ?_, ?_⟩
  · have := (isMat_ofMat (Matrix.diagonal (vec d.data n))).1
    simp only [Noise.gaussianFromCovariance, this, if_true]
    rw [toMat_eq, arrMat_ofMat, hch, hinv]
  all_goals
    have hwf : NoiseWF (Noise.diagonalFromCovariance d) n n := ⟨⟨hd.1, by simpa using hd.2⟩, rfl⟩
    have hwf' : NoiseWF (.gaussian (.ofMat (Matrix.diagonal fun i => 1 / Real.sqrt (vec d.data n i)))) n n := isMat_ofMat _
    have hmat : noiseMat (Noise.diagonalFromCovariance d) n n =
        noiseMat (.gaussian (.ofMat (Matrix.diagonal fun i => 1 / Real.sqrt (vec d.data n i)))) n n := by
      simp only [noiseMat, Noise.diagonalFromCovariance, arrMat_ofMat]
      funext i j
      have hi : i.val < d.data.length := by rw [hd.2]; exact i.2
      by_cases h : i = j
      · subst h
        rw [if_pos rfl, Matrix.diagonal_apply_eq, getD_lt _ (by simpa using hi), List.getElem_map, vec_eq hd.2]
      · rw [if_neg (fun h' => h (Fin.ext h')), Matrix.diagonal_apply_ne _ h]
  · intro r hr
    obtain ⟨w, h1, h2, h3⟩ := whiten_gaussian hwf trivial hr
    obtain ⟨w', h1', h2', h3'⟩ := whiten_gaussian hwf' trivial hr
    refine ⟨w, h1, ?_⟩
    rw [h1', ext_vec h2' h2 (by rw [h3', h3, hmat])]
  · intro J k r hJ hr
    obtain ⟨w, h1, h2, h3⟩ := whitenJacobian_gaussian hwf trivial hJ hr
    obtain ⟨w', h1', h2', h3'⟩ := whitenJacobian_gaussian hwf' trivial hJ hr
    refine ⟨w, h1, ?_⟩
    rw [h1', isMat_ext h2' h2 (by rw [h3', h3, hmat])]

example : IsVec ⟨[3], [1, 2, 5]⟩ 3 ∧ ∀ x ∈ (⟨[3], [1, 2, 5]⟩ : Arr ℝ).data, 0 < x := ⟨⟨rfl, rfl⟩, by simp⟩

/-- **C28.** For models without Huber wrapper, of any (also non-square) shape: if `J δ` is the product of a Jacobian and a
direction, whitening it gives the product of the whitened Jacobian and the direction. -/
theorem C28_whitening_commutes (N : Noise) (n m k : Nat) (hN : NoiseWF N n m) (hg : NoiseGaussian N) (J : Arr ℝ)
    (hJ : IsMat J n k) (δ r : List ℝ) (hδ : δ.length = k) (hr : r.length = m) :
    ∃ u w R, einsumMatVec J δ = .ok u ∧ N.whiten u = .ok w ∧ N.whitenJacobian J r = .ok R ∧ einsumMatVec R δ = .ok w := by
  obtain ⟨u, hu, hul, huv⟩ := einsumMatVec_ok hJ hδ
  obtain ⟨w, hw, hwl, hwv⟩ := whiten_gaussian hN hg hul
  obtain ⟨R, hR, hRm, hRv⟩ := whitenJacobian_gaussian hN hg hJ hr
  obtain ⟨w', hw', hwl', hwv'⟩ := einsumMatVec_ok hRm hδ
  refine ⟨u, w, R, hu, hw, hR, ?_⟩
  rw [hw', ext_vec hwl' hwl]
  rw [hwv', hwv, hRv, huv, Matrix.mulVec_mulVec]

example : NoiseWF (.gaussian ⟨[2, 2], [1, 0, 3, 4]⟩) 2 2 ∧ IsMat ⟨[2, 3], [1, 2, 3, 4, 5, 6]⟩ 2 3 := ⟨⟨rfl, rfl⟩, rfl, rfl⟩

/-- **C29.** Huber whitening with a positive threshold, around any model: residuals whose whitened norm is below the
threshold are unchanged; otherwise the squared norm of the result is `delta` times the whitened norm; the result is the
wrapped result scaled by one factor in (0, 1], so it has the same direction and is never longer. -/
theorem C29_huber_whitening (w : Noise) (δ : ℝ) (hδ : 0 < δ) (r u : List ℝ) (hu : w.whiten r = .ok u) :
    ∃ v, (Noise.huber w ⟨[], [δ]⟩).whiten r = .ok v ∧
      (Real.sqrt (sqNorm u) < δ → v = u) ∧
      (δ ≤ Real.sqrt (sqNorm u) → sqNorm v = δ * Real.sqrt (sqNorm u)) ∧
      sqNorm v ≤ sqNorm u ∧
      ∃ c, 0 < c ∧ c ≤ 1 ∧ v = u.map (· * c) := by
  refine ⟨_, huber_whiten hu, ?_, ?_, ?_, _, huberWeight_pos hδ, huberWeight_le_one hδ, rfl⟩
  · intro h
    have : huberWeight δ (norm2 u) = 1 := if_pos h
    simp [this]
  · intro h
    have h' : δ ≤ norm2 u := h
    have hn : norm2 u ≠ 0 := (lt_of_lt_of_le hδ h').ne'
    show _ = δ * norm2 u
    rw [sqNorm_map_mul, huberWeight, if_neg (not_lt.2 h'), Real.sq_sqrt (div_nonneg hδ.le (norm2_nonneg u)), ← norm2_sq]
    field_simp
  · rw [sqNorm_map_mul]
    have h1 := huberWeight_le_one (n := norm2 u) hδ
    have h2 := (huberWeight_pos (n := norm2 u) hδ).le
    have h3 := sqNorm_nonneg u
    have : huberWeight δ (norm2 u) ^ 2 ≤ 1 := by nlinarith
    nlinarith

/-- **C29, continuity.** For every well-formed model (Gaussian, diagonal, Huber around any of these, nested), whitening is a
continuous function of the residual — in particular across the Huber threshold. -/
theorem C29_whitening_continuous (N : Noise) (n m : Nat) (hN : NoiseWF N n m) : Continuous (whitenVec N n m) := by
  have gauss : ∀ N : Noise, NoiseWF N n m → NoiseGaussian N → Continuous (whitenVec N n m) := by
    intro N hN hg
    have : whitenVec N n m = fun r => (noiseMat N n m).mulVec r := by
      funext r
      obtain ⟨w, h1, _, h3⟩ := whiten_gaussian hN hg (r := List.ofFn r) (by simp)
      rw [whitenVec_of_ok h1, h3]
      congr 1
      exact vec_ofVec r
    rw [this]
    apply continuous_pi
    intro i
    simp only [Matrix.mulVec, dotProduct]
    fun_prop
  induction N with
  | gaussian W => exact gauss _ hN trivial
  | diagonal d => exact gauss _ hN trivial
  | huber w δ ih =>
    obtain ⟨hw, d, rfl, hd⟩ := hN
    have hcw := ih hw
    have : whitenVec (.huber w ⟨[], [d]⟩) n m = fun r i =>
        whitenVec w n m r i * Real.sqrt (d / max (Real.sqrt (∑ i, whitenVec w n m r i * whitenVec w n m r i)) d) := by
      funext r i
      obtain ⟨u, hu, hl⟩ := whiten_ok hw (r := List.ofFn r) (by simp)
      rw [whitenVec_of_ok (huber_whiten hu), whitenVec_of_ok hu, vec_eq (by simpa using hl), List.getElem_map,
        huberWeight_eq hd, vec_eq hl]
      have : norm2 u = Real.sqrt (∑ i, vec u m i * vec u m i) := congrArg Real.sqrt (sqNorm_eq hl)
      rw [this]
    rw [this]
    apply continuous_pi
    intro i
    have hi : ∀ i, Continuous fun r => whitenVec w n m r i := fun i => (continuous_apply i).comp hcw
    apply (hi i).mul
    apply Real.continuous_sqrt.comp
    apply Continuous.div continuous_const
    · exact (Real.continuous_sqrt.comp (continuous_finsetSum _ fun i _ => (hi i).mul (hi i))).max continuous_const
    · intro r
      exact (lt_max_of_lt_right hd).ne'

/-- A Huber-wrapped model with an outlier residual: norm 5, threshold 1. -/
example : (Noise.diagonal ⟨[2], [1, 1]⟩).whiten [3, 4] = .ok [3, 4] ∧ (1 : ℝ) ≤ Real.sqrt (sqNorm [3, 4]) := by
  refine ⟨by simp [Noise.whiten, pyAssert], ?_⟩
  rw [Real.one_le_sqrt]
  norm_num [sqNorm]

example : NoiseWF (.huber (.diagonal ⟨[2], [1, 1]⟩) ⟨[], [1]⟩) 2 2 := ⟨⟨⟨rfl, rfl⟩, rfl⟩, 1, rfl, one_pos⟩

end Jaxfg.Props
