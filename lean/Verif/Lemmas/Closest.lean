/- Linear problems whose measurements do not determine the variables. -/
import Verif.Spec.Closest
import Verif.Lemmas.Accuracy
import Verif.Lemmas.LinearRate
import Verif.Props.Unseen
import Mathlib.Analysis.Normed.Module.FiniteDimension

namespace Jaxfg
open Spec
open Matrix hiding vec

/-! ### Matrices -/

section
variable {m n : Nat} {M : Matrix (Fin m) (Fin n) ℝ} {ρ : Fin m → ℝ}

/-- Every matrix has a least non-zero singular value. -/
theorem exists_seen (M : Matrix (Fin m) (Fin n) ℝ) :
    ∃ σ : ℝ, 0 < σ ∧ ∀ v, σ * ((M *ᵥ v) ⬝ᵥ (M *ᵥ v)) ≤ ((Mᵀ * M) *ᵥ v) ⬝ᵥ ((Mᵀ * M) *ᵥ v) := by
  let f : LinearMap.range M.mulVecLin →ₗ[ℝ] (Fin n → ℝ) := Mᵀ.mulVecLin.comp (LinearMap.range M.mulVecLin).subtype
  have hker : LinearMap.ker f = ⊥ := by
    rw [LinearMap.ker_eq_bot']
    rintro ⟨_, v, rfl⟩ h
    have h0 : (Mᵀ * M) *ᵥ v = 0 := by
      rw [← mulVec_mulVec]; exact h
    have h1 : (M *ᵥ v) ⬝ᵥ (M *ᵥ v) = 0 := by rw [← dot_gram, h0, dotProduct_zero]
    exact Subtype.ext (dotProduct_self_eq_zero.1 h1)
  obtain ⟨K, hK, hf⟩ := f.exists_antilipschitzWith hker
  have hK' : (0 : ℝ) < K := by exact_mod_cast hK
  have sup : ∀ {k : Nat} (x : Fin k → ℝ), ‖x‖ ^ 2 ≤ x ⬝ᵥ x := by
    intro k x
    have h0 := dot_self_nonneg x
    have : ‖x‖ ≤ √(x ⬝ᵥ x) := by
      rw [pi_norm_le_iff_of_nonneg (Real.sqrt_nonneg _)]
      intro i
      rw [Real.norm_eq_abs]
      apply Real.abs_le_sqrt
      rw [sq]
      exact Finset.single_le_sum (f := fun j => x j * x j) (fun j _ => mul_self_nonneg _) (Finset.mem_univ i)
    calc ‖x‖ ^ 2 ≤ √(x ⬝ᵥ x) ^ 2 := pow_le_pow_left₀ (norm_nonneg _) this 2
      _ = x ⬝ᵥ x := Real.sq_sqrt h0
  have sum : ∀ {k : Nat} (x : Fin k → ℝ), x ⬝ᵥ x ≤ k * ‖x‖ ^ 2 := by
    intro k x
    have : ∀ i ∈ Finset.univ, x i * x i ≤ ‖x‖ ^ 2 := by
      intro i _
      have := norm_le_pi_norm x i
      rw [Real.norm_eq_abs] at this
      rw [← sq, ← sq_abs]
      exact pow_le_pow_left₀ (abs_nonneg _) this 2
    have := Finset.sum_le_card_nsmul Finset.univ _ _ this
    simpa [dotProduct] using this
  refine ⟨1 / ((m + 1) * (K : ℝ) ^ 2), by positivity, fun v => ?_⟩
  have h1 := hf.le_mul_dist ⟨M *ᵥ v, v, rfl⟩ 0
  rw [map_zero, dist_zero_right, dist_zero_right] at h1
  have h2 : ‖M *ᵥ v‖ ≤ K * ‖(Mᵀ * M) *ᵥ v‖ := by
    rw [← mulVec_mulVec]; exact h1
  have h3 : ‖M *ᵥ v‖ ^ 2 ≤ K ^ 2 * ‖(Mᵀ * M) *ᵥ v‖ ^ 2 := by
    rw [← mul_pow]; exact pow_le_pow_left₀ (norm_nonneg _) h2 2
  have h4 := sup ((Mᵀ * M) *ᵥ v)
  have h5 := sum (M *ᵥ v)
  rw [one_div, inv_mul_le_iff₀ (by positivity)]
  have h6 : (m : ℝ) * ‖M *ᵥ v‖ ^ 2 ≤ (m + 1) * (K ^ 2 * ‖(Mᵀ * M) *ᵥ v‖ ^ 2) := by
    apply mul_le_mul (by linarith) h3 (by positivity) (by positivity)
  have h7 : (m + 1) * ((K : ℝ) ^ 2 * ‖(Mᵀ * M) *ᵥ v‖ ^ 2) ≤ (m + 1) * ((K : ℝ) ^ 2 * ((Mᵀ * M) *ᵥ v ⬝ᵥ (Mᵀ * M) *ᵥ v)) := by
    gcongr
  linarith

/-- What `MᵀM` reaches is seen. -/
theorem range_stiff {σ : ℝ} (hM : ∀ v, σ * ((M *ᵥ v) ⬝ᵥ (M *ᵥ v)) ≤ ((Mᵀ * M) *ᵥ v) ⬝ᵥ ((Mᵀ * M) *ᵥ v)) (y : Fin n → ℝ) :
    σ * (((Mᵀ * M) *ᵥ y) ⬝ᵥ ((Mᵀ * M) *ᵥ y)) ≤ (M *ᵥ ((Mᵀ * M) *ᵥ y)) ⬝ᵥ (M *ᵥ ((Mᵀ * M) *ᵥ y)) := by
  obtain ⟨x, hx⟩ : ∃ x, x = (Mᵀ * M) *ᵥ y := ⟨_, rfl⟩
  have h1 := hM y
  rw [← hx] at h1 ⊢
  have h2 : x ⬝ᵥ x = (M *ᵥ y) ⬝ᵥ (M *ᵥ x) := by
    conv_lhs => rw [hx]
    rw [dotProduct_comm, dot_gram, ← hx, dotProduct_comm]
  have h3 := dot_sq_le (M *ᵥ y) (M *ᵥ x)
  rw [← h2] at h3
  have n1 := dot_self_nonneg x
  have n2 := dot_self_nonneg (M *ᵥ x)
  have n3 := dot_self_nonneg (M *ᵥ y)
  generalize x ⬝ᵥ x = X at *
  generalize (M *ᵥ y) ⬝ᵥ (M *ᵥ y) = Y at *
  generalize (M *ᵥ x) ⬝ᵥ (M *ᵥ x) = Z at *
  rcases n1.eq_or_lt with h0 | h0
  · rw [← h0]; simpa using n2
  · rcases le_total σ 0 with hs | hs
    · exact (mul_nonpos_of_nonpos_of_nonneg hs n1).trans n2
    · have : σ * X * X ≤ Z * X := by nlinarith [mul_le_mul_of_nonneg_left h3 hs, mul_le_mul_of_nonneg_right h1 n2]
      exact le_of_mul_le_mul_right this h0

/-- The part of a vector that `M` sees. -/
theorem seen_part (M : Matrix (Fin m) (Fin n) ℝ) (z : Fin n → ℝ) : ∃ y, M *ᵥ ((Mᵀ * M) *ᵥ y) = M *ᵥ z := by
  obtain ⟨y, hy⟩ := normal_solution (Mᵀ * M) z
  refine ⟨y, ?_⟩
  have ht : (Mᵀ * M)ᵀ = Mᵀ * M := by rw [transpose_mul, transpose_transpose]
  rw [ht, ← mulVec_mulVec] at hy
  have h0 : (Mᵀ * M) *ᵥ ((Mᵀ * M) *ᵥ y - z) = 0 := by rw [mulVec_sub, hy, sub_self]
  have h1 : (M *ᵥ ((Mᵀ * M) *ᵥ y - z)) ⬝ᵥ (M *ᵥ ((Mᵀ * M) *ᵥ y - z)) = 0 := by rw [← dot_gram, h0, dotProduct_zero]
  have h2 := dotProduct_self_eq_zero.1 h1
  rw [mulVec_sub] at h2
  exact sub_eq_zero.1 h2

/-- What is orthogonal to the kernel is reached by `MᵀM`. -/
theorem range_of_orthogonal {x : Fin n → ℝ} (h : ∀ v, M *ᵥ v = 0 → v ⬝ᵥ x = 0) : ∃ y, x = (Mᵀ * M) *ᵥ y := by
  obtain ⟨y, hy⟩ := seen_part M x
  refine ⟨y, ?_⟩
  have h0 : M *ᵥ (x - (Mᵀ * M) *ᵥ y) = 0 := by rw [mulVec_sub, hy, sub_self]
  have h1 := h _ h0
  have h2 : (x - (Mᵀ * M) *ᵥ y) ⬝ᵥ (Mᵀ * M) *ᵥ y = 0 := by rw [dot_gram, h0, zero_dotProduct]
  have h3 : (x - (Mᵀ * M) *ᵥ y) ⬝ᵥ (x - (Mᵀ * M) *ᵥ y) = 0 := by rw [dotProduct_sub, h1, h2, sub_zero]
  exact sub_eq_zero.1 (dotProduct_self_eq_zero.1 h3)

/-- Cost of `x`. -/
def vcost (M : Matrix (Fin m) (Fin n) ℝ) (ρ : Fin m → ℝ) (x : Fin n → ℝ) : ℝ := (ρ + M *ᵥ x) ⬝ᵥ (ρ + M *ᵥ x)

/-- No cost is lower. -/
def Best (M : Matrix (Fin m) (Fin n) ℝ) (ρ : Fin m → ℝ) (x : Fin n → ℝ) : Prop := ∀ y, vcost M ρ x ≤ vcost M ρ y

theorem vcost_add (x y : Fin n → ℝ) :
    vcost M ρ (x + y) = vcost M ρ x + 2 * (y ⬝ᵥ Mᵀ *ᵥ (ρ + M *ᵥ x)) + (M *ᵥ y) ⬝ᵥ (M *ᵥ y) := by
  unfold vcost
  have h : y ⬝ᵥ Mᵀ *ᵥ (ρ + M *ᵥ x) = (M *ᵥ y) ⬝ᵥ (ρ + M *ᵥ x) := by rw [dotProduct_mulVec, vecMul_transpose]
  rw [h, mulVec_add, ← add_assoc]
  generalize ρ + M *ᵥ x = p
  generalize M *ᵥ y = q
  rw [add_dotProduct, dotProduct_add, dotProduct_add, dotProduct_comm p q]
  ring

theorem vcost_gap {x : Fin n → ℝ} (h : Mᵀ *ᵥ (ρ + M *ᵥ x) = 0) (y : Fin n → ℝ) :
    vcost M ρ y - vcost M ρ x = (M *ᵥ (y - x)) ⬝ᵥ (M *ᵥ (y - x)) := by
  have := vcost_add (M := M) (ρ := ρ) x (y - x)
  rw [add_sub_cancel, h, dotProduct_zero] at this
  rw [this]; ring

theorem best_iff {x : Fin n → ℝ} : Best M ρ x ↔ Mᵀ *ᵥ (ρ + M *ᵥ x) = 0 := by
  constructor
  · intro h
    obtain ⟨z, hz⟩ := normal_solution M (-ρ)
    have hz' : Mᵀ *ᵥ (ρ + M *ᵥ z) = 0 := by rw [mulVec_add, mulVec_mulVec, hz, mulVec_neg, add_neg_cancel]
    have h1 := vcost_gap hz' x
    have h2 := dot_self_nonneg (M *ᵥ (x - z))
    have h3 : (M *ᵥ (x - z)) ⬝ᵥ (M *ᵥ (x - z)) = 0 := by linarith [h z]
    have h4 := dotProduct_self_eq_zero.1 h3
    rw [mulVec_sub] at h4
    rw [sub_eq_zero.1 h4, hz']
  · intro h y
    have h1 := vcost_gap h y
    have h2 := dot_self_nonneg (M *ᵥ (y - x))
    linarith

theorem Best.gap {x : Fin n → ℝ} (h : Best M ρ x) (y : Fin n → ℝ) :
    vcost M ρ y - vcost M ρ x = (M *ᵥ (y - x)) ⬝ᵥ (M *ᵥ (y - x)) := by
  exact vcost_gap (best_iff.1 h) y

/-- Best points differ by what is not seen. -/
theorem Best.unseen {x y : Fin n → ℝ} (h : Best M ρ x) (h' : Best M ρ y) : M *ᵥ (y - x) = 0 := by
  have h1 := h.gap y
  have h2 : vcost M ρ y = vcost M ρ x := le_antisymm (h' x) (h y)
  rw [h2, sub_self] at h1
  exact dotProduct_self_eq_zero.1 h1.symm

theorem Best.move {x v : Fin n → ℝ} (h : Best M ρ x) (hv : M *ᵥ v = 0) : Best M ρ (x + v) := by
  rw [best_iff] at h ⊢
  rw [mulVec_add M, hv, add_zero, h]

/-- There is a best point that differs from `x₀` in a direction that is seen. -/
theorem exists_best (M : Matrix (Fin m) (Fin n) ℝ) (ρ : Fin m → ℝ) (x₀ : Fin n → ℝ) : ∃ y, Best M ρ (x₀ + (Mᵀ * M) *ᵥ y) := by
  obtain ⟨z, hz⟩ := normal_solution M (-(ρ + M *ᵥ x₀))
  obtain ⟨y, hy⟩ := seen_part M z
  refine ⟨y, best_iff.2 ?_⟩
  rw [mulVec_add M, hy, ← add_assoc, mulVec_add, mulVec_mulVec, hz, mulVec_neg, add_neg_cancel]

theorem range_orthogonal {v : Fin n → ℝ} (hv : M *ᵥ v = 0) (y : Fin n → ℝ) : v ⬝ᵥ (Mᵀ * M) *ᵥ y = 0 := by
  rw [dot_gram, hv, zero_dotProduct]

/-- The best point that is closest to `x₀` differs from it in a direction that is seen. -/
theorem Best.closest {x₀ x : Fin n → ℝ} (h : Best M ρ x) (hc : ∀ y, Best M ρ y → (x₀ - x) ⬝ᵥ (x₀ - x) ≤ (x₀ - y) ⬝ᵥ (x₀ - y)) :
    ∃ y, x = x₀ + (Mᵀ * M) *ᵥ y := by
  obtain ⟨y, hy⟩ := exists_best M ρ x₀
  refine ⟨y, ?_⟩
  obtain ⟨v, hv⟩ : ∃ v, v = x - (x₀ + (Mᵀ * M) *ᵥ y) := ⟨_, rfl⟩
  have h0 : M *ᵥ v = 0 := by rw [hv]; exact hy.unseen h
  have h1 := hc _ hy
  have e1 : x₀ - x = -((Mᵀ * M) *ᵥ y + v) := by rw [hv]; abel
  have e2 : x₀ - (x₀ + (Mᵀ * M) *ᵥ y) = -((Mᵀ * M) *ᵥ y) := by abel
  rw [e1, e2, neg_dotProduct_neg, neg_dotProduct_neg, add_dotProduct, dotProduct_add, dotProduct_add, range_orthogonal h0,
    dotProduct_comm _ v, range_orthogonal h0] at h1
  have h2 : v ⬝ᵥ v = 0 := by
    have := dot_self_nonneg v
    linarith
  have h3 := dotProduct_self_eq_zero.1 h2
  rw [h3] at hv
  exact sub_eq_zero.1 hv.symm

/-- Conversely. -/
theorem Best.closest_of_range {x₀ y : Fin n → ℝ} (h : Best M ρ (x₀ + (Mᵀ * M) *ᵥ y)) {z : Fin n → ℝ} (hz : Best M ρ z) :
    (x₀ - (x₀ + (Mᵀ * M) *ᵥ y)) ⬝ᵥ (x₀ - (x₀ + (Mᵀ * M) *ᵥ y)) ≤ (x₀ - z) ⬝ᵥ (x₀ - z) := by
  obtain ⟨v, hv⟩ : ∃ v, v = z - (x₀ + (Mᵀ * M) *ᵥ y) := ⟨_, rfl⟩
  have h0 : M *ᵥ v = 0 := by rw [hv]; exact h.unseen hz
  have e1 : x₀ - z = -((Mᵀ * M) *ᵥ y + v) := by rw [hv]; abel
  have e2 : x₀ - (x₀ + (Mᵀ * M) *ᵥ y) = -((Mᵀ * M) *ᵥ y) := by abel
  rw [e1, e2, neg_dotProduct_neg, neg_dotProduct_neg, add_dotProduct, dotProduct_add, dotProduct_add, range_orthogonal h0,
    dotProduct_comm _ v, range_orthogonal h0]
  have := dot_self_nonneg v
  linarith

end

/-! ### Linear graphs -/

section
variable {F : Nat → FactorClass} {C : Ty → VarClass ℝ} {fs : List Factor} {g : Graph}

/-- The graph computes the residual `ρ + M x` of the numbers `x`, and the Jacobian `M`. -/
structure LinearGraph (F : Nat → FactorClass) (C : Ty → VarClass ℝ) (fs : List Factor) (g : Graph)
    (M : Matrix (Fin g.residualDim) (Fin g.localLayout.dim) ℝ) (ρ : Fin g.residualDim → ℝ) : Prop where
  size : ∀ val b, Stores C (Graph.variablesOf fs) val b → b.storage.length = g.localLayout.dim
  residual : ∀ val b w, Stores C (Graph.variablesOf fs) val b → (∀ f ∈ fs, whitenedAt F val f = .ok (w f)) →
    ((evalOrder fs).flatMap w).length = g.residualDim ∧
    vec ((evalOrder fs).flatMap w) g.residualDim = ρ + M *ᵥ vec b.storage g.localLayout.dim
  jacobian : ∀ val a w A, Holds C fs (Graph.variablesOf fs) val a → (∀ f ∈ fs, (w f).length = rdim f) →
    g.computeWhitenedResidualJacobian F C a ((evalOrder fs).flatMap w) = .ok A →
    CooWF A ∧ A.shape = (g.residualDim, g.localLayout.dim) ∧ cooMatrix A g.residualDim g.localLayout.dim = M

theorem linear_graph (hC : GoodClasses C) (hfs : ∀ f ∈ fs, FactorWF F C f) (hne : fs ≠ [])
    (hgauss : ∀ f ∈ fs, NoiseGaussian f.noise) (haff : ∀ f ∈ fs, AffineFactor F C f)
    (hE : Props.UsesDefaultRetraction C (Graph.variablesOf fs)) (hg : Graph.make C fs = .ok g) :
    ∃ M ρ, LinearGraph F C fs g M ρ := by
  have hA := affine_graph hC hfs hne hgauss haff hg
  obtain ⟨g', hg', hS⟩ := sane_graph (F := F) hC hfs hne
  rw [hg] at hg'; cases hg'
  obtain ⟨g', hg', hG⟩ := graph_ok (F := F) hfs hne
  rw [hg] at hg'; cases hg'
  have hs := variablesOf_spec fs
  have hperm : (evalOrder fs).Perm fs := by unfold evalOrder; exact groupedBy_perm kind fs
  have hlay : ∀ {val b}, Stores C (Graph.variablesOf fs) val b → b.layout = g.layout := fun h => by rw [h.1.layout, hG.layout]
  have hlen : ∀ {w : Factor → List ℝ}, (∀ f ∈ fs, (w f).length = rdim f) → ((evalOrder fs).flatMap w).length = g.residualDim := by
    intro w hw
    rw [hG.residualDim]
    exact length_flatMap_blocks fun f hf => hw f (hperm.mem_iff.1 hf)
  -- Jacobians do not depend on the residual that is passed
  have hjac : ∀ {val a}, Holds C fs (Graph.variablesOf fs) val a → ∃ w A₁, (∀ f ∈ fs, whitenedAt F val f = .ok (w f)) ∧
      (∀ f ∈ fs, (w f).length = rdim f) ∧ g.computeWhitenedResidualJacobian F C a ((evalOrder fs).flatMap w) = .ok A₁ ∧
      ∀ w' A, (∀ f ∈ fs, (w' f).length = rdim f) → g.computeWhitenedResidualJacobian F C a ((evalOrder fs).flatMap w') = .ok A →
        CooWF A ∧ A.shape = (g.residualDim, g.localLayout.dim) ∧
        ∀ x : List ℝ, x.length = g.localLayout.dim → A.matmul x = A₁.matmul x := by
    intro val a hv
    obtain ⟨w, hw⟩ := hv.whitened hC hfs
    have : ∀ f, ∃ R, f ∈ fs →
        ((F f.cls).jacobians f.self (f.vars.map val)).mapM (fun J => f.noise.whitenJacobian J (w f)) = .ok R := by
      intro f
      by_cases hf : f ∈ fs
      · obtain ⟨R, h1, _⟩ := whitenedJacobians_ok (hfs f hf) (hv.valuesFor hC hf) (hw f hf).2
        exact ⟨R, fun _ => h1⟩
      · exact ⟨[], fun h => absurd h hf⟩
    choose R hR using this
    obtain ⟨A₁, j1, -, -, -, -, j2⟩ := jacobian_ok hC hfs hne hG hv (fun f hf => (hw f hf).2) hR
    refine ⟨w, A₁, fun f hf => (hw f hf).1, fun f hf => (hw f hf).2, j1, fun w' A hw' hA' => ?_⟩
    have hR' : ∀ f ∈ fs, ((F f.cls).jacobians f.self (f.vars.map val)).mapM (fun J => f.noise.whitenJacobian J (w' f)) = .ok (R f) := by
      intro f hf
      rw [← hR f hf]
      congr 1
      funext J
      exact whitenJacobian_ignores (hgauss f hf) J ((hw' f hf).trans (hw f hf).2.symm)
    obtain ⟨A₂, k1, k0, k3, -, -, k2⟩ := jacobian_ok hC hfs hne hG hv hw' hR'
    obtain rfl : A₂ = A := Except.ok.inj (k1.symm.trans hA')
    exact ⟨k0, k3, fun x hx => by rw [k2 x hx, j2 x hx]⟩
  -- the residual after a step
  have hstep : ∀ {val a w A₁}, Stores C (Graph.variablesOf fs) val a → (∀ f ∈ fs, whitenedAt F val f = .ok (w f)) →
      g.computeWhitenedResidualJacobian F C a ((evalOrder fs).flatMap w) = .ok A₁ → ∀ {val' b w'},
      Stores C (Graph.variablesOf fs) val' b → (∀ f ∈ fs, whitenedAt F val' f = .ok (w' f)) →
      ∃ d, d.length = g.localLayout.dim ∧ a.storage.length = d.length ∧ b.storage.length = d.length ∧
        (∀ i, b.storage.getD i 0 = a.storage.getD i 0 + d.getD i 0) ∧ ∃ y, A₁.matmul d = .ok y ∧
        ((evalOrder fs).flatMap w').length = ((evalOrder fs).flatMap w).length ∧
        ∀ i, ((evalOrder fs).flatMap w').getD i 0 = y.getD i 0 + ((evalOrder fs).flatMap w).getD i 0 := by
    intro val a w A₁ ha hw hA₁ val' b w' hb hw'
    obtain ⟨d, hd, hr⟩ := Props.retract_reaches hS hE ha.1.isAssignment (hlay ha) hb.1.isAssignment (hlay hb)
    obtain ⟨e1, e2, -, e4⟩ := Props.retract_entries hS hE ha.1.isAssignment (hlay ha) hd hr
    have c1 := Props.cost_ok _ _ hC hne hfs hG (ha.holds hs.2) hw
    have c2 := Props.cost_ok _ _ hC hne hfs hG (hb.holds hs.2) hw'
    obtain ⟨y, y1, y2, y3⟩ := hA a _ _ A₁ d b _ _ ha.1.isAssignment (hlay ha) c1 hA₁ hd hr c2
    exact ⟨d, hd, e1, e2, e4, y, y1, y2, y3⟩
  -- the origin
  obtain ⟨val₀, hval₀⟩ : ∃ val₀ : Var → Value ℝ, val₀ = fun v => (C v.ty).default := ⟨_, rfl⟩
  have hv₀ : ∀ v ∈ Graph.variablesOf fs, IsValueOf (C v.ty) (val₀ v) := fun v _ => by rw [hval₀]; exact ⟨rfl, rfl, (hC v.ty).1⟩
  have ha₀ := stores_exists (C := C) hs.1 hv₀ fun v _ => by rw [hval₀]; rfl
  generalize (⟨(grouped (Graph.variablesOf fs)).flatMap fun v => (val₀ v).flatten, Layout.make C (Graph.variablesOf fs) false⟩ :
    Assign ℝ) = a₀ at ha₀
  obtain ⟨w₀, A₀, hw₀, hl₀, hA₀, hj₀⟩ := hjac (ha₀.holds hs.2)
  obtain ⟨hwf₀, hsh₀, -⟩ := hj₀ w₀ A₀ hl₀ hA₀
  obtain ⟨M, hM⟩ : ∃ M, M = cooMatrix A₀ g.residualDim g.localLayout.dim := ⟨_, rfl⟩
  have hmul : ∀ {A : Coo ℝ}, CooWF A → A.shape = (g.residualDim, g.localLayout.dim) → ∀ {d y}, A.matmul d = .ok y →
      y.length = g.residualDim ∧
      vec y g.residualDim = cooMatrix A g.residualDim g.localLayout.dim *ᵥ vec d g.localLayout.dim := by
    intro A hwf hsh d y hy
    obtain ⟨-, h2, h3⟩ := matmul_vec hwf hy
    rw [hsh] at h2 h3
    exact ⟨h2, h3⟩
  have hsum : ∀ {n : Nat} {x y z : List ℝ}, (∀ i, x.getD i 0 = y.getD i 0 + z.getD i 0) → vec x n = vec y n + vec z n :=
    fun h => by funext i; exact h i
  have hres : ∀ {val b w}, Stores C (Graph.variablesOf fs) val b → (∀ f ∈ fs, whitenedAt F val f = .ok (w f)) →
      b.storage.length = g.localLayout.dim ∧ ((evalOrder fs).flatMap w).length = g.residualDim ∧
      vec ((evalOrder fs).flatMap w) g.residualDim =
        (vec ((evalOrder fs).flatMap w₀) g.residualDim - M *ᵥ vec a₀.storage g.localLayout.dim) +
          M *ᵥ vec b.storage g.localLayout.dim := by
    intro val b w hb hw
    obtain ⟨d, d1, d2, d3, d4, y, y1, y2, y3⟩ := hstep ha₀ hw₀ hA₀ hb hw
    obtain ⟨-, m2⟩ := hmul hwf₀ hsh₀ y1
    rw [← hM] at m2
    refine ⟨d3.trans d1, y2.trans (hlen hl₀), ?_⟩
    rw [hsum y3, hsum d4, m2, mulVec_add]
    abel
  refine ⟨M, _, ⟨fun val b hb => ?_, fun val b w hb hw => (hres hb hw).2, fun val a w' A ha hw' hA' => ?_⟩⟩
  · obtain ⟨w, hw⟩ := (hb.holds hs.2).whitened hC hfs
    exact (hres hb fun f hf => (hw f hf).1).1
  · obtain ⟨w, A₁, hw, hl, hA₁, hj⟩ := hjac ha
    obtain ⟨hwf, hsh, hm⟩ := hj w' A hw' hA'
    refine ⟨hwf, hsh, ?_⟩
    have hst := stores_of_holds hC ha
    -- compare on every vector
    rw [← Matrix.toLin'.injective.eq_iff]
    apply LinearMap.ext
    intro x
    rw [toLin'_apply, toLin'_apply]
    obtain ⟨d, hd⟩ : ∃ d, d = List.ofFn x := ⟨_, rfl⟩
    have hdl : d.length = g.localLayout.dim := by rw [hd, List.length_ofFn]
    have hdv : vec d g.localLayout.dim = x := by
      funext i
      rw [hd, vec_eq (by simp)]
      simp
    obtain ⟨b, b1, b2, b3⟩ := Props.holds_retract hC hG ha (hlay hst) hdl
    obtain ⟨w'', hw''⟩ := b3.whitened hC hfs
    have hbs := stores_of_holds hC b3
    obtain ⟨-, -, r1⟩ := hres hst hw
    obtain ⟨-, -, r2⟩ := hres hbs fun f hf => (hw'' f hf).1
    have c1 := Props.cost_ok _ _ hC hne hfs hG ha hw
    have c2 := Props.cost_ok _ _ hC hne hfs hG b3 fun f hf => (hw'' f hf).1
    obtain ⟨y, y1, y2, y3⟩ := hA a _ _ A₁ d b _ _ hst.1.isAssignment (hlay hst) c1 hA₁ hdl b1 c2
    obtain ⟨e1, e2, -, e4⟩ := Props.retract_entries hS hE hst.1.isAssignment (hlay hst) hdl b1
    rw [← hm d hdl] at y1
    obtain ⟨-, m2⟩ := hmul hwf hsh y1
    rw [hdv] at m2
    rw [hsum y3, m2, hsum e4, hdv, mulVec_add, r1] at r2
    have := add_right_cancel (b := vec ((evalOrder fs).flatMap w₀) g.residualDim - M *ᵥ vec a₀.storage g.localLayout.dim +
      M *ᵥ vec a.storage g.localLayout.dim) (a := cooMatrix A g.residualDim g.localLayout.dim *ᵥ x) (c := M *ᵥ x) (by
        rw [r2]; abel)
    exact this

/-- Every choice of values is stored somewhere. -/
theorem stored (hC : GoodClasses C) {vars : List Var} (hv : ∀ v, v ∈ vars ↔ v ∈ Graph.variablesOf fs) {m : Var → Value ℝ}
    (hm : ∀ v ∈ vars, IsValueOf (C v.ty) (m v)) : ∃ e, Stores C (Graph.variablesOf fs) m e := by
  have hm' : ∀ v ∈ Graph.variablesOf fs, IsValueOf (C v.ty) (m v) := fun v hv' => hm v ((hv v).2 hv')
  exact ⟨_, stores_exists (C := C) (variablesOf_spec fs).1 hm' (fun v hv => by
    obtain ⟨-, h2, h3⟩ := hm' v hv
    rw [flatten_length h3, h2]
    exact (flatten_length (hC v.ty).1).symm)⟩

theorem Stores.unique {ws : List Var} {val : Var → Value ℝ} {a b : Assign ℝ} (ha : Stores C ws val a) (hb : Stores C ws val b) :
    a.storage = b.storage := by rw [ha.1.storage, hb.1.storage]

theorem storage_congr {ws : List Var} {val val' : Var → Value ℝ} {a b : Assign ℝ} (ha : Stores C ws val a) (hb : Stores C ws val' b)
    (h : ∀ v ∈ ws, val' v = val v) : a.storage = b.storage := by
  rw [ha.1.storage, hb.1.storage]
  apply List.flatMap_congr
  intro v hv
  rw [h v ((grouped_perm ws).mem_iff.1 hv)]

namespace LinearGraph
variable {M : Matrix (Fin g.residualDim) (Fin g.localLayout.dim) ℝ} {ρ : Fin g.residualDim → ℝ}

/-- Every vector is stored, as the numbers of some values. -/
theorem reach (h : LinearGraph F C fs g M ρ) (hC : GoodClasses C) (x : Fin g.localLayout.dim → ℝ) :
    ∃ val b, Stores C (Graph.variablesOf fs) val b ∧ vec b.storage g.localLayout.dim = x := by
  have hs := variablesOf_spec fs
  obtain ⟨e, he⟩ := stored (fs := fs) hC (fun v => Iff.rfl) (m := fun v => (C v.ty).default) fun v _ => ⟨rfl, rfl, (hC v.ty).1⟩
  have h1 := h.size _ _ he
  have h2 : e.storage.length = e.layout.dim := he.1.isAssignment.2.2
  rw [he.1.layout] at h2
  have hu : IsAssignmentOf C (Graph.variablesOf fs) ⟨ofVec x, Layout.make C (Graph.variablesOf fs) false⟩ :=
    ⟨hs.1, rfl, (length_ofVec x).trans (h1.symm.trans h2)⟩
  obtain ⟨f, hf⟩ := exists_rep hu
  have hf : Rep C (Graph.variablesOf fs) false f ⟨ofVec x, Layout.make C (Graph.variablesOf fs) false⟩ := hf
  exact ⟨_, _, stores_of_holds (fs := fs) hC ⟨hu, rfl, hs.2, fun v hv => hf.getValue_ok hv⟩, vec_ofVec x⟩

theorem cost (h : LinearGraph F C fs g M ρ) (hC : GoodClasses C) (hfs : ∀ f ∈ fs, FactorWF F C f) {val : Var → Value ℝ} {b : Assign ℝ}
    (hb : Stores C (Graph.variablesOf fs) val b) : HasCost F fs val (vcost M ρ (vec b.storage g.localLayout.dim)) := by
  obtain ⟨w, hw⟩ := (hb.holds (variablesOf_spec fs).2).whitened hC hfs
  refine ⟨w, fun f hf => (hw f hf).1, ?_⟩
  obtain ⟨h1, h2⟩ := h.residual _ _ w hb fun f hf => (hw f hf).1
  have hperm : (evalOrder fs).Perm fs := by unfold evalOrder; exact groupedBy_perm kind fs
  rw [vcost, ← h2, ← sqNorm_eq h1, Props.sqNorm_flatMap, (hperm.map _).sum_eq]

/-- Optima of the problem are best points. -/
theorem optimum (h : LinearGraph F C fs g M ρ) (hC : GoodClasses C) (hfs : ∀ f ∈ fs, FactorWF F C f) {vars : List Var}
    (hv : ∀ v, v ∈ vars ↔ v ∈ Graph.variablesOf fs) {m : Var → Value ℝ} {e : Assign ℝ} (he : Stores C (Graph.variablesOf fs) m e)
    {c : ℝ} : IsOptimum F C fs vars m c ↔
      Best M ρ (vec e.storage g.localLayout.dim) ∧ c = vcost M ρ (vec e.storage g.localLayout.dim) := by
  constructor
  · rintro ⟨-, h2, h3⟩
    obtain rfl := HasCost.unique h2 (h.cost hC hfs he)
    refine ⟨fun y => ?_, rfl⟩
    obtain ⟨val, b, hb, rfl⟩ := h.reach hC y
    exact h3 _ _ (fun v hv' => hb.2 v ((hv v).1 hv')) (h.cost hC hfs hb)
  · rintro ⟨h1, rfl⟩
    refine ⟨fun v hv' => he.2 v ((hv v).1 hv'), h.cost hC hfs he, fun m' c' hm' hc' => ?_⟩
    obtain ⟨e', he'⟩ := stored hC hv hm'
    rw [HasCost.unique hc' (h.cost hC hfs he')]
    exact h1 _

theorem dist (h : LinearGraph F C fs g M ρ) {vars : List Var} (hp : vars.Perm (Graph.variablesOf fs)) {val val' : Var → Value ℝ}
    {a b : Assign ℝ} (ha : Stores C (Graph.variablesOf fs) val a) (hb : Stores C (Graph.variablesOf fs) val' b) :
    sqDist vars val val' = (vec a.storage g.localLayout.dim - vec b.storage g.localLayout.dim) ⬝ᵥ
      (vec a.storage g.localLayout.dim - vec b.storage g.localLayout.dim) := by
  rw [sqDist_perm hp, ← sqDist_storage ha hb, sqNorm_eq (n := g.localLayout.dim) (by simp [h.size _ _ ha, h.size _ _ hb])]
  have : vec (List.zipWith (· - ·) a.storage b.storage) g.localLayout.dim =
      vec a.storage g.localLayout.dim - vec b.storage g.localLayout.dim := by
    funext i
    rw [Pi.sub_apply, vec_eq (by simp [h.size _ _ ha, h.size _ _ hb]), vec_eq (h.size _ _ ha), vec_eq (h.size _ _ hb),
      List.getElem_zipWith]
  rw [this]

theorem change (h : LinearGraph F C fs g M ρ) (hC : GoodClasses C) (hfs : ∀ f ∈ fs, FactorWF F C f) {val val' : Var → Value ℝ}
    {a b : Assign ℝ} (ha : Stores C (Graph.variablesOf fs) val a) (hb : Stores C (Graph.variablesOf fs) val' b) {w w' : Factor → List ℝ}
    (hw : ∀ f ∈ fs, whitenedAt F val f = .ok (w f) ∧ whitenedAt F val' f = .ok (w' f)) :
    (fs.map fun f => sqNorm (List.zipWith (· - ·) (w f) (w' f))).sum =
      (M *ᵥ (vec a.storage g.localLayout.dim - vec b.storage g.localLayout.dim)) ⬝ᵥ
      (M *ᵥ (vec a.storage g.localLayout.dim - vec b.storage g.localLayout.dim)) := by
  have hs := variablesOf_spec fs
  have hlen : ∀ {val : Var → Value ℝ} {a : Assign ℝ} {w : Factor → List ℝ}, Stores C (Graph.variablesOf fs) val a → ∀ f ∈ fs,
      whitenedAt F val f = .ok (w f) → (w f).length = rdim f := by
    intro val a w ha f hf h
    obtain ⟨u, hu⟩ := (ha.holds hs.2).whitened hC hfs
    obtain ⟨h1, h2⟩ := hu f hf
    rw [h] at h1
    rw [Except.ok.inj h1, h2]
  obtain ⟨h1, h2⟩ := h.residual _ _ w ha fun f hf => (hw f hf).1
  obtain ⟨h3, h4⟩ := h.residual _ _ w' hb fun f hf => (hw f hf).2
  have hperm : (evalOrder fs).Perm fs := by unfold evalOrder; exact groupedBy_perm kind fs
  rw [← (hperm.map _).sum_eq, ← Props.sqNorm_flatMap, ← zipWith_flatMap, sqNorm_eq (n := g.residualDim) (by simp [h1, h3])]
  · have : vec (List.zipWith (· - ·) ((evalOrder fs).flatMap w) ((evalOrder fs).flatMap w')) g.residualDim =
        M *ᵥ (vec a.storage g.localLayout.dim - vec b.storage g.localLayout.dim) := by
      have e : vec (List.zipWith (· - ·) ((evalOrder fs).flatMap w) ((evalOrder fs).flatMap w')) g.residualDim =
          vec ((evalOrder fs).flatMap w) g.residualDim - vec ((evalOrder fs).flatMap w') g.residualDim := by
        funext i
        rw [Pi.sub_apply, vec_eq (by simp [h1, h3]), vec_eq h1, vec_eq h3, List.getElem_zipWith]
      rw [e, h2, h4, mulVec_sub]
      abel
    rw [this]
  · intro f hf
    have hf := hperm.mem_iff.1 hf
    rw [hlen ha f hf (hw f hf).1, hlen hb f hf (hw f hf).2]

/-- The measurements determine what they see as well as the eigenvalues of the normal equations say. -/
theorem determines (h : LinearGraph F C fs g M ρ) (hC : GoodClasses C) (hfs : ∀ f ∈ fs, FactorWF F C f) {vars : List Var}
    (hp : vars.Perm (Graph.variablesOf fs)) {σ : ℝ} : DeterminesSeen F C fs vars σ ↔
      ∀ v, σ * ((M *ᵥ v) ⬝ᵥ (M *ᵥ v)) ≤ ((Mᵀ * M) *ᵥ v) ⬝ᵥ ((Mᵀ * M) *ᵥ v) := by
  have hs := variablesOf_spec fs
  have hv : ∀ v, v ∈ vars ↔ v ∈ Graph.variablesOf fs := fun v => hp.mem_iff
  constructor
  · intro hD v
    obtain ⟨val', b, hb, hb0⟩ := h.reach hC 0
    obtain ⟨val, a, ha, ha0⟩ := h.reach hC v
    obtain ⟨w, hw⟩ := (ha.holds hs.2).whitened hC hfs
    obtain ⟨w', hw'⟩ := (hb.holds hs.2).whitened hC hfs
    obtain ⟨val'', k1, k2, k3⟩ := hD val val' w w' (fun u hu => ⟨ha.2 u ((hv u).1 hu), hb.2 u ((hv u).1 hu)⟩)
      fun f hf => ⟨(hw f hf).1, (hw' f hf).1⟩
    obtain ⟨e, he⟩ := stored hC hv k1
    rw [h.change hC hfs ha hb fun f hf => ⟨(hw f hf).1, (hw' f hf).1⟩, h.dist hp ha he, ha0, hb0, sub_zero] at k3
    obtain ⟨-, r1⟩ := h.residual _ _ w' he k2
    obtain ⟨-, r2⟩ := h.residual _ _ w' hb fun f hf => (hw' f hf).1
    rw [r2, hb0, mulVec_zero, add_zero] at r1
    have r3 : M *ᵥ vec e.storage g.localLayout.dim = 0 := by simpa using r1.symm
    obtain ⟨u, hu⟩ : ∃ u, u = v - vec e.storage g.localLayout.dim := ⟨_, rfl⟩
    have hMu : M *ᵥ u = M *ᵥ v := by rw [hu, mulVec_sub, r3, sub_zero]
    rw [← hu] at k3
    have b3 := dot_sq_le u ((Mᵀ * M) *ᵥ v)
    rw [dot_gram, hMu] at b3
    have n1 := dot_self_nonneg (M *ᵥ v)
    have n2 := dot_self_nonneg ((Mᵀ * M) *ᵥ v)
    generalize (M *ᵥ v) ⬝ᵥ (M *ᵥ v) = E at *
    generalize ((Mᵀ * M) *ᵥ v) ⬝ᵥ ((Mᵀ * M) *ᵥ v) = G at *
    generalize u ⬝ᵥ u = N at *
    rcases n1.eq_or_lt with h0 | h0
    · rw [← h0]; simpa using n2
    · rcases le_total σ 0 with hs | hs
      · exact (mul_nonpos_of_nonpos_of_nonneg hs n1).trans n2
      · have : σ * E * E ≤ G * E := by nlinarith [mul_le_mul_of_nonneg_left b3 hs, mul_le_mul_of_nonneg_right k3 n2]
        exact le_of_mul_le_mul_right this h0
  · intro hM val val' w w' hval hw
    obtain ⟨a, ha⟩ := stored hC hv fun v hv' => (hval v hv').1
    obtain ⟨b, hb⟩ := stored hC hv fun v hv' => (hval v hv').2
    obtain ⟨x, hx⟩ : ∃ x, x = vec a.storage g.localLayout.dim := ⟨_, rfl⟩
    obtain ⟨y, hy⟩ := seen_part M (x - vec b.storage g.localLayout.dim)
    obtain ⟨val'', e, he, hee⟩ := h.reach hC (x - (Mᵀ * M) *ᵥ y)
    obtain ⟨w'', hw''⟩ := (he.holds hs.2).whitened hC hfs
    have hch := h.change hC hfs he hb (fun f hf => ⟨(hw'' f hf).1, (hw f hf).2⟩)
    have hz : M *ᵥ (vec e.storage g.localLayout.dim - vec b.storage g.localLayout.dim) = 0 := by
      rw [hee, mulVec_sub, mulVec_sub, hy, mulVec_sub]
      abel
    rw [hz, zero_dotProduct] at hch
    refine ⟨val'', fun v hv' => he.2 v ((hv v).1 hv'), fun f hf => ?_, ?_⟩
    · have hnn : ∀ t ∈ fs.map fun f => sqNorm (List.zipWith (· - ·) (w'' f) (w' f)), 0 ≤ t := by
        intro t ht
        obtain ⟨u, -, rfl⟩ := List.mem_map.1 ht
        exact sqNorm_nonneg _
      have h1 := List.single_le_sum hnn _ (List.mem_map.2 ⟨f, hf, rfl⟩)
      rw [hch] at h1
      have h2 := sqNorm_eq_zero.1 (le_antisymm h1 (sqNorm_nonneg _))
      obtain ⟨u, hu⟩ := (hb.holds hs.2).whitened hC hfs
      have hl : (w'' f).length = (w' f).length := by
        rw [(hw'' f hf).2, ← (hu f hf).2, Except.ok.inj ((hw f hf).2.symm.trans (hu f hf).1)]
      rw [(hw'' f hf).1]
      congr 1
      apply List.ext_getElem hl
      intro i i1 i2
      have : (List.zipWith (· - ·) (w'' f) (w' f))[i]'(by simp [i1, i2]) = 0 := by
        rw [List.getElem_of_eq h2]; simp
      rw [List.getElem_zipWith] at this
      linarith
    · rw [h.change hC hfs ha hb hw, h.dist hp ha he, hee, ← hx, sub_sub_cancel, ← hy]
      exact range_stiff hM y

end LinearGraph

/-- CHOLMOD's steps contract whatever is seen. -/
theorem contracts_of_seen {σ : ℝ} {μ : ℝ → ℝ} {L : LinSolver ℝ} {A : Coo ℝ} (hσ : 0 < σ) (hμ : ∀ l, 0 ≤ l → 0 < μ l)
    (hS : StiffWhereSeen σ A)
    (hL : ∀ b l i x, b.length = A.shape.2 → 0 ≤ l → L A b l i = .ok x → x.length = A.shape.2 ∧
      ((cooMatrix A A.shape.1 A.shape.2)ᵀ * cooMatrix A A.shape.1 A.shape.2 + μ l • (1 : Matrix _ _ ℝ)) *ᵥ vec x A.shape.2 =
        vec b A.shape.2) : Contracts σ μ L A := by
  intro b l i x r hb hl hx hr
  obtain ⟨h1, h2⟩ := hL b l i x hb hl hx
  rw [hr] at h2
  obtain ⟨M, hM⟩ : ∃ M, M = cooMatrix A A.shape.1 A.shape.2 := ⟨_, rfl⟩
  have hS : ∀ v, σ * ((M *ᵥ v) ⬝ᵥ (M *ᵥ v)) ≤ ((Mᵀ * M) *ᵥ v) ⬝ᵥ ((Mᵀ * M) *ᵥ v) := by rw [hM]; exact hS
  rw [← hM] at h2 ⊢
  have hμl := hμ l hl
  have hG : (Mᵀ * M).PosSemidef := by
    have := posSemidef_conjTranspose_mul_self M
    rwa [conjTranspose_eq_transpose_of_trivial] at this
  have hD : (μ l • (1 : Matrix (Fin A.shape.2) (Fin A.shape.2) ℝ)).PosDef := Matrix.PosDef.one.smul hμl
  have hd : SolvesDamped M r (vec x A.shape.2) := ⟨_, hD.posSemidef, PosDef.posSemidef_add hG hD, h2⟩
  refine ⟨h1, hd, damped_contracts hD.posSemidef hσ hμl.le hS (fun v => by
    rw [smul_mulVec, one_mulVec, dotProduct_smul, smul_eq_mul]) h2, ?_⟩
  -- the step is seen
  obtain ⟨y, hy⟩ : ∃ y, vec x A.shape.2 = (Mᵀ * M) *ᵥ y := by
    apply range_of_orthogonal
    intro v hv
    have h3 := congrArg (fun z => v ⬝ᵥ z) h2
    rw [add_mulVec, dotProduct_add, dot_gram, hv, zero_dotProduct, smul_mulVec, one_mulVec, dotProduct_smul, zero_add, smul_eq_mul] at h3
    unfold descent at h3
    rw [dotProduct_mulVec, vecMul_transpose, hv, zero_dotProduct] at h3
    rcases mul_eq_zero.1 h3 with h4 | h4
    · exact absurd h4 hμl.ne'
    · exact h4
  have h4 := range_stiff hS y
  rw [← hy] at h4
  refine h4.trans ?_
  exact damped_seen_le hd

end

end Jaxfg
