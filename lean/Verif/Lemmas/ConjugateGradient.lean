/- Conjugate gradients with a preconditioner in exact arithmetic: orthogonality and finite termination. -/
import Mathlib.LinearAlgebra.Matrix.PosDef
import Mathlib.LinearAlgebra.Dimension.Finite
import Mathlib.LinearAlgebra.FiniteDimensional.Basic
import Mathlib.LinearAlgebra.Dimension.Constructions
import Mathlib.Analysis.Matrix.PosDef
import Mathlib.Data.Real.Basic

namespace Jaxfg.CG
open Matrix

variable {n : Nat}

/-- State of the iteration, as vectors. -/
structure St (n : Nat) where
  x : Fin n → ℝ
  r : Fin n → ℝ
  gamma : ℝ
  p : Fin n → ℝ

/-- One iteration. -/
noncomputable def step (H M : Matrix (Fin n) (Fin n) ℝ) (s : St n) : St n :=
  let alpha := s.gamma / (s.p ⬝ᵥ (H *ᵥ s.p))
  let r' := s.r - alpha • (H *ᵥ s.p)
  let z := M *ᵥ r'
  let gamma' := r' ⬝ᵥ z
  ⟨s.x + alpha • s.p, r', gamma', z + (gamma' / s.gamma) • s.p⟩

/-- The states of the iteration. -/
noncomputable def seq (H M : Matrix (Fin n) (Fin n) ℝ) (s0 : St n) : Nat → St n
  | 0 => s0
  | k + 1 => step H M (seq H M s0 k)

variable {H M : Matrix (Fin n) (Fin n) ℝ} {s0 : St n}

/-- Symmetric matrices can be moved across the dot product. -/
theorem dot_comm_of_symm (h : Hᵀ = H) (u v : Fin n → ℝ) : u ⬝ᵥ (H *ᵥ v) = v ⬝ᵥ (H *ᵥ u) := by
  rw [dotProduct_mulVec, ← mulVec_transpose, h, dotProduct_comm]

/-- Positive definite matrices with real entries, without conjugation. -/
def PD (H : Matrix (Fin n) (Fin n) ℝ) : Prop := ∀ v : Fin n → ℝ, v ≠ 0 → 0 < v ⬝ᵥ (H *ᵥ v)

/-- The initial state for the zero start vector. -/
noncomputable def start (M : Matrix (Fin n) (Fin n) ℝ) (b : Fin n → ℝ) : St n := ⟨0, b, b ⬝ᵥ (M *ᵥ b), M *ᵥ b⟩

theorem gamma_eq (b : Fin n → ℝ) (k : Nat) :
    (seq H M (start M b) k).gamma = (seq H M (start M b) k).r ⬝ᵥ (M *ᵥ (seq H M (start M b) k).r) := by
  cases k <;> rfl

theorem residual_eq (b : Fin n → ℝ) (k : Nat) :
    (seq H M (start M b) k).r = b - H *ᵥ (seq H M (start M b) k).x := by
  induction k with
  | zero => simp [seq, start]
  | succ k ih =>
    simp only [seq, step]
    rw [ih, mulVec_add, mulVec_smul]
    abel

/-- Orthogonality relations of state `k` with the earlier ones. -/
def Ortho (H M : Matrix (Fin n) (Fin n) ℝ) (s : Nat → St n) (k : Nat) : Prop :=
  (∀ j < k, (s k).r ⬝ᵥ (M *ᵥ (s j).r) = 0) ∧ (∀ j < k, (s k).p ⬝ᵥ (H *ᵥ (s j).p) = 0) ∧
    (∀ j < k, (s k).r ⬝ᵥ (s j).p = 0) ∧ (s k).r ⬝ᵥ (s k).p = (s k).gamma

/-- No step divides by zero before the residual has vanished. -/
def Proper (H M : Matrix (Fin n) (Fin n) ℝ) (b : Fin n → ℝ) : Prop :=
  ∀ k, (seq H M (start M b) k).r ⬝ᵥ (seq H M (start M b) k).p ≠ 0 →
    (seq H M (start M b) k).p ⬝ᵥ (H *ᵥ (seq H M (start M b) k).p) ≠ 0

theorem PD.proper (hHp : PD H) (b : Fin n → ℝ) : Proper H M b := by
  intro k hk h0
  by_cases hp : (seq H M (start M b) k).p = 0
  · rw [hp, dotProduct_zero] at hk; exact hk rfl
  · exact (hHp _ hp).ne' h0

/-- Systems with a solution are proper, also if the matrix is only semidefinite. -/
theorem proper_of_consistent (hH : Hᵀ = H) (hps : ∀ v, v ⬝ᵥ (H *ᵥ v) = 0 → H *ᵥ v = 0) (w : Fin n → ℝ) : Proper H M (H *ᵥ w) := by
  intro k hk h0
  apply hk
  rw [residual_eq, ← mulVec_sub, dotProduct_comm, dot_comm_of_symm hH, hps _ h0, dotProduct_zero]

/-- The relations hold as long as no residual has vanished. -/
theorem ortho (hH : Hᵀ = H) (hM : Mᵀ = M) (b : Fin n → ℝ) (hHp : Proper H M b) (k : Nat)
    (hne : ∀ j < k, (seq H M (start M b) j).gamma ≠ 0) : ∀ i ≤ k, Ortho H M (seq H M (start M b)) i := by
  set s := seq H M (start M b) with hs
  have hsucc : ∀ j, s (j + 1) = step H M (s j) := fun j => rfl
  induction k with
  | zero =>
    intro i hi
    have : i = 0 := by omega
    subst this
    exact ⟨by simp, by simp, by simp, rfl⟩
  | succ k ih =>
    have ih := ih fun j hj => hne j (by omega)
    intro i hi
    rcases Nat.lt_or_ge i (k + 1) with hlt | hge
    · exact ih i (by omega)
    have : i = k + 1 := by omega
    subst this
    obtain ⟨-, h2, h3, h4⟩ := ih k le_rfl
    -- p_j . H p_j is not zero
    have hpp : ∀ j ≤ k, (s j).p ⬝ᵥ (H *ᵥ (s j).p) ≠ 0 := by
      intro j hj h0
      have hrp := (ih j hj).2.2.2
      exact hHp j (by rw [hrp]; exact hne j (by omega)) h0
    set α : Nat → ℝ := fun j => (s j).gamma / ((s j).p ⬝ᵥ (H *ᵥ (s j).p)) with hα
    have hr : ∀ j, (s (j + 1)).r = (s j).r - α j • (H *ᵥ (s j).p) := fun j => rfl
    have hp : ∀ j, (s (j + 1)).p = M *ᵥ (s (j + 1)).r + ((s (j + 1)).gamma / (s j).gamma) • (s j).p := fun j => rfl
    have hα0 : ∀ j ≤ k, α j ≠ 0 := fun j hj => div_ne_zero (hne j (by omega)) (hpp j hj)
    have hgam : ∀ j, (s j).gamma = (s j).r ⬝ᵥ (M *ᵥ (s j).r) := gamma_eq b
    -- new residual against old directions
    have e3 : ∀ j < k + 1, (s (k + 1)).r ⬝ᵥ (s j).p = 0 := by
      intro j hj
      rw [hr, sub_dotProduct, smul_dotProduct, dotProduct_comm (H *ᵥ (s k).p)]
      rcases Nat.lt_or_ge j k with hlt | hge
      · rw [h3 j hlt, dot_comm_of_symm hH, h2 j hlt]; simp
      · have : j = k := by omega
        subst this
        rw [h4, hα, smul_eq_mul, div_mul_cancel₀ _ (hpp j le_rfl), sub_self]
    -- new residual against old preconditioned residuals
    have e1 : ∀ j < k + 1, (s (k + 1)).r ⬝ᵥ (M *ᵥ (s j).r) = 0 := by
      intro j hj
      cases j with
      | zero => exact e3 0 hj
      | succ j =>
        have hz : M *ᵥ (s (j + 1)).r = (s (j + 1)).p - ((s (j + 1)).gamma / (s j).gamma) • (s j).p := by rw [hp]; abel
        rw [hz, dotProduct_sub, dotProduct_smul, e3 _ hj, e3 j (by omega)]; simp
    -- old directions are conjugate to the new one
    have hHp' : ∀ j ≤ k, H *ᵥ (s j).p = (α j)⁻¹ • ((s j).r - (s (j + 1)).r) := by
      intro j hj
      rw [hr, sub_sub_cancel, smul_smul, inv_mul_cancel₀ (hα0 j hj), one_smul]
    have hsym : ∀ u v : Fin n → ℝ, (M *ᵥ u) ⬝ᵥ v = u ⬝ᵥ (M *ᵥ v) := by
      intro u v
      rw [dotProduct_comm, dot_comm_of_symm hM]
    have e2 : ∀ j < k + 1, (s (k + 1)).p ⬝ᵥ (H *ᵥ (s j).p) = 0 := by
      intro j hj
      rw [hp, add_dotProduct, smul_dotProduct]
      have hz : (M *ᵥ (s (k + 1)).r) ⬝ᵥ (H *ᵥ (s j).p) = (α j)⁻¹ * ((s (k + 1)).r ⬝ᵥ (M *ᵥ (s j).r) - (s (k + 1)).r ⬝ᵥ (M *ᵥ (s (j + 1)).r)) := by
        rw [hHp' j (by omega), dotProduct_smul, dotProduct_sub, hsym, hsym, smul_eq_mul]
      rw [hz, e1 j hj]
      rcases Nat.lt_or_ge j k with hlt | hge
      · rw [e1 (j + 1) (by omega), h2 j hlt]; simp
      · have : j = k := by omega
        subst this
        rw [← hgam, hα]
        have h1 := hpp j le_rfl
        have h2' := hne j (by omega)
        simp only [smul_eq_mul]
        field_simp
        ring
    refine ⟨e1, e2, e3, ?_⟩
    rw [hp, dotProduct_add, dotProduct_smul, e3 k (by omega), ← hgam]
    simp

/-- Within `n` iterations some residual vanishes. -/
theorem exists_zero (hH : Hᵀ = H) (hM : Mᵀ = M) (hMp : PD M) (b : Fin n → ℝ) (hHp : Proper H M b) :
    ∃ k ≤ n, (seq H M (start M b) k).r = 0 := by
  by_contra hcon
  push Not at hcon
  set s := seq H M (start M b) with hs
  have hg : ∀ j ≤ n, (s j).r ⬝ᵥ (M *ᵥ (s j).r) ≠ 0 := fun j hj => (hMp _ (hcon j hj)).ne'
  have hne : ∀ j < n + 1, (s j).gamma ≠ 0 := fun j hj => by rw [hs, gamma_eq]; exact hg j (by omega)
  have ho := ortho hH hM b hHp n fun j hj => hne j (by omega)
  have hoff : ∀ i j : Fin (n + 1), i ≠ j → (s i).r ⬝ᵥ (M *ᵥ (s j).r) = 0 := by
    intro i j hij
    rcases Nat.lt_or_ge j.1 i.1 with h | h
    · exact (ho i (by omega)).1 j h
    · have h' : i.1 < j.1 := lt_of_le_of_ne h fun h => hij (Fin.ext h)
      rw [dot_comm_of_symm hM]
      exact (ho j (by omega)).1 i h'
  have hli : LinearIndependent ℝ fun i : Fin (n + 1) => (s i).r := by
    rw [Fintype.linearIndependent_iff]
    intro c hc i
    have h1 : (∑ j, c j • (s j).r) ⬝ᵥ (M *ᵥ (s i).r) = 0 := by rw [hc, zero_dotProduct]
    rw [sum_dotProduct, Finset.sum_eq_single i] at h1
    · rw [smul_dotProduct, smul_eq_mul] at h1
      exact (mul_eq_zero.1 h1).resolve_right (hg i (by omega))
    · intro j _ hji
      rw [smul_dotProduct, hoff j i hji, smul_zero]
    · simp
  have := hli.fintype_card_le_finrank
  simp at this

end Jaxfg.CG
