/- Facts about tests/test_sparse.py. -/
import Verif.Model.SparseTest
import Verif.Props.CgSolve
import Verif.Props.LinSolve

namespace Jaxfg.SparseTest
open Matrix Jaxfg Spec Props

variable {m n : Nat}

/-- The drawn matrix in sparse form. -/
noncomputable def coo (A : Matrix (Fin m) (Fin n) ℝ) : Coo ℝ := Coo.fromScipy (.ofDense A)

theorem coo_shape (A : Matrix (Fin m) (Fin n) ℝ) : (coo A).shape = (m, n) := rfl

theorem coo_wf (A : Matrix (Fin m) (Fin n) ℝ) : CooWF (coo A) := by
  refine ⟨by simp [coo, Coo.fromScipy, ScipyCoo.ofDense], by simp [coo, Coo.fromScipy, ScipyCoo.ofDense], ?_, ?_⟩
  · intro r hr
    simp only [coo, Coo.fromScipy, ScipyCoo.ofDense, List.mem_map] at hr
    obtain ⟨p, -, rfl⟩ := hr
    exact p.1.2
  · intro r hr
    simp only [coo, Coo.fromScipy, ScipyCoo.ofDense, List.mem_map] at hr
    obtain ⟨p, -, rfl⟩ := hr
    exact p.2.2

theorem coo_nodup (A : Matrix (Fin m) (Fin n) ℝ) : ((coo A).rows.zip (coo A).cols).Nodup := by
  simp only [coo, Coo.fromScipy, ScipyCoo.ofDense, List.zip_map']
  refine List.Nodup.map ?_ (((List.nodup_finRange m).product (List.nodup_finRange n)).filter _)
  rintro ⟨a, b⟩ ⟨c, d⟩ h
  simp only [Prod.mk.injEq] at h ⊢
  exact ⟨Fin.ext h.1, Fin.ext h.2⟩

theorem cooMatrix_coo (A : Matrix (Fin m) (Fin n) ℝ) : cooMatrix (coo A) m n = A := by
  classical
  funext i j
  simp only [cooMatrix, entries, coo, Coo.fromScipy, ScipyCoo.ofDense, List.zip_map', List.filter_map, List.map_map, List.filter_filter]
  have hf : ((List.finRange m ×ˢ List.finRange n).filter fun p : Fin m × Fin n =>
      ((fun e : Nat × Nat × ℝ => decide (e.1 = i.val ∧ e.2.1 = j.val)) ∘ fun p : Fin m × Fin n => (p.1.val, p.2.val, A p.1 p.2)) p &&
        decide (A p.1 p.2 ≠ 0)) = if A i j = 0 then [] else [(i, j)] := by
    have hnd : (List.finRange m ×ˢ List.finRange n).Nodup := (List.nodup_finRange m).product (List.nodup_finRange n)
    have hmem : (i, j) ∈ (List.finRange m ×ˢ List.finRange n) := by simp
    split
    · rename_i h0
      rw [List.filter_eq_nil_iff]
      rintro ⟨a, b⟩ -
      simp only [Function.comp, Bool.and_eq_true, decide_eq_true_eq, not_and, not_not]
      rintro ⟨h1, h2⟩
      rw [Fin.ext h1, Fin.ext h2]
      exact h0
    · rename_i h0
      have : (fun p : Fin m × Fin n =>
        ((fun e : Nat × Nat × ℝ => decide (e.1 = i.val ∧ e.2.1 = j.val)) ∘ fun p : Fin m × Fin n => (p.1.val, p.2.val, A p.1 p.2)) p &&
          decide (A p.1 p.2 ≠ 0)) = fun p => p == (i, j) := by
        funext p
        rw [Bool.eq_iff_iff]
        simp only [Function.comp, Bool.and_eq_true, decide_eq_true_eq, beq_iff_eq, Prod.ext_iff, Fin.ext_iff]
        constructor
        · rintro ⟨h, -⟩; exact h
        · intro h
          refine ⟨h, ?_⟩
          rw [Fin.ext h.1, Fin.ext h.2]; exact h0
      rw [this, List.filter_beq, List.count_eq_one_of_mem hnd hmem]
      rfl
  rw [hf]
  split
  · rename_i h0; simp [h0]
  · simp

/-- `C35_cholmod` for a matrix whose shape is known. -/
theorem cholmod_shape (stale : Pattern → ScipyCoo ℝ → ℝ → List ℝ → Py (List ℝ)) (cache : CholmodCache) (addr : Nat)
    (hfresh : cache.get? addr = none) (C : Coo ℝ) (hC : CooWF C) (hs : C.shape = (m, n)) (b : List ℝ) (hb : b.length = n) :
    ∃ x, (cholmodSolve stale cache addr C b 0).1 = .ok x ∧ x.length = n ∧
      ∀ y, ((cooMatrix C m n)ᵀ * cooMatrix C m n) *ᵥ y + (1e-5 : ℝ) • y = vec b n → y = vec x n := by
  obtain ⟨cv, cr, cc, cs⟩ := C
  cases hs
  obtain ⟨-, z, hz, hzl, -, hzu, -⟩ := C35_cholmod stale cache addr _ hC b hb 0 le_rfl (fun p hp => by rw [hfresh] at hp; cases hp)
  refine ⟨z, hz, hzl, fun y hy => hzu y ?_⟩
  rw [add_mulVec, smul_mulVec, one_mulVec, ← hy]
  norm_num

/-- `C36_conjugate_gradient` for a matrix whose shape is known. -/
theorem cg_shape (C : Coo ℝ) (hC : CooWF C) (hnd : (C.rows.zip C.cols).Nodup) (hs : C.shape = (m, n)) (b : List ℝ) (hb : b.length = n)
    (tol : ℝ) (hrank : ∀ v, cooMatrix C m n *ᵥ v = 0 → v = 0) :
    ∃ x, cgSolve C b 0 tol = .ok x ∧ x.length = n ∧
      (vec b n - ((cooMatrix C m n)ᵀ * cooMatrix C m n) *ᵥ vec x n) ⬝ᵥ (vec b n - ((cooMatrix C m n)ᵀ * cooMatrix C m n) *ᵥ vec x n) ≤
        tol ^ 2 * (vec b n ⬝ᵥ vec b n) := by
  obtain ⟨cv, cr, cc, cs⟩ := C
  cases hs
  obtain ⟨z, hz, hzl, hzr⟩ := C36_conjugate_gradient _ hC hnd b hb 0 le_rfl tol hrank
  rw [zero_smul, add_zero] at hzr
  exact ⟨z, hz, hzl, hzr⟩

/-- The assertion at the end of the test, for an answer of the right length. -/
theorem test_ok_iff {solve : Coo ℝ → List ℝ → Py (List ℝ)} {A : Matrix (Fin m) (Fin n) ℝ} {b : Fin n → ℝ} {x : List ℝ} {y : Fin n → ℝ}
    (hs : solve (coo A) (List.ofFn b) = .ok x) (hx : x.length = n) (hker : ∀ v, A *ᵥ v = 0 → v = 0)
    (hy : (Aᵀ * A) *ᵥ y = b) :
    (sparseTest solve A b = .ok () ↔ ∀ i, |vec x n i - y i| ≤ 1e-5 + 1e-5 * |y i|) ∧
    (sparseTest solve A b = .ok () ∨ sparseTest solve A b = .error .assertion) := by
  have hdet : (Aᵀ * A).det ≠ 0 := by
    intro h0
    obtain ⟨v, hv, hv0⟩ := Matrix.exists_mulVec_eq_zero_iff.2 h0
    refine hv (hker v ?_)
    have h : (A *ᵥ v) ⬝ᵥ (A *ᵥ v) = 0 := by
      rw [dotProduct_mulVec, ← mulVec_transpose, mulVec_mulVec, hv0, zero_dotProduct]
    exact dotProduct_self_eq_zero.1 h
  have hinv : (Aᵀ * A)⁻¹ *ᵥ b = y := by
    rw [← hy, mulVec_mulVec, nonsing_inv_mul _ (isUnit_iff_ne_zero.2 hdet), one_mulVec]
  have hF : List.Forall₂ (fun x y => |x - y| ≤ (1e-5 : ℝ) + 1e-5 * |y|) x (List.ofFn y) ↔
      ∀ i, |vec x n i - y i| ≤ 1e-5 + 1e-5 * |y i| := by
    rw [List.forall₂_iff_get]
    simp only [hx, List.length_ofFn, true_and]
    constructor
    · intro h i
      have := h i.1 i.2 i.2
      rw [vec_eq hx]
      simpa using this
    · intro h i h1 h2
      have := h ⟨i, h1⟩
      rw [vec_eq hx] at this
      simpa using this
  have hrun : sparseTest solve A b =
      @pyAssert (@decide (List.Forall₂ (fun x y => |x - y| ≤ (1e-5 : ℝ) + 1e-5 * |y|) x (List.ofFn y)) (Classical.propDecidable _)) := by
    have hs' : solve (Coo.fromScipy (.ofDense A)) (List.ofFn b) = .ok x := hs
    unfold sparseTest
    rw [hs', hinv]
    simp only [if_neg hdet]
    refine Eq.trans (b := pyAssert (@decide (List.Forall₂ (fun x y => |x - y| ≤ (1e-5 : ℝ) + 1e-5 * |y|) x (List.ofFn y)) _)) rfl ?_
    congr
  rw [hrun, ← hF]
  unfold pyAssert
  constructor
  · by_cases h : List.Forall₂ (fun x y => |x - y| ≤ (1e-5 : ℝ) + 1e-5 * |y|) x (List.ofFn y) <;> simp [h]
  · split
    · exact .inl rfl
    · exact .inr rfl

end Jaxfg.SparseTest
