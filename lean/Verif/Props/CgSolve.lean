/- C36, C64: the conjugate gradient solvers. -/
import Verif.Lemmas.CgSolve
import Mathlib.Analysis.SpecificLimits.Basic

namespace Jaxfg.Props
open Matrix Jaxfg Spec

/-- The value listed at a position, if coordinates do not repeat. -/
theorem sum_squares_of_nodup (L : List (Nat × ℝ)) (h : (L.map (·.1)).Nodup) (m : Nat) (hL : ∀ p ∈ L, p.1 < m) :
    (L.map fun p => p.2 ^ 2).sum = ∑ i : Fin m, (((L.filter fun p => p.1 = i.val).map (·.2)).sum) ^ 2 := by
  induction L with
  | nil => simp
  | cons p L ih =>
    rw [List.map_cons, List.nodup_cons] at h
    have hp : p.1 < m := hL p (by simp)
    rw [List.map_cons, List.sum_cons, ih h.2 fun q hq => hL q (by simp [hq])]
    have hnone : (L.filter fun q => q.1 = p.1) = [] := by
      rw [List.filter_eq_nil_iff]
      intro q hq hqp
      exact h.1 (List.mem_map.2 ⟨q, hq, by simpa using hqp⟩)
    have key : ∀ i : Fin m, (((((p :: L).filter fun p => p.1 = i.val).map (·.2)).sum) ^ 2 : ℝ) =
        (if (⟨p.1, hp⟩ : Fin m) = i then p.2 ^ 2 else 0) + (((L.filter fun p => p.1 = i.val).map (·.2)).sum) ^ 2 := by
      intro i
      by_cases hi : p.1 = i.val
      · have : (⟨p.1, hp⟩ : Fin m) = i := Fin.ext hi
        rw [if_pos this, ← hi, hnone, List.filter_cons, if_pos (by simp), hnone]
        simp
      · have : ¬ (⟨p.1, hp⟩ : Fin m) = i := fun h => hi (congrArg Fin.val h)
        rw [if_neg this, List.filter_cons, if_neg (by simpa using hi)]
        simp
    simp only [key, Finset.sum_add_distrib, Finset.sum_ite_eq, Finset.mem_univ, if_true]

/-- **C36, diagonal.** Without repeated coordinates, the diagonal that regularization and preconditioner use is the diagonal of
`AᵀA`. -/
theorem C36_diagonal (A : Coo ℝ) (hA : CooWF A) (hnd : (A.rows.zip A.cols).Nodup) (j : Fin A.shape.2) :
    vec (ataDiagonals A A.shape.2) A.shape.2 j =
      ((cooMatrix A A.shape.1 A.shape.2)ᵀ * cooMatrix A A.shape.1 A.shape.2) j j := by
  rw [(ataDiagonals_ok hA A.shape.2).2, mul_apply]
  have hL := sum_squares_of_nodup (((entries A).filter fun e => e.2.1 = j.val).map fun e => (e.1, e.2.2)) ?_ A.shape.1 ?_
  · unfold colSquares
    rw [List.map_map] at hL
    have h1 : ((fun p : Nat × ℝ => p.2 ^ 2) ∘ fun e : Nat × Nat × ℝ => (e.1, e.2.2)) = fun e => e.2.2 ^ 2 := rfl
    rw [h1] at hL
    rw [hL]
    refine Finset.sum_congr rfl fun i _ => ?_
    rw [transpose_apply, ← pow_two]
    congr 1
    unfold cooMatrix
    rw [List.filter_map, List.map_map, List.filter_filter]
    have hf : (fun a : Nat × Nat × ℝ => ((fun p : Nat × ℝ => decide (p.1 = i.val)) ∘ fun e : Nat × Nat × ℝ => (e.1, e.2.2)) a &&
        decide (a.2.1 = j.val)) = fun e => decide (e.1 = i.val ∧ e.2.1 = j.val) := by
      funext e; simp
    rw [hf]
    rfl
  · rw [List.map_map]
    have hnd' : ((entries A).map fun e => (e.1, e.2.1)).Nodup := by
      have : ((entries A).map fun e => (e.1, e.2.1)) = A.rows.zip A.cols := by
        unfold entries
        obtain ⟨h1, h2, -, -⟩ := hA
        apply List.ext_getElem
        · simp; omega
        · intro i h3 h4; simp
      rw [this]; exact hnd
    have hf : (((entries A).filter fun e => e.2.1 = j.val).map fun e => (e.1, e.2.1)).Nodup :=
      hnd'.sublist (List.filter_sublist.map _)
    refine List.Nodup.of_map (fun i => (i, j.val)) ?_
    rw [List.map_map]
    have : (((entries A).filter fun e => e.2.1 = j.val).map ((fun i => (i, j.val)) ∘ (fun p : Nat × ℝ => p.1) ∘ fun e : Nat × Nat × ℝ => (e.1, e.2.2))) =
        ((entries A).filter fun e => e.2.1 = j.val).map fun e => (e.1, e.2.1) := by
      apply List.map_congr_left
      intro e he
      simp only [List.mem_filter, decide_eq_true_eq] at he
      simp [he.2]
    rw [this]; exact hf
  · intro p hp
    obtain ⟨e, he, rfl⟩ := List.mem_map.1 hp
    exact (entries_lt hA e (List.mem_of_mem_filter he)).1

/-- **C36, operator and preconditioner.** The function that conjugate gradient is given computes the product with
`AᵀA + lambda D`, the preconditioner divides by `D`, with `D` the diagonal the code computes; both matrices are symmetric, and
positive definite if `A` has full column rank. -/
theorem C36_operator (A : Coo ℝ) (hA : CooWF A) (lambd : ℝ) (hl : 0 ≤ lambd) :
    let n := A.shape.2
    let M := cooMatrix A A.shape.1 n
    let d := vec (ataDiagonals A n) n
    let H := Mᵀ * M + lambd • diagonal d
    let P := diagonal fun j => (d j)⁻¹
    (∀ x : List ℝ, x.length = n → ∃ y, ataFunction A (ataDiagonals A n) lambd x = .ok y ∧ y.length = n ∧ vec y n = H *ᵥ vec x n) ∧
    (∀ x : List ℝ, x.length = n → vec (jacobiPreconditioner (ataDiagonals A n) x) n = P *ᵥ vec x n) ∧
    Hᵀ = H ∧ Pᵀ = P ∧
    ((∀ v, M *ᵥ v = 0 → v = 0) → (∀ v, v ≠ 0 → 0 < v ⬝ᵥ (H *ᵥ v)) ∧ (∀ v, v ≠ 0 → 0 < v ⬝ᵥ (P *ᵥ v)) ∧ ∀ j, 0 < d j) := by
  intro n M d H P
  have hd : d = colSquares A n := (ataDiagonals_ok hA n).2
  have hH : H = cgMatrix A lambd := by simp only [H, hd]; rfl
  have hP : P = cgPreconditioner A := by simp only [P, hd]; rfl
  rw [hH, hP]
  have ho := opsMatch hA lambd
  refine ⟨ho.op, fun x hx => (ho.pre x hx).2, cgMatrix_symm A lambd, cgPreconditioner_symm A, fun hr => ⟨cgMatrix_pd A hl hr,
    cgPreconditioner_pd A hr, fun j => ?_⟩⟩
  rw [hd]
  exact colSquares_pos j hr

/-- **C36, solution, any coordinates.** A matrix may list a coordinate several times. Then the damping is scaled by the sums `d` of the
squares of the listed values, in place of `diag(AᵀA)`, and the solver returns a vector whose residual for
`(AᵀA + lambda diag(d)) x = ATb` is at most `tol |ATb|`. Without damping this is the equation of the normal step. -/
theorem C36_any_coordinates (A : Coo ℝ) (hA : CooWF A) (b : List ℝ) (hb : b.length = A.shape.2)
    (lambd : ℝ) (hl : 0 ≤ lambd) (tol : ℝ) (hrank : ∀ v, cooMatrix A A.shape.1 A.shape.2 *ᵥ v = 0 → v = 0) :
    let n := A.shape.2
    let G := (cooMatrix A A.shape.1 n)ᵀ * cooMatrix A A.shape.1 n
    let H := G + lambd • diagonal fun j : Fin n => (((A.cols.zip A.values).filter fun e => e.1 = j.val).map fun e => e.2 ^ 2).sum
    ∃ x, cgSolve A b lambd tol = .ok x ∧ x.length = n ∧
      (vec b n - H *ᵥ vec x n) ⬝ᵥ (vec b n - H *ᵥ vec x n) ≤ tol ^ 2 * (vec b n ⬝ᵥ vec b n) := by
  intro n G H
  have hH : H = cgMatrix A lambd := by
    have : (fun j : Fin n => (((A.cols.zip A.values).filter fun e => e.1 = j.val).map fun e => e.2 ^ 2).sum) = colSquares A n := by
      funext j
      unfold colSquares
      have he : A.cols.zip A.values = (entries A).map fun e => (e.2.1, e.2.2) := by
        apply List.ext_getElem
        · simp [entries, hA.1, hA.2.1]
        · intro i h1 h2
          simp [entries]
      rw [he, List.filter_map, List.map_map]
      rfl
    simp only [H, this]; rfl
  rw [hH]
  obtain ⟨x, h1, h2, h3⟩ := cg_ok (opsMatch hA lambd) (cgMatrix_symm A lambd) (cgPreconditioner_symm A) (cgMatrix_pd A hl hrank)
    (cgPreconditioner_pd A hrank) hb tol
  refine ⟨x, ?_, h2, h3⟩
  unfold cgSolve
  simp only [hb, List.length_replicate]
  exact h1

/-- A 2 × 2 matrix that lists a coordinate twice. -/
noncomputable def exTwice : Coo ℝ := ⟨[1, 2, 3], [0, 0, 1], [0, 0, 1], (2, 2)⟩

example : CooWF exTwice ∧ ¬(exTwice.rows.zip exTwice.cols).Nodup ∧ (∀ v, cooMatrix exTwice 2 2 *ᵥ v = 0 → v = 0) := by
  refine ⟨?_, by simp [exTwice], ?_⟩
  · simp [CooWF, exTwice]
  · intro v hv
    have h0 := congrFun hv 0
    have h1 := congrFun hv 1
    simp [cooMatrix, entries, exTwice, mulVec, dotProduct, Fin.sum_univ_two] at h0 h1
    ext i
    fin_cases i
    · exact h0.resolve_left (by norm_num)
    · exact h1

/-- **C36, solution.** For a matrix of full column rank without repeated coordinates, in exact arithmetic the solver returns,
within its cap of `n` iterations, a vector whose residual for `(AᵀA + lambda diag(AᵀA)) x = ATb` is at most `tol |ATb|`. -/
theorem C36_conjugate_gradient (A : Coo ℝ) (hA : CooWF A) (hnd : (A.rows.zip A.cols).Nodup) (b : List ℝ) (hb : b.length = A.shape.2)
    (lambd : ℝ) (hl : 0 ≤ lambd) (tol : ℝ) (hrank : ∀ v, cooMatrix A A.shape.1 A.shape.2 *ᵥ v = 0 → v = 0) :
    let n := A.shape.2
    let G := (cooMatrix A A.shape.1 n)ᵀ * cooMatrix A A.shape.1 n
    let H := G + lambd • diagonal fun j => G j j
    ∃ x, cgSolve A b lambd tol = .ok x ∧ x.length = n ∧
      (vec b n - H *ᵥ vec x n) ⬝ᵥ (vec b n - H *ᵥ vec x n) ≤ tol ^ 2 * (vec b n ⬝ᵥ vec b n) := by
  intro n G H
  have hH : H = cgMatrix A lambd := by
    have : (fun j => G j j) = colSquares A n := by
      funext j
      rw [← (ataDiagonals_ok hA n).2]
      exact (C36_diagonal A hA hnd j).symm
    simp only [H, this]; rfl
  rw [hH]
  obtain ⟨x, h1, h2, h3⟩ := cg_ok (opsMatch hA lambd) (cgMatrix_symm A lambd) (cgPreconditioner_symm A) (cgMatrix_pd A hl hrank)
    (cgPreconditioner_pd A hrank) hb tol
  refine ⟨x, ?_, h2, h3⟩
  unfold cgSolve
  simp only [hb, List.length_replicate]
  exact h1

/-- With tolerance zero the answer is exact. -/
theorem C36_exact (A : Coo ℝ) (hA : CooWF A) (hnd : (A.rows.zip A.cols).Nodup) (b : List ℝ) (hb : b.length = A.shape.2)
    (lambd : ℝ) (hl : 0 ≤ lambd) (hrank : ∀ v, cooMatrix A A.shape.1 A.shape.2 *ᵥ v = 0 → v = 0) :
    let n := A.shape.2
    let G := (cooMatrix A A.shape.1 n)ᵀ * cooMatrix A A.shape.1 n
    ∃ x, cgSolve A b lambd 0 = .ok x ∧ x.length = n ∧ (G + lambd • diagonal fun j => G j j) *ᵥ vec x n = vec b n := by
  intro n G
  obtain ⟨x, h1, h2, h3⟩ := C36_conjugate_gradient A hA hnd b hb lambd hl 0 hrank
  refine ⟨x, h1, h2, ?_⟩
  have h0 : (vec b n - (G + lambd • diagonal fun j => G j j) *ᵥ vec x n) = 0 := by
    apply dotProduct_self_eq_zero.1
    refine le_antisymm ?_ (Finset.sum_nonneg fun i _ => mul_self_nonneg _)
    simpa using h3
  exact (sub_eq_zero.1 h0).symm

/-- A 3 × 2 matrix of full column rank. -/
noncomputable def exTall : Coo ℝ := ⟨[1, 2, 3], [0, 1, 2], [0, 1, 1], (3, 2)⟩

example : CooWF exTall ∧ (exTall.rows.zip exTall.cols).Nodup ∧ (∀ v, cooMatrix exTall 3 2 *ᵥ v = 0 → v = 0) := by
  refine ⟨by unfold CooWF exTall; simp, by simp [exTall], ?_⟩
  intro v hv
  have h0 := congrFun hv 0
  have h1 := congrFun hv 1
  simp [exTall, cooMatrix, entries, mulVec, dotProduct, Fin.sum_univ_two] at h0 h1
  funext i
  fin_cases i
  · exact h0
  · exact h1

/-- **C64.** The tolerance of the inexact solver in iteration `k` is `eta / (k + 1)`: positive, strictly decreasing, at most
`eta`, and tending to zero. -/
theorem C64_inexact_tolerance (eta : ℝ) (h : 0 < eta) :
    (∀ k, inexactTolerance eta k = eta / (k + 1)) ∧ (∀ k, 0 < inexactTolerance eta k) ∧ (∀ k, inexactTolerance eta k ≤ eta) ∧
    StrictAnti (inexactTolerance eta) ∧ Filter.Tendsto (inexactTolerance eta) Filter.atTop (nhds 0) := by
  refine ⟨fun _ => rfl, fun k => by unfold inexactTolerance; positivity, fun k => ?_, ?_, ?_⟩
  · unfold inexactTolerance
    exact div_le_self h.le (by linarith [Nat.cast_nonneg (α := ℝ) k])
  · apply strictAnti_nat_of_succ_lt
    intro k
    unfold inexactTolerance
    have : (0 : ℝ) ≤ k := Nat.cast_nonneg k
    push_cast
    apply div_lt_div_of_pos_left h <;> linarith
  · have := (tendsto_one_div_add_atTop_nhds_zero_nat (𝕜 := ℝ)).const_mul eta
    simp only [mul_zero] at this
    refine this.congr fun k => ?_
    unfold inexactTolerance
    ring

/-- So for every matrix as in C36 the relative residuals of the inexact solver tend to zero. -/
theorem C64_inexact_solver (A : Coo ℝ) (hA : CooWF A) (hnd : (A.rows.zip A.cols).Nodup) (b : List ℝ) (hb : b.length = A.shape.2)
    (lambd : ℝ) (hl : 0 ≤ lambd) (hrank : ∀ v, cooMatrix A A.shape.1 A.shape.2 *ᵥ v = 0 → v = 0) (eta : ℝ) (k : Nat) :
    let n := A.shape.2
    let G := (cooMatrix A A.shape.1 n)ᵀ * cooMatrix A A.shape.1 n
    let H := G + lambd • diagonal fun j => G j j
    ∃ x, cgSolve A b lambd (inexactTolerance eta k) = .ok x ∧ x.length = n ∧
      (vec b n - H *ᵥ vec x n) ⬝ᵥ (vec b n - H *ᵥ vec x n) ≤ (eta / (k + 1)) ^ 2 * (vec b n ⬝ᵥ vec b n) :=
  C36_conjugate_gradient A hA hnd b hb lambd hl _ hrank

end Jaxfg.Props
