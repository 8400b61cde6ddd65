/- The list program of the conjugate gradient solver computes the vector iteration. -/
import Verif.Lemmas.LinSolve
import Verif.Lemmas.Noise

namespace Jaxfg
open Matrix Spec

variable {n : Nat}

theorem vec_zipWith {op : ℝ → ℝ → ℝ} {a b : List ℝ} (ha : a.length = n) (hb : b.length = n) (i : Fin n) :
    Spec.vec (List.zipWith op a b) n i = op (Spec.vec a n i) (Spec.vec b n i) := by
  rw [vec_eq (by simp [ha, hb]), vec_eq ha, vec_eq hb]
  simp

theorem vec_map {f : ℝ → ℝ} {a : List ℝ} (ha : a.length = n) (i : Fin n) : Spec.vec (a.map f) n i = f (Spec.vec a n i) := by
  rw [vec_eq (by simp [ha]), vec_eq ha]; simp

theorem vdot_eq {a b : List ℝ} (ha : a.length = n) (hb : b.length = n) : vdot a b = Spec.vec a n ⬝ᵥ Spec.vec b n := by
  subst ha
  unfold vdot dotProduct
  induction a generalizing b with
  | nil => simp
  | cons x a ih =>
    cases b with
    | nil => simp at hb
    | cons y b =>
      simp only [List.length_cons, Nat.add_right_cancel_iff] at hb
      rw [List.zipWith_cons_cons, List.sum_cons, ih hb]
      exact (Fin.sum_univ_succ (n := a.length) fun k => Spec.vec (x :: a) (a.length + 1) k * Spec.vec (y :: b) (a.length + 1) k).symm

/-- A list state that represents a vector state. -/
structure CgMatch (s : CgState) (v : CG.St n) : Prop where
  lx : s.x.length = n
  lr : s.r.length = n
  lp : s.p.length = n
  x : Spec.vec s.x n = v.x
  r : Spec.vec s.r n = v.r
  gamma : s.gamma = v.gamma
  p : Spec.vec s.p n = v.p

/-- The operator and the preconditioner compute products with `H` and `M`. -/
structure OpsMatch (op : List ℝ → Py (List ℝ)) (Mf : List ℝ → List ℝ) (H M : Matrix (Fin n) (Fin n) ℝ) : Prop where
  op : ∀ x : List ℝ, x.length = n → ∃ y, op x = .ok y ∧ y.length = n ∧ Spec.vec y n = H *ᵥ Spec.vec x n
  pre : ∀ x : List ℝ, x.length = n → (Mf x).length = n ∧ Spec.vec (Mf x) n = M *ᵥ Spec.vec x n

variable {op : List ℝ → Py (List ℝ)} {Mf : List ℝ → List ℝ} {H M : Matrix (Fin n) (Fin n) ℝ}

theorem cgBody_ok (h : OpsMatch op Mf H M) {s : CgState} {v : CG.St n} (hs : CgMatch s v) :
    ∃ s', cgBody op Mf s = .ok s' ∧ CgMatch s' (CG.step H M v) := by
  obtain ⟨Ap, h1, h2, h3⟩ := h.op s.p hs.lp
  unfold cgBody
  rw [h1]
  simp only [py_bind_ok]
  have hal : s.gamma / vdot s.p Ap = v.gamma / (v.p ⬝ᵥ (H *ᵥ v.p)) := by
    rw [hs.gamma, vdot_eq hs.lp h2, h3, hs.p]
  have hlr : (List.zipWith (· - ·) s.r (Ap.map (s.gamma / vdot s.p Ap * ·))).length = n := by simp [hs.lr, h2]
  have hvr : Spec.vec (List.zipWith (· - ·) s.r (Ap.map (s.gamma / vdot s.p Ap * ·))) n = (CG.step H M v).r := by
    funext i
    rw [vec_zipWith hs.lr (by simp [h2]), vec_map h2, hal, h3, hs.r, hs.p]
    rfl
  obtain ⟨hz1, hz2⟩ := h.pre _ hlr
  have hg : vdot (List.zipWith (· - ·) s.r (Ap.map (s.gamma / vdot s.p Ap * ·)))
      (Mf (List.zipWith (· - ·) s.r (Ap.map (s.gamma / vdot s.p Ap * ·)))) = (CG.step H M v).gamma := by
    rw [vdot_eq hlr hz1, hz2, hvr]; rfl
  refine ⟨_, rfl, by simp [hs.lx, hs.lp], hlr, by simp [hz1, hs.lp], ?_, hvr, hg, ?_⟩
  · funext i
    rw [vec_zipWith hs.lx (by simp [hs.lp]), vec_map hs.lp, hal, hs.x, hs.p]
    rfl
  · funext i
    rw [vec_zipWith hz1 (by simp [hs.lp]), vec_map hs.lp, hz2, hvr, hg, hs.p, hs.gamma]
    rfl

theorem cgLoop_ok (h : OpsMatch op Mf H M) (atol2 : ℝ) (v0 : CG.St n) (j k : Nat) {s : CgState}
    (hs : CgMatch s (CG.seq H M v0 k)) :
    ∃ s' k', cgLoop op Mf atol2 j s = .ok s' ∧ CgMatch s' (CG.seq H M v0 k') ∧ k ≤ k' ∧ k' ≤ k + j ∧
      (∀ i, k ≤ i → i < k' → atol2 < (CG.seq H M v0 i).r ⬝ᵥ (CG.seq H M v0 i).r) ∧
      (k' = k + j ∨ (CG.seq H M v0 k').r ⬝ᵥ (CG.seq H M v0 k').r ≤ atol2) := by
  induction j generalizing k s with
  | zero => exact ⟨s, k, rfl, hs, le_rfl, by omega, by intro i h1 h2; omega, .inl (by omega)⟩
  | succ j ih =>
    unfold cgLoop
    have hd : vdot s.r s.r = (CG.seq H M v0 k).r ⬝ᵥ (CG.seq H M v0 k).r := by rw [vdot_eq hs.lr hs.lr, hs.r]
    by_cases hc : atol2 < vdot s.r s.r
    · rw [if_pos hc]
      obtain ⟨s1, h1, h2⟩ := cgBody_ok h hs
      obtain ⟨s', k', g1, g2, g3, g4, g5, g6⟩ := ih (k + 1) (s := s1) h2
      refine ⟨s', k', by rw [h1, py_bind_ok, g1], g2, by omega, by omega, ?_, ?_⟩
      · intro i hi hi'
        rcases Nat.lt_or_ge i (k + 1) with hlt | hge
        · have : i = k := by omega
          subst this
          rw [← hd]; exact hc
        · exact g5 i hge hi'
      · rcases g6 with g6 | g6
        · exact .inl (by omega)
        · exact .inr g6
    · rw [if_neg hc]
      refine ⟨s, k, rfl, hs, le_rfl, by omega, by intro i h1 h2; omega, .inr ?_⟩
      rw [← hd]; exact not_lt.1 hc

/-- Conjugate gradient with as many iterations as unknowns reaches its tolerance. -/
theorem cg_ok_of (h : OpsMatch op Mf H M) (hH : Hᵀ = H) (hM : Mᵀ = M) (hMp : CG.PD M) {b : List ℝ}
    (hb : b.length = n) (hHp : CG.Proper H M (Spec.vec b n)) (tol : ℝ) :
    ∃ x, cg op b (List.replicate n 0) n tol Mf = .ok x ∧ x.length = n ∧
      (Spec.vec b n - H *ᵥ Spec.vec x n) ⬝ᵥ (Spec.vec b n - H *ᵥ Spec.vec x n) ≤ tol ^ 2 * (Spec.vec b n ⬝ᵥ Spec.vec b n) := by
  have h0 : Spec.vec (List.replicate n (0 : ℝ)) n = 0 := by
    funext i; rw [vec_eq (by simp)]; simp
  obtain ⟨y, h1, h2, h3⟩ := h.op (List.replicate n 0) (by simp)
  rw [h0, mulVec_zero] at h3
  have hlr : (List.zipWith (· - ·) b y).length = n := by simp [hb, h2]
  have hr0 : Spec.vec (List.zipWith (· - ·) b y) n = Spec.vec b n := by
    funext i; rw [vec_zipWith hb h2, h3]; simp
  obtain ⟨hz1, hz2⟩ := h.pre _ hlr
  rw [hr0] at hz2
  have hs : CgMatch ⟨List.replicate n 0, List.zipWith (· - ·) b y, vdot (List.zipWith (· - ·) b y) (Mf (List.zipWith (· - ·) b y)),
      Mf (List.zipWith (· - ·) b y)⟩ (CG.seq H M (CG.start M (Spec.vec b n)) 0) := by
    refine ⟨by simp, hlr, hz1, h0, hr0, ?_, hz2⟩
    rw [vdot_eq hlr hz1, hz2, hr0]; rfl
  have hat : max (tol ^ 2 * vdot b b) 0 = tol ^ 2 * (Spec.vec b n ⬝ᵥ Spec.vec b n) := by
    rw [vdot_eq hb hb]
    apply max_eq_left
    apply mul_nonneg (sq_nonneg _)
    exact Finset.sum_nonneg fun i _ => mul_self_nonneg _
  obtain ⟨s', k', g1, g2, -, g4, g5, g6⟩ := cgLoop_ok h (max (tol ^ 2 * vdot b b) 0) (CG.start M (Spec.vec b n)) n 0 hs
  refine ⟨s'.x, ?_, g2.lx, ?_⟩
  · unfold cg
    simp only [h1, py_bind_ok]
    rw [g1]; rfl
  · rw [g2.x, ← CG.residual_eq, ← hat]
    rcases g6 with g6 | g6
    · obtain ⟨k0, hk0, hz⟩ := CG.exists_zero hH hM hMp (Spec.vec b n) hHp
      rcases Nat.lt_or_ge k0 k' with hlt | hge
      · have := g5 k0 (by omega) hlt
        rw [hz, dotProduct_zero] at this
        exact absurd (le_max_right (tol ^ 2 * vdot b b) 0) (not_le.2 this)
      · have : k0 = k' := by omega
        subst this
        rw [hz, dotProduct_zero]
        exact le_max_right _ _
    · exact g6

theorem cg_ok (h : OpsMatch op Mf H M) (hH : Hᵀ = H) (hM : Mᵀ = M) (hHp : CG.PD H) (hMp : CG.PD M) {b : List ℝ}
    (hb : b.length = n) (tol : ℝ) :
    ∃ x, cg op b (List.replicate n 0) n tol Mf = .ok x ∧ x.length = n ∧
      (Spec.vec b n - H *ᵥ Spec.vec x n) ⬝ᵥ (Spec.vec b n - H *ᵥ Spec.vec x n) ≤ tol ^ 2 * (Spec.vec b n ⬝ᵥ Spec.vec b n) :=
  cg_ok_of h hH hM hMp hb (hHp.proper _) tol

/-! ### The operator and the preconditioner of jaxfg -/

/-- Sum of the squares of the values listed in a column. -/
def colSquares (A : Coo ℝ) (n : Nat) : Fin n → ℝ := fun j =>
  (((entries A).filter fun e => e.2.1 = j.val).map fun e => e.2.2 ^ 2).sum

theorem ataDiagonals_ok {A : Coo ℝ} (h : CooWF A) (n : Nat) :
    (ataDiagonals A n).length = n ∧ Spec.vec (ataDiagonals A n) n = colSquares A n := by
  have hl : (ataDiagonals A n).length = n := by simp [ataDiagonals, length_scatterAdd]
  refine ⟨hl, ?_⟩
  funext j
  rw [vec_eq hl]
  unfold ataDiagonals colSquares
  rw [getElem_scatterAdd (by simp)]
  have : A.cols.zip (A.values.map (· ^ 2)) = (entries A).map fun e => (e.2.1, e.2.2 ^ 2) := by
    unfold entries
    obtain ⟨h1, h2, -, -⟩ := h
    apply List.ext_getElem
    · simp; omega
    · intro i h3 h4; simp
  rw [this, List.filter_map, List.map_map]
  simp only [List.getElem_replicate, zero_add]
  rfl

theorem colSquares_nonneg (A : Coo ℝ) (n : Nat) (j : Fin n) : 0 ≤ colSquares A n j := by
  apply List.sum_nonneg
  intro x hx
  obtain ⟨e, -, rfl⟩ := List.mem_map.1 hx
  positivity

/-- The matrix of the operator. -/
noncomputable def cgMatrix (A : Coo ℝ) (lambd : ℝ) : Matrix (Fin A.shape.2) (Fin A.shape.2) ℝ :=
  (cooMatrix A A.shape.1 A.shape.2)ᵀ * cooMatrix A A.shape.1 A.shape.2 + lambd • diagonal (colSquares A A.shape.2)

/-- The matrix of the preconditioner. -/
noncomputable def cgPreconditioner (A : Coo ℝ) : Matrix (Fin A.shape.2) (Fin A.shape.2) ℝ :=
  diagonal fun j => (colSquares A A.shape.2 j)⁻¹

theorem opsMatch {A : Coo ℝ} (h : CooWF A) (lambd : ℝ) :
    OpsMatch (ataFunction A (ataDiagonals A A.shape.2) lambd) (jacobiPreconditioner (ataDiagonals A A.shape.2)) (cgMatrix A lambd)
      (cgPreconditioner A) := by
  obtain ⟨hd1, hd2⟩ := ataDiagonals_ok h A.shape.2
  constructor
  · intro x hx
    obtain ⟨y, h1, h2, h3⟩ := matmul_ok h hx
    obtain ⟨z, g1, g2, g3⟩ := matmul_ok (Props.cooWF_T h) (x := y) h2
    have g2' : z.length = A.shape.2 := g2
    have g3' : Spec.vec z A.shape.2 = (cooMatrix A A.shape.1 A.shape.2)ᵀ *ᵥ (cooMatrix A A.shape.1 A.shape.2 *ᵥ Spec.vec x A.shape.2) := by
      rw [← h3, ← Props.cooMatrix_T]
      exact g3
    refine ⟨List.zipWith (· + ·) z (List.zipWith (· * ·) ((ataDiagonals A A.shape.2).map (lambd * ·)) x), ?_, ?_, ?_⟩
    · unfold ataFunction
      simp only [h1, g1, py_bind_ok, py_pure]
    · simp [g2', hd1, hx]
    · funext i
      rw [vec_zipWith g2' (by simp [hd1, hx]), vec_zipWith (by simp [hd1]) hx, vec_map hd1, hd2, g3', cgMatrix, add_mulVec, mulVec_mulVec,
        smul_mulVec, Pi.add_apply, Pi.smul_apply, mulVec_diagonal, smul_eq_mul, mul_assoc]
  · intro x hx
    refine ⟨by simp [jacobiPreconditioner, hx, hd1], ?_⟩
    funext i
    unfold jacobiPreconditioner cgPreconditioner
    rw [vec_zipWith hx hd1, hd2, mulVec_diagonal, div_eq_inv_mul]

/-- A column that is not zero has a value that is not zero. -/
theorem colSquares_pos {A : Coo ℝ} (j : Fin A.shape.2)
    (hrank : ∀ v, cooMatrix A A.shape.1 A.shape.2 *ᵥ v = 0 → v = 0) : 0 < colSquares A A.shape.2 j := by
  rcases (colSquares_nonneg A A.shape.2 j).lt_or_eq with h | h
  · exact h
  exfalso
  have hz : ∀ e ∈ entries A, e.2.1 = j.val → e.2.2 = 0 := by
    intro e he hej
    have hsum : (((entries A).filter fun e => e.2.1 = j.val).map fun e : Nat × Nat × ℝ => e.2.2 ^ 2).sum = 0 := h.symm
    have := List.all_zero_of_le_zero_le_of_sum_eq_zero
      (by intro x hx; obtain ⟨e, -, rfl⟩ := List.mem_map.1 hx; positivity) hsum (x := e.2.2 ^ 2)
      (List.mem_map.2 ⟨e, by simp [he, hej], rfl⟩)
    simpa using this
  have h1 : cooMatrix A A.shape.1 A.shape.2 *ᵥ Pi.single j 1 = 0 := by
    rw [mulVec_single_one]
    funext i
    show cooMatrix A A.shape.1 A.shape.2 i j = 0
    unfold cooMatrix
    apply List.sum_eq_zero
    intro x hx
    obtain ⟨e, he, rfl⟩ := List.mem_map.1 hx
    simp only [List.mem_filter, decide_eq_true_eq] at he
    exact hz e he.1 he.2.2
  have := congrFun (hrank _ h1) j
  simp at this

theorem cgMatrix_symm (A : Coo ℝ) (lambd : ℝ) : (cgMatrix A lambd)ᵀ = cgMatrix A lambd := by
  simp [cgMatrix, transpose_add, transpose_mul, transpose_smul, diagonal_transpose]

theorem cgPreconditioner_symm (A : Coo ℝ) : (cgPreconditioner A)ᵀ = cgPreconditioner A := diagonal_transpose _

theorem cgMatrix_pd (A : Coo ℝ) {lambd : ℝ} (hl : 0 ≤ lambd) (hrank : ∀ v, cooMatrix A A.shape.1 A.shape.2 *ᵥ v = 0 → v = 0) :
    CG.PD (cgMatrix A lambd) := by
  intro v hv
  have hne : cooMatrix A A.shape.1 A.shape.2 *ᵥ v ≠ 0 := fun h => hv (hrank v h)
  have h1 : 0 < (cooMatrix A A.shape.1 A.shape.2 *ᵥ v) ⬝ᵥ (cooMatrix A A.shape.1 A.shape.2 *ᵥ v) := by
    have hnn : 0 ≤ (cooMatrix A A.shape.1 A.shape.2 *ᵥ v) ⬝ᵥ (cooMatrix A A.shape.1 A.shape.2 *ᵥ v) :=
      Finset.sum_nonneg fun i _ => mul_self_nonneg _
    exact lt_of_le_of_ne hnn fun h => hne (dotProduct_self_eq_zero.1 h.symm)
  have h2 : 0 ≤ v ⬝ᵥ (diagonal (colSquares A A.shape.2) *ᵥ v) := by
    refine Finset.sum_nonneg fun i _ => ?_
    rw [mulVec_diagonal]
    have := mul_nonneg (colSquares_nonneg A A.shape.2 i) (mul_self_nonneg (v i))
    nlinarith [this]
  rw [cgMatrix, add_mulVec, dotProduct_add, smul_mulVec, dotProduct_smul, ← mulVec_mulVec, dotProduct_mulVec, vecMul_transpose,
    smul_eq_mul]
  have := mul_nonneg hl h2
  linarith

theorem cgPreconditioner_pd_of (A : Coo ℝ) (hcol : ∀ j, 0 < colSquares A A.shape.2 j) : CG.PD (cgPreconditioner A) := by
  intro v hv
  obtain ⟨i, hi⟩ := Function.ne_iff.1 hv
  unfold cgPreconditioner
  have hterm : ∀ j, v j * (diagonal (fun j => (colSquares A A.shape.2 j)⁻¹) *ᵥ v) j = (colSquares A A.shape.2 j)⁻¹ * (v j * v j) := by
    intro j; rw [mulVec_diagonal]; ring
  show 0 < ∑ j, v j * (diagonal (fun j => (colSquares A A.shape.2 j)⁻¹) *ᵥ v) j
  refine Finset.sum_pos' (fun j _ => ?_) ⟨i, Finset.mem_univ _, ?_⟩
  · rw [hterm]
    exact mul_nonneg (inv_nonneg.2 (colSquares_nonneg _ _ _)) (mul_self_nonneg _)
  · rw [hterm]
    exact mul_pos (inv_pos.2 (hcol i)) (mul_self_pos.2 hi)

theorem cgPreconditioner_pd (A : Coo ℝ) (hrank : ∀ v, cooMatrix A A.shape.1 A.shape.2 *ᵥ v = 0 → v = 0) : CG.PD (cgPreconditioner A) :=
  cgPreconditioner_pd_of A fun j => colSquares_pos j hrank

end Jaxfg
