/- The conjugate gradient solver with infinities and NaN: on matrices without a column of zeros it is the real one, on others it
returns NaN. -/
import Verif.Model.CgScalar
import Verif.Lemmas.CgSolve
import Verif.Lemmas.Lift

namespace Jaxfg
open Matrix Spec
open Ext (fin nan)

/-! ### Finite numbers -/

/-- The state with finite numbers. -/
def CgState.fin (s : CgState) : CgStateS Ext := ⟨s.x.map Ext.fin, s.r.map Ext.fin, Ext.fin s.gamma, s.p.map Ext.fin⟩

theorem fin_vdot (a b : List ℝ) : vdotS (a.map fin) (b.map fin) = fin (vdot a b) := by
  unfold vdotS vdot
  rw [fin_zipWith_mul, fin_sum]

variable {n : Nat} {op : List ℝ → Py (List ℝ)} {Mf : List ℝ → List ℝ} {opE : List Ext → Py (List Ext)} {ME : List Ext → List Ext}
  {H M : Matrix (Fin n) (Fin n) ℝ}

/-- The operator and the preconditioner are the real ones on finite vectors. -/
structure OpsLift (n : Nat) (op : List ℝ → Py (List ℝ)) (Mf : List ℝ → List ℝ) (opE : List Ext → Py (List Ext))
    (ME : List Ext → List Ext) : Prop where
  op : ∀ x : List ℝ, x.length = n → opE (x.map fin) = (op x).map (List.map fin)
  pre : ∀ x : List ℝ, x.length = n → ME (x.map fin) = (Mf x).map fin

theorem cgBody_fin (hl : OpsLift n op Mf opE ME) (h : OpsMatch op Mf H M) {s : CgState} {v : CG.St n} (hs : CgMatch s v)
    (h1 : v.p ⬝ᵥ (H *ᵥ v.p) ≠ 0) (h2 : v.gamma ≠ 0) : cgBodyS opE ME s.fin = (cgBody op Mf s).map CgState.fin := by
  obtain ⟨Ap, e1, e2, e3⟩ := h.op s.p hs.lp
  have hpp : vdot s.p Ap ≠ 0 := by rw [vdot_eq hs.lp e2, e3, hs.p]; exact h1
  have hg : s.gamma ≠ 0 := by rw [hs.gamma]; exact h2
  unfold cgBodyS cgBody CgState.fin
  simp only [hl.op s.p hs.lp, e1, Except.map, py_bind_ok, py_pure]
  rw [fin_vdot, fin_div hpp, fin_map_mul, fin_map_mul, fin_zipWith_add, fin_zipWith_sub, hl.pre _ (by simp [hs.lr, e2]), fin_vdot,
    fin_div hg, fin_map_mul, fin_zipWith_add]

theorem cgLoop_fin (hl : OpsLift n op Mf opE ME) (h : OpsMatch op Mf H M) (hH : Hᵀ = H) (hM : Mᵀ = M) (hMp : CG.PD M)
    (b : Fin n → ℝ) (hHp : CG.Proper H M b) (atol2 : ℝ) (h0 : 0 ≤ atol2) (j k : Nat) {s : CgState}
    (hs : CgMatch s (CG.seq H M (CG.start M b) k)) (hne : ∀ i < k, (CG.seq H M (CG.start M b) i).gamma ≠ 0) :
    cgLoopS opE ME (fin atol2) j s.fin = (cgLoop op Mf atol2 j s).map CgState.fin := by
  induction j generalizing k s with
  | zero => rfl
  | succ j ih =>
    unfold cgLoopS cgLoop
    have hd : vdot s.r s.r = (CG.seq H M (CG.start M b) k).r ⬝ᵥ (CG.seq H M (CG.start M b) k).r := by
      rw [vdot_eq hs.lr hs.lr, hs.r]
    have hv : vdotS s.fin.r s.fin.r = fin (vdot s.r s.r) := fin_vdot _ _
    rw [hv]
    by_cases hc : atol2 < vdot s.r s.r
    · rw [if_pos hc, if_pos ((fin_lt _ _).2 hc)]
      have hr : (CG.seq H M (CG.start M b) k).r ≠ 0 := by
        intro hr
        rw [hd, hr, dotProduct_zero] at hc
        exact absurd hc (not_lt.2 h0)
      have hg : (CG.seq H M (CG.start M b) k).gamma ≠ 0 := by rw [CG.gamma_eq]; exact (hMp _ hr).ne'
      have hpp : (CG.seq H M (CG.start M b) k).p ⬝ᵥ (H *ᵥ (CG.seq H M (CG.start M b) k).p) ≠ 0 := by
        apply hHp k
        rw [(CG.ortho hH hM b hHp k hne k le_rfl).2.2.2]
        exact hg
      rw [cgBody_fin hl h hs hpp hg]
      obtain ⟨s1, h1, h2⟩ := cgBody_ok h hs
      rw [h1]
      simp only [Except.map, py_bind_ok]
      exact ih (k + 1) (s := s1) h2 fun i hi => by
        rcases Nat.lt_or_ge i k with hlt | hge
        · exact hne i hlt
        · have : i = k := by omega
          subst this; exact hg
    · rw [if_neg hc, if_neg (fun h => hc ((fin_lt _ _).1 h))]
      rfl

/-- On a proper system, conjugate gradients meet finite numbers only. -/
theorem cg_fin (hl : OpsLift n op Mf opE ME) (h : OpsMatch op Mf H M) (hH : Hᵀ = H) (hM : Mᵀ = M) (hMp : CG.PD M) {b : List ℝ}
    (hb : b.length = n) (hHp : CG.Proper H M (Spec.vec b n)) (tol : ℝ) :
    cgS opE (b.map fin) (List.replicate n 0) n (fin tol) ME = (cg op b (List.replicate n 0) n tol Mf).map (List.map fin) := by
  have h0 : Spec.vec (List.replicate n (0 : ℝ)) n = 0 := by
    funext i; rw [vec_eq (by simp)]; simp
  obtain ⟨y, h1, h2, h3⟩ := h.op (List.replicate n 0) (by simp)
  rw [h0, mulVec_zero] at h3
  have hlr : (List.zipWith (· - ·) b y).length = n := by simp [hb, h2]
  have hr0 : Spec.vec (List.zipWith (· - ·) b y) n = Spec.vec b n := by
    funext i; rw [vec_zipWith hb h2, h3]; simp
  obtain ⟨hz1, hz2⟩ := h.pre _ hlr
  rw [hr0] at hz2
  have hs : CgMatch ⟨List.replicate n 0, List.zipWith (· - ·) b y, vdot (List.zipWith (· - ·) b y) (Mf (List.zipWith (· - ·) b y)),
      Mf (List.zipWith (· - ·) b y)⟩ (CG.seq H M (CG.start M (Spec.vec b n)) 0) := by
    refine ⟨by simp, hlr, hz1, h0, hr0, ?_, hz2⟩
    rw [vdot_eq hlr hz1, hz2, hr0]; rfl
  have hrep : List.replicate n (0 : Ext) = (List.replicate n (0 : ℝ)).map fin := by rw [List.map_replicate]; rfl
  unfold cgS cg
  rw [hrep, hl.op _ (by simp), h1]
  simp only [Except.map, py_bind_ok]
  have key := cgLoop_fin hl h hH hM hMp (Spec.vec b n) hHp (max (tol ^ 2 * vdot b b) 0) (le_max_right _ _) n 0 hs (by simp)
  have hat : Scal.maximum (fin tol * fin tol * vdotS (b.map fin) (b.map fin)) (Scal.lit 0) = fin (max (tol ^ 2 * vdot b b) 0) := by
    rw [fin_vdot, fin_mul, fin_mul, fin_lit_zero, fin_maximum, ← pow_two]
  rw [hat, fin_zipWith_sub, hl.pre _ hlr, fin_vdot]
  have key' : cgLoopS opE ME (fin (max (tol ^ 2 * vdot b b) 0)) n ⟨(List.replicate n 0).map fin, (List.zipWith (· - ·) b y).map fin,
    fin (vdot (List.zipWith (· - ·) b y) (Mf (List.zipWith (· - ·) b y))), (Mf (List.zipWith (· - ·) b y)).map fin⟩ = _ := key
  rw [key']
  cases cgLoop op Mf (max (tol ^ 2 * vdot b b) 0) n ⟨List.replicate n 0, List.zipWith (· - ·) b y,
    vdot (List.zipWith (· - ·) b y) (Mf (List.zipWith (· - ·) b y)), Mf (List.zipWith (· - ·) b y)⟩ <;> rfl

/-! ### The operator and the preconditioner of jaxfg -/

theorem ataDiagonals_fin (A : Coo ℝ) (n : Nat) : ataDiagonalsS (A.map fin) n = (ataDiagonals A n).map fin := by
  unfold ataDiagonalsS ataDiagonals
  rw [← scatterAdd_fin, List.map_replicate]
  congr 1
  unfold Coo.map
  simp only [List.map_map]
  rw [show (fun p : Nat × ℝ => (p.1, fin p.2)) = Prod.map id fin from rfl, ← List.zip_map_right]
  congr 1
  rw [List.map_map]
  apply List.map_congr_left
  intro v _
  simp only [Function.comp_apply, fin_mul, pow_two]

theorem ataFunction_fin (A : Coo ℝ) (d : List ℝ) (l : ℝ) (x : List ℝ) :
    ataFunctionS (A.map fin) (d.map fin) (fin l) (x.map fin) = (ataFunction A d l x).map (List.map fin) := by
  unfold ataFunctionS ataFunction
  rw [fin_matmul]
  cases A.matmul x with
  | error e => rfl
  | ok y =>
    simp only [Except.map, py_bind_ok]
    rw [coo_map_T, fin_matmul]
    cases A.T.matmul y with
    | error e => rfl
    | ok z =>
      simp only [Except.map, py_bind_ok, py_pure]
      rw [fin_map_mul, fin_zipWith_mul, fin_zipWith_add]

theorem jacobi_fin {d : List ℝ} (hd : ∀ e ∈ d, e ≠ 0) (x : List ℝ) :
    jacobiPreconditionerS (d.map fin) (x.map fin) = (jacobiPreconditioner d x).map fin := by
  unfold jacobiPreconditionerS jacobiPreconditioner
  induction x generalizing d with
  | nil => simp
  | cons a x ih =>
    cases d with
    | nil => simp
    | cons e d =>
      simp only [List.map_cons, List.zipWith_cons_cons]
      rw [fin_div (hd e (by simp)), ih fun e he => hd e (by simp [he])]

theorem opsLift {A : Coo ℝ} (h : CooWF A) (hcol : ∀ j, 0 < colSquares A A.shape.2 j) (l : ℝ) :
    OpsLift A.shape.2 (ataFunction A (ataDiagonals A A.shape.2) l) (jacobiPreconditioner (ataDiagonals A A.shape.2))
      (ataFunctionS (A.map fin) (ataDiagonalsS (A.map fin) A.shape.2) (fin l))
      (jacobiPreconditionerS (ataDiagonalsS (A.map fin) A.shape.2)) := by
  rw [ataDiagonals_fin]
  refine ⟨fun x _ => ataFunction_fin A _ l x, fun x _ => jacobi_fin ?_ x⟩
  obtain ⟨h1, h2⟩ := ataDiagonals_ok h A.shape.2
  intro e he
  obtain ⟨i, hi, rfl⟩ := List.getElem_of_mem he
  have := hcol ⟨i, by omega⟩
  rw [← h2, vec_eq h1] at this
  exact this.ne'

/-- Conjugate gradients do not divide by zero on the systems of the solvers, whatever the rank of the matrix. -/
theorem proper_of_range (A : Coo ℝ) {l : ℝ} (hl : 0 ≤ l) (r : Fin A.shape.1 → ℝ) :
    CG.Proper (cgMatrix A l) (cgPreconditioner A) ((cooMatrix A A.shape.1 A.shape.2)ᵀ *ᵥ r) := by
  intro k hk h0
  apply hk
  rw [CG.residual_eq]
  set x := (CG.seq (cgMatrix A l) (cgPreconditioner A) (CG.start (cgPreconditioner A) ((cooMatrix A A.shape.1 A.shape.2)ᵀ *ᵥ r)) k).x
  set p := (CG.seq (cgMatrix A l) (cgPreconditioner A) (CG.start (cgPreconditioner A) ((cooMatrix A A.shape.1 A.shape.2)ᵀ *ᵥ r)) k).p
  set J := cooMatrix A A.shape.1 A.shape.2 with hJ
  have e1 : ∀ u : Fin A.shape.2 → ℝ, u ⬝ᵥ (cgMatrix A l *ᵥ p) =
      (J *ᵥ u) ⬝ᵥ (J *ᵥ p) + l * ∑ j, u j * (colSquares A A.shape.2 j * p j) := by
    intro u
    rw [cgMatrix, ← hJ, add_mulVec, dotProduct_add, smul_mulVec, dotProduct_smul, ← mulVec_mulVec, dotProduct_mulVec, vecMul_transpose,
      smul_eq_mul]
    congr 2
    unfold dotProduct
    simp only [mulVec_diagonal]
  have hnn : ∀ j, 0 ≤ p j * (colSquares A A.shape.2 j * p j) := fun j => by
    have := mul_nonneg (colSquares_nonneg A A.shape.2 j) (mul_self_nonneg (p j))
    nlinarith [this]
  have h1 : 0 ≤ (J *ᵥ p) ⬝ᵥ (J *ᵥ p) := Finset.sum_nonneg fun i _ => mul_self_nonneg _
  have h2 : 0 ≤ l * ∑ j, p j * (colSquares A A.shape.2 j * p j) := mul_nonneg hl (Finset.sum_nonneg fun j _ => hnn j)
  rw [e1 p] at h0
  have h3 : J *ᵥ p = 0 := dotProduct_self_eq_zero.1 (by linarith)
  have h4 : ∀ j, l * (colSquares A A.shape.2 j * p j) = 0 := by
    intro j
    rcases eq_or_ne l 0 with rfl | hne
    · rw [zero_mul]
    have h5 : ∑ j, p j * (colSquares A A.shape.2 j * p j) = 0 := (mul_eq_zero.1 (by linarith)).resolve_left hne
    have h6 := (Finset.sum_eq_zero_iff_of_nonneg fun j _ => hnn j).1 h5 j (Finset.mem_univ j)
    rcases mul_eq_zero.1 h6 with h | h
    · rw [h]; simp
    · rw [h, mul_zero]
  rw [sub_dotProduct, dotProduct_comm (cgMatrix A l *ᵥ x), CG.dot_comm_of_symm (cgMatrix_symm A l), e1 x, h3, dotProduct_zero,
    mulVec_transpose, ← dotProduct_mulVec, h3, dotProduct_zero, Finset.mul_sum]
  have : ∑ j, l * (x j * (colSquares A A.shape.2 j * p j)) = 0 := Finset.sum_eq_zero fun j _ => by
    rw [mul_left_comm, h4, mul_zero]
  rw [this]; simp

/-! ### A column of zeros -/

theorem nan_add (x : Ext) : nan + x = nan := by cases x <;> rfl
theorem add_nan (x : Ext) : x + nan = nan := by cases x <;> rfl
theorem nan_mul (x : Ext) : nan * x = nan := by cases x <;> rfl
theorem mul_nan (x : Ext) : x * nan = nan := by cases x <;> rfl
theorem sub_nan (x : Ext) : x - nan = nan := by cases x <;> rfl
theorem div_nan (x : Ext) : x / nan = nan := by cases x <;> rfl

theorem sum_nan {l : List Ext} (h : nan ∈ l) : Scal.sum l = nan := by
  show l.foldr Ext.add (fin 0) = nan
  induction l with
  | nil => simp at h
  | cons x l ih =>
    rw [List.foldr_cons]
    rcases List.mem_cons.1 h with h | h
    · rw [← h]; exact nan_add _
    · rw [ih h]; exact add_nan _

/-- Zero times a quotient by zero. -/
theorem zero_mul_div_zero (x : ℝ) : fin 0 * (fin x / fin 0) = nan := by
  rw [fin_div_zero]
  unfold Ext.infMul
  split
  · show Ext.mul (fin 0) .pinf = nan
    simp [Ext.mul, Ext.infMul]
  · split
    · show Ext.mul (fin 0) .ninf = nan
      simp [Ext.mul, Ext.infMul, Ext.neg]
    · exact mul_nan _

/-- The lengths are all that a product with a matrix checks. -/
theorem matmul_ext_ok {A : Coo ℝ} (h : CooWF A) {x : List Ext} (hx : x.length = A.shape.2) :
    ∃ y, (A.map fin).matmul x = .ok y ∧ y.length = A.shape.1 := by
  obtain ⟨h1, h2, -, -⟩ := h
  unfold Coo.matmul Coo.map
  simp only [hx, decide_true, pyAssert_true, py_bind_ok, List.length_map]
  rw [if_neg (by omega), if_neg (by omega)]
  exact ⟨_, rfl, by simp [length_scatterAdd]⟩

/-- Conjugate gradients at a matrix with a column of zeros, for a right-hand side that is not zero. -/
theorem cgSolve_zero_column {A : Coo ℝ} (h : CooWF A) (j : Fin A.shape.2) (hj : colSquares A A.shape.2 j = 0) {b : List ℝ}
    (hb : b.length = A.shape.2) (l tol : ℝ) (ht : tol ^ 2 < 1) (hb0 : ∃ x ∈ b, x ≠ 0) :
    cgSolveS (A.map fin) (b.map fin) (fin l) (fin tol) = .ok (List.replicate A.shape.2 nan) := by
  obtain ⟨hd1, hd2⟩ := ataDiagonals_ok h A.shape.2
  set d := ataDiagonals A A.shape.2 with hd
  have hdj : d[j.val]'(by omega) = 0 := by
    have := congrFun hd2 j
    rw [vec_eq hd1, hj] at this
    exact this
  have ho := opsMatch h l
  obtain ⟨y, y1, y2, y3⟩ := ho.op (List.replicate A.shape.2 0) (by simp)
  have hy0 : y = List.replicate A.shape.2 0 := by
    apply List.ext_getElem (by simp [y2])
    intro i h1 h2
    have h0 : Spec.vec (List.replicate A.shape.2 (0 : ℝ)) A.shape.2 = 0 := by funext i; rw [vec_eq (by simp)]; simp
    rw [h0, mulVec_zero] at y3
    have := congrFun y3 ⟨i, by omega⟩
    rw [vec_eq y2] at this
    simpa using this
  have hr0 : List.zipWith (· - ·) b y = b := by
    rw [hy0]
    apply List.ext_getElem (by simp [hb])
    intro i h1 h2
    simp
  have hbb : 0 < vdot b b := by
    obtain ⟨x, hx, hne⟩ := hb0
    rw [vdot_eq hb hb]
    refine lt_of_le_of_ne (Finset.sum_nonneg fun i _ => mul_self_nonneg _) fun h0 => hne ?_
    obtain ⟨i, hi, rfl⟩ := List.getElem_of_mem hx
    have := congrFun (dotProduct_self_eq_zero.1 h0.symm) ⟨i, by omega⟩
    rw [vec_eq hb] at this
    exact this
  have hrep : List.replicate A.shape.2 (0 : Ext) = (List.replicate A.shape.2 (0 : ℝ)).map fin := by rw [List.map_replicate]; rfl
  obtain ⟨m, hm⟩ : ∃ m, A.shape.2 = m + 1 := ⟨A.shape.2 - 1, by have := j.2; omega⟩
  unfold cgSolveS
  simp only [List.length_map, hb, List.length_replicate]
  rw [ataDiagonals_fin, ← hd]
  -- the first direction
  set P := jacobiPreconditionerS (d.map fin) (b.map fin) with hP
  have hpl : P.length = A.shape.2 := by simp [hP, jacobiPreconditionerS, hb, hd1]
  obtain ⟨u, u1, u2⟩ := matmul_ext_ok h hpl
  obtain ⟨w, w1, w2⟩ := matmul_ext_ok (Props.cooWF_T h) (x := u) u2
  have w2' : w.length = A.shape.2 := w2
  rw [← coo_map_T] at w1
  obtain ⟨Ap, hAp⟩ : ∃ Ap, Ap = List.zipWith (· + ·) w (List.zipWith (· * ·) ((d.map fin).map (fin l * ·)) P) := ⟨_, rfl⟩
  have hop : ataFunctionS (A.map fin) (d.map fin) (fin l) P = .ok Ap := by
    unfold ataFunctionS
    rw [u1]
    simp only [py_bind_ok]
    rw [w1, hAp]
    rfl
  have hApl : Ap.length = A.shape.2 := by simp [hAp, w2', hd1, hpl]
  have hPj : P[j.val]'(by omega) = fin (b[j.val]'(by omega)) / fin 0 := by
    simp only [hP, jacobiPreconditionerS, List.getElem_zipWith, List.getElem_map, hdj]
  have hApj : Ap[j.val]'(by omega) = nan := by
    simp only [hAp, List.getElem_zipWith, List.getElem_map, hdj, hPj]
    rw [fin_mul, mul_zero, zero_mul_div_zero, add_nan]
  have hdot : vdotS P Ap = nan := by
    apply sum_nan
    have : (List.zipWith (· * ·) P Ap)[j.val]'(by simp [hpl, hApl]) = nan := by
      rw [List.getElem_zipWith, hApj, mul_nan]
    rw [← this]
    exact List.getElem_mem _
  have hop0 : ataFunctionS (A.map fin) (d.map fin) (fin l) (List.replicate A.shape.2 0) = .ok (y.map fin) := by
    rw [hrep, ataFunction_fin, y1]; rfl
  have hat : Scal.maximum (fin tol * fin tol * vdotS (b.map fin) (b.map fin)) (Scal.lit 0) = fin (max (tol ^ 2 * vdot b b) 0) := by
    rw [fin_vdot, fin_mul, fin_mul, fin_lit_zero, fin_maximum, ← pow_two]
  have hlt : max (tol ^ 2 * vdot b b) 0 < vdot b b := max_lt (by nlinarith) hbb
  unfold cgS
  rw [hop0, hat]
  simp only [py_bind_ok]
  rw [fin_zipWith_sub, hr0, ← hP]
  have hnanmap : ∀ v : List Ext, v.map (fun x => nan * x) = List.replicate v.length nan := by
    intro v
    rw [List.eq_replicate_iff]
    refine ⟨by simp, fun x hx => ?_⟩
    obtain ⟨e, -, rfl⟩ := List.mem_map.1 hx
    exact nan_mul e
  have hx' : List.zipWith (· + ·) (List.replicate A.shape.2 (0 : Ext)) (List.replicate A.shape.2 nan) = List.replicate A.shape.2 nan := by
    rw [List.zipWith_replicate, add_nan, Nat.min_self]
  have hr' : List.zipWith (· - ·) (b.map fin) (List.replicate A.shape.2 nan) = List.replicate A.shape.2 nan := by
    apply List.ext_getElem (by simp [hb])
    intro i h1 h2
    simp [sub_nan]
  have hstop : vdotS (List.replicate A.shape.2 nan) (List.replicate A.shape.2 nan) = nan := by
    apply sum_nan
    rw [List.zipWith_replicate, nan_mul, hm]
    simp
  have hbody : ∃ s', cgBodyS (ataFunctionS (A.map fin) (d.map fin) (fin l)) (jacobiPreconditionerS (d.map fin))
      ⟨List.replicate A.shape.2 0, b.map fin, vdotS (b.map fin) P, P⟩ = .ok s' ∧ s'.x = List.replicate A.shape.2 nan ∧
        s'.r = List.replicate A.shape.2 nan := by
    unfold cgBodyS
    simp only [hop, py_bind_ok, hdot, div_nan, hnanmap, hpl, hApl, hx', hr', py_pure]
    exact ⟨_, rfl, rfl, rfl⟩
  obtain ⟨s', b1, b2, b3⟩ := hbody
  have hloop : ∀ q, cgLoopS (ataFunctionS (A.map fin) (d.map fin) (fin l)) (jacobiPreconditionerS (d.map fin))
      (fin (max (tol ^ 2 * vdot b b) 0)) q s' = .ok s' := by
    intro q
    cases q with
    | zero => rfl
    | succ q =>
      unfold cgLoopS
      rw [b3, hstop, lt_nan]
      rfl
  have hgo : cgLoopS (ataFunctionS (A.map fin) (d.map fin) (fin l)) (jacobiPreconditionerS (d.map fin))
      (fin (max (tol ^ 2 * vdot b b) 0)) A.shape.2 ⟨List.replicate A.shape.2 0, b.map fin, vdotS (b.map fin) P, P⟩ = .ok s' := by
    obtain ⟨q, hq⟩ : ∃ q, q = A.shape.2 := ⟨_, rfl⟩
    rw [← hq]
    have hq' : q = m + 1 := by omega
    subst hq'
    unfold cgLoopS
    rw [fin_vdot, if_pos ((fin_lt _ _).2 hlt), hq, b1]
    exact hloop m
  rw [hgo]
  simp only [py_bind_ok, py_pure, b2]

/-- A right-hand side of zeros is returned. -/
theorem cgSolve_zero {A : Coo ℝ} (h : CooWF A) (l tol : ℝ) :
    cgSolveS (A.map fin) ((List.replicate A.shape.2 0).map fin) (fin l) (fin tol) = .ok (List.replicate A.shape.2 (fin 0)) := by
  have ho := opsMatch h l
  obtain ⟨y, y1, y2, y3⟩ := ho.op (List.replicate A.shape.2 0) (by simp)
  have h0 : Spec.vec (List.replicate A.shape.2 (0 : ℝ)) A.shape.2 = 0 := by funext i; rw [vec_eq (by simp)]; simp
  have hy0 : y = List.replicate A.shape.2 0 := by
    apply List.ext_getElem (by simp [y2])
    intro i h1 h2
    rw [h0, mulVec_zero] at y3
    have := congrFun y3 ⟨i, by omega⟩
    rw [vec_eq y2] at this
    simpa using this
  have hrep : List.replicate A.shape.2 (0 : Ext) = (List.replicate A.shape.2 (0 : ℝ)).map fin := by rw [List.map_replicate]; rfl
  unfold cgSolveS cgS
  simp only [List.length_map, List.length_replicate]
  rw [ataDiagonals_fin, hrep, ataFunction_fin, y1]
  simp only [Except.map, py_bind_ok]
  rw [fin_zipWith_sub, hy0, List.zipWith_replicate, Nat.min_self, sub_zero, fin_vdot]
  have hv : vdot (List.replicate A.shape.2 0) (List.replicate A.shape.2 0) = 0 := by
    rw [vdot_eq (n := A.shape.2) (by simp) (by simp), h0, dotProduct_zero]
  have hat : Scal.maximum (fin tol * fin tol * fin (vdot (List.replicate A.shape.2 0) (List.replicate A.shape.2 0))) (Scal.lit 0) = fin 0 := by
    rw [hv, fin_mul, fin_mul, fin_lit_zero, fin_maximum]; simp
  rw [hat]
  have hloop : ∀ q op M g p, cgLoopS op M (fin 0) q
      ⟨(List.replicate A.shape.2 0).map fin, (List.replicate A.shape.2 0).map fin, g, p⟩ =
      .ok ⟨(List.replicate A.shape.2 0).map fin, (List.replicate A.shape.2 0).map fin, g, p⟩ := by
    intro q op M g p
    cases q with
    | zero => rfl
    | succ q =>
      unfold cgLoopS
      rw [fin_vdot, hv, if_neg (fun h => lt_irrefl _ ((fin_lt _ _).1 h))]
  rw [hloop]
  simp only [py_bind_ok, py_pure, List.map_replicate]

end Jaxfg
