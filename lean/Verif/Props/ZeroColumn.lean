/- C109: conjugate gradients and columns of zeros. -/
import Verif.Lemmas.ZeroColumn
import Verif.Lemmas.ExampleFlat
import Verif.Spec.ZeroColumn
import Verif.Props.LinSolve

namespace Jaxfg.Props
open Spec Matrix
open Ext (fin nan)

/-! ### The linear solvers -/

/-- Sums of squares of the listed values of each column. -/
theorem colSquares_pos_iff (A : Coo ℝ) (j : Fin A.shape.2) : 0 < colSquares A A.shape.2 j ↔ ¬ ZeroAt A j := by
  constructor
  · intro h h0
    refine h.ne' (List.sum_eq_zero fun x hx => ?_)
    obtain ⟨e, he, rfl⟩ := List.mem_map.1 hx
    simp only [List.mem_filter, decide_eq_true_eq] at he
    rw [h0 e he.1 he.2]; norm_num
  · intro h
    refine lt_of_le_of_ne (colSquares_nonneg A _ j) fun h0 => h fun e he hej => ?_
    have := List.all_zero_of_le_zero_le_of_sum_eq_zero
      (by intro x hx; obtain ⟨e, -, rfl⟩ := List.mem_map.1 hx; positivity) h0.symm (x := e.2.2 ^ 2)
      (List.mem_map.2 ⟨e, by simp [he, hej], rfl⟩)
    simpa using this

theorem cgSolveS_eq {A : Coo ℝ} (hA : CooWF A) (hcol : ∀ j : Fin A.shape.2, ¬ ZeroAt A j) {b : List ℝ} (hb : b.length = A.shape.2)
    {l : ℝ} (hl : 0 ≤ l) (r : Fin A.shape.1 → ℝ) (hr : vec b A.shape.2 = (cooMatrix A A.shape.1 A.shape.2)ᵀ *ᵥ r) (tol : ℝ) :
    cgSolveS (A.map fin) (b.map fin) (fin l) (fin tol) = (cgSolve A b l tol).map (List.map fin) := by
  have hpos : ∀ j, 0 < colSquares A A.shape.2 j := fun j => (colSquares_pos_iff A j).2 (hcol j)
  have hp := proper_of_range A hl r
  rw [← hr] at hp
  unfold cgSolveS cgSolve
  simp only [List.length_map, hb, List.length_replicate]
  exact cg_fin (opsLift hA hpos l) (opsMatch hA l) (cgMatrix_symm A l) (cgPreconditioner_symm A) (cgPreconditioner_pd_of A hpos) hb hp tol

/-- **C109**, no column of zeros. The conjugate gradient solver meets finite numbers only, and solves the damped normal equations to
its tolerance within its cap of iterations, whatever the rank of the matrix: the right-hand side of the solvers is `Aᵀ r` for a vector
`r`, and such systems have solutions. -/
theorem C109_no_zero_column (A : Coo ℝ) (hA : CooWF A) (hcol : ∀ j < A.shape.2, ¬ ZeroAt A j) (r : List ℝ) (hr : r.length = A.shape.1)
    (l : ℝ) (hl : 0 ≤ l) (tol : ℝ) :
    let n := A.shape.2
    let M := cooMatrix A A.shape.1 n
    let H := Mᵀ * M + l • diagonal fun j : Fin n => (((entries A).filter fun e => e.2.1 = j.val).map fun e => e.2.2 ^ 2).sum
    ∃ b x, A.T.matmul r = .ok b ∧ cgSolveS (A.map fin) (b.map fin) (fin l) (fin tol) = .ok (x.map fin) ∧ x.length = n ∧
      (Spec.vec b n - H *ᵥ Spec.vec x n) ⬝ᵥ (Spec.vec b n - H *ᵥ Spec.vec x n) ≤ tol ^ 2 * (Spec.vec b n ⬝ᵥ Spec.vec b n) := by
  intro n M H
  obtain ⟨b, h1, h2, h3⟩ := matmul_ok (cooWF_T hA) (x := r) hr
  have h2' : b.length = A.shape.2 := h2
  have h3' : vec b A.shape.2 = (cooMatrix A A.shape.1 A.shape.2)ᵀ *ᵥ vec r A.shape.1 := by
    rw [← cooMatrix_T]; exact h3
  have hcol' : ∀ j : Fin A.shape.2, ¬ ZeroAt A j := fun j => hcol j j.2
  have hpos : ∀ j, 0 < colSquares A A.shape.2 j := fun j => (colSquares_pos_iff A j).2 (hcol' j)
  have hp := proper_of_range A hl (vec r A.shape.1)
  rw [← h3'] at hp
  obtain ⟨x, g1, g2, g3⟩ := cg_ok_of (opsMatch hA l) (cgMatrix_symm A l) (cgPreconditioner_symm A) (cgPreconditioner_pd_of A hpos) h2' hp tol
  refine ⟨b, x, h1, ?_, g2, g3⟩
  rw [cgSolveS_eq hA hcol' h2' hl _ h3']
  have : cgSolve A b l tol = .ok x := by
    unfold cgSolve
    simp only [h2', List.length_replicate]
    exact g1
  rw [this]; rfl

/-- **C109**, a column of zeros. Then the Jacobi preconditioner divides by zero. Whatever the damping, the solver returns zeros for a
right-hand side of zeros, and NaN in all components for every other one. -/
theorem C109_zero_column (A : Coo ℝ) (hA : CooWF A) (j : Nat) (hj : j < A.shape.2) (hcol : ZeroAt A j) (b : List ℝ)
    (hb : b.length = A.shape.2) (l tol : ℝ) (ht : |tol| < 1) :
    ((∀ x ∈ b, x = 0) → cgSolveS (A.map fin) (b.map fin) (fin l) (fin tol) = .ok (List.replicate A.shape.2 (fin 0))) ∧
    ((∃ x ∈ b, x ≠ 0) → cgSolveS (A.map fin) (b.map fin) (fin l) (fin tol) = .ok (List.replicate A.shape.2 nan)) := by
  constructor
  · intro h0
    have : b = List.replicate A.shape.2 0 := List.eq_replicate_iff.2 ⟨hb, h0⟩
    rw [this]
    exact cgSolve_zero hA l tol
  · intro h0
    refine cgSolve_zero_column hA ⟨j, hj⟩ ?_ hb l tol (by nlinarith [sq_abs tol, abs_nonneg tol]) h0
    have := (colSquares_pos_iff A ⟨j, hj⟩).not.2 (not_not.2 hcol)
    exact le_antisymm (not_lt.1 this) (colSquares_nonneg A _ _)

/-- **C109**, the direct solver. CHOLMOD solves the same systems for every matrix, and its answers have no component along vectors that
the matrix maps to zero. In particular coordinates with a column of zeros do not move. -/
theorem C109_cholmod (stale : Pattern → ScipyCoo ℝ → ℝ → List ℝ → Py (List ℝ)) (cache : CholmodCache) (addr : Nat)
    (A : Coo ℝ) (hA : CooWF A) (r : List ℝ) (hr : r.length = A.shape.1) (l : ℝ) (hl : 0 ≤ l)
    (hcache : ∀ p, cache.get? addr = some p → p = ((A.shape.2, A.shape.1), (A.cols.zip A.rows).toFinset)) :
    ∃ b x, A.T.matmul r = .ok b ∧ (cholmodSolve stale cache addr A b l).1 = .ok x ∧ x.length = A.shape.2 ∧
      (∀ v, cooMatrix A A.shape.1 A.shape.2 *ᵥ v = 0 → v ⬝ᵥ vec x A.shape.2 = 0) ∧
      ∀ j : Fin A.shape.2, ZeroAt A j → vec x A.shape.2 j = 0 := by
  obtain ⟨b, h1, h2, h3⟩ := matmul_ok (cooWF_T hA) (x := r) hr
  have h3' : vec b A.shape.2 = (cooMatrix A A.shape.1 A.shape.2)ᵀ *ᵥ vec r A.shape.1 := by
    rw [← cooMatrix_T]; exact h3
  obtain ⟨-, x, g1, g2, g3, -⟩ := C35_cholmod stale cache addr A hA b h2 l hl hcache
  have key : ∀ v, cooMatrix A A.shape.1 A.shape.2 *ᵥ v = 0 → v ⬝ᵥ vec x A.shape.2 = 0 := by
    intro v hv
    have h4 : v ⬝ᵥ _ = v ⬝ᵥ _ := congrArg (fun w => v ⬝ᵥ w) g3
    rw [h3', add_mulVec, dotProduct_add, ← mulVec_mulVec, dotProduct_mulVec, vecMul_transpose, hv, zero_dotProduct, smul_mulVec,
      one_mulVec, dotProduct_smul, dotProduct_mulVec, vecMul_transpose, hv, zero_dotProduct, zero_add, smul_eq_mul] at h4
    exact (mul_eq_zero.1 h4).resolve_left (by positivity)
  refine ⟨b, x, h1, g1, g2, key, fun j hj => ?_⟩
  have := key (Pi.single j 1) (by
    rw [mulVec_single_one]
    funext i
    show cooMatrix A A.shape.1 A.shape.2 i j = 0
    unfold cooMatrix
    apply List.sum_eq_zero
    intro x hx
    obtain ⟨e, he, rfl⟩ := List.mem_map.1 hx
    simp only [List.mem_filter, decide_eq_true_eq] at he
    exact hj e he.1 he.2.2)
  simpa using this

/-! ### The nonlinear solvers -/

section
variable {CE : Ty → VarClass Ext} {gE : GraphOps Ext} {C : Ty → VarClass ℝ} {g : GraphOps ℝ} {ws : List Var} {b : Assign ℝ} {c : ℝ}
  {r : List ℝ} {A : Coo ℝ}

/-- The facts about the point that the solvers use. -/
theorem _root_.Jaxfg.Spec.ZeroColumn.facts (hg : SaneGraph C g ws) (hb : IsAssignmentOf C ws b) (hlb : b.layout = g.layout)
    (hc : ZeroColumn CE gE g b c r A) : CooWF A ∧ A.shape.2 = g.localLayout.dim ∧ r.length = A.shape.1 ∧ A.values ≠ [] ∧ r ≠ [] := by
  obtain ⟨hwf, hdim⟩ := hg.jacobian _ _ _ _ _ hb hlb hb hlb hc.cost hc.jac
  obtain ⟨z, hz1, x, hx, hne⟩ := hc.gradient
  obtain ⟨l1, l2, l3⟩ := matmul_vec (cooWF_T hwf) hz1
  have hr : r.length = A.shape.1 := by simpa [Coo.T] using l1
  have hv : A.values ≠ [] := by
    intro h0
    have hr0 : A.rows = [] := List.length_eq_zero_iff.1 (by rw [hwf.1, h0]; rfl)
    have hc0 : A.cols = [] := List.length_eq_zero_iff.1 (by rw [hwf.2.1, h0]; rfl)
    apply hne
    refine (mem_zero_vec l2).2 ?_ x hx
    rw [l3]
    have : cooMatrix A.T A.T.shape.1 A.T.shape.2 = 0 := by
      funext i j
      simp [cooMatrix, entries, Coo.T, h0, hr0, hc0]
    rw [this, zero_mulVec]
  refine ⟨hwf, hdim, hr, hv, fun h0 => ?_⟩
  have hp : 0 < A.rows.length := by rw [hwf.1]; exact List.length_pos_iff.2 hv
  have := hwf.2.2.1 _ (List.getElem_mem hp)
  rw [← hr, h0] at this
  simp at this

/-- A step quality computed from a NaN is NaN. -/
theorem stepQuality_nan {A : Coo Ext} (hA : CooWF A) {p : State Ext} {co : Ext} {d : List Ext} (hd : d.length = A.shape.2)
    (hr : p.residual.length = A.shape.1) (h : co = nan ∨ nan ∈ p.residual) : stepQuality A co p d = .ok nan := by
  obtain ⟨y, h1, h2⟩ := matmul_any_ok hA hd
  unfold stepQuality
  rw [h1, py_bind_ok]
  unfold vecAdd
  rw [if_pos (by rw [h2, hr]), py_bind_ok]
  rcases h with rfl | h
  · rw [nan_sub, nan_div]; rfl
  · obtain ⟨i, hi, he⟩ := List.getElem_of_mem h
    have : nan ∈ List.zipWith (· + ·) y p.residual := by
      have e : (List.zipWith (· + ·) y p.residual)[i]'(by simp; omega) = nan := by rw [List.getElem_zipWith, he, add_nan]
      rw [← e]; exact List.getElem_mem _
    rw [sumSq_nan this, nan_sub, div_nan]; rfl

/-- The lines that the solver prints show the cost `c`. -/
def ShowsCost (c : Ext) : Msg Ext → Prop
  | .iteration _ _ c' _ => c' = c
  | .terminated _ c' => c' = c

theorem showsCost_print {verbose : Bool} {c : Ext} {m : Msg Ext} (h : ShowsCost c m) : ∀ m' ∈ hcbPrint verbose m, ShowsCost c m' := by
  unfold hcbPrint
  cases verbose <;> simp [h]

/-- One step: rejected. -/
theorem lm_stuck_step (h : Lifts CE gE C g) (hCE : GoodClasses CE) (hg : SaneGraph C g ws) (hz : ZeroRetract C)
    (hb : IsAssignmentOf C ws b) (hlb : b.layout = g.layout) (hne : b.storage ≠ []) (hc : ZeroColumn CE gE g b c r A)
    {sE : LevenbergMarquardt Ext} {tol : Nat → ℝ} (htol : ∀ i, |tol i| < 1) (hlin : sE.linear = cgLinear fun i => fin (tol i))
    {lf lmin lmax : ℝ} (hlf : sE.lambdaFactor = fin lf) (hlmin : sE.lambdaMin = fin lmin) (hlmax : sE.lambdaMax = fin lmax)
    (s : LMState Ext) (h1 : s.assignments = b.map fin) (h2 : s.cost = fin c) (h3 : ∃ l, s.lambd = fin l)
    (h4 : s.residual = r.map fin ∨ s.residual = List.replicate r.length nan) :
    ∃ s' l, sE.step CE gE s = .ok (s', l) ∧ (s'.assignments = b.map fin ∧ s'.cost = fin c ∧ (∃ l, s'.lambd = fin l) ∧
      (s'.residual = r.map fin ∨ s'.residual = List.replicate r.length nan)) ∧ (∀ m ∈ l, ShowsCost (fin c) m) ∧
      s'.iterations = s.iterations + 1 ∧ s'.done = decide ((s.iterations : Int) ≥ sE.maxIterations - 1) := by
  obtain ⟨hwf, hdim, hr, hv, hr0⟩ := hc.facts hg hb hlb
  have hwfE : CooWF (A.map fin) := by
    obtain ⟨e1, e2, e3, e4⟩ := hwf
    exact ⟨by simpa [Coo.map] using e1, by simpa [Coo.map] using e2, e3, e4⟩
  obtain ⟨l, hl⟩ := h3
  have hbE := h.isAssignment hb
  have hlam : ∃ l', sE.updateLambda false s.lambd = fin l' := by
    unfold LevenbergMarquardt.updateLambda
    rw [hl, hlf, hlmin, hlmax]
    exact ⟨_, rfl⟩
  have hsne : s.assignments.storage ≠ [] := by
    rw [h1]; simpa [Assign.map] using hne
  have hsA : IsAssignmentOf CE ws s.assignments := by rw [h1]; exact hbE
  have hsl : s.assignments.layout = g.layout := by rw [h1]; exact hlb
  have finish : ∀ {ATb delta : List Ext} {b' : Assign Ext} {co : Ext} {r' : List Ext}, gE.jacobian s.assignments s.residual = .ok (A.map fin) →
      (A.map fin).T.matmul (s.residual.map fun x => -x) = .ok ATb → ATb.length = A.shape.2 →
      sE.linear (A.map fin) ATb s.lambd s.iterations = .ok delta → delta.length = A.shape.2 →
      s.assignments.manifoldRetract CE ⟨delta, gE.localLayout⟩ = .ok b' → gE.computeCost b' = .ok (co, r') →
      (co = nan ∨ nan ∈ s.residual) → s.residual.length = r.length → (r' = r.map fin ∨ r' = List.replicate r.length nan) →
      ∃ s' l, sE.step CE gE s = .ok (s', l) ∧ (s'.assignments = b.map fin ∧ s'.cost = fin c ∧ (∃ l, s'.lambd = fin l) ∧
      (s'.residual = r.map fin ∨ s'.residual = List.replicate r.length nan)) ∧ (∀ m ∈ l, ShowsCost (fin c) m) ∧
      s'.iterations = s.iterations + 1 ∧ s'.done = decide ((s.iterations : Int) ≥ sE.maxIterations - 1) := by
    intro ATb delta b' co r' e1 e2 e3 e4 e5 e6 e7 e8 e9 e10
    obtain ⟨conv, e11⟩ := h.converged_any (p := s.toState) hCE hg hsA hsl hsne sE.toCriteria co delta (ng := ATb) (e3.trans hdim)
    have e12 := stepQuality_nan (p := s.toState) (co := co) (d := delta) hwfE e5 (by rw [e9, hr]; rfl) e8
    have key := (lmStep_ok (C := CE) (g := gE) (s := sE) (p := s)).2 ⟨A.map fin, ATb, delta, b', co, r', nan, conv, e1, e2, e4, e6, e7, e12, e11, rfl, rfl⟩
    rw [le_nan] at key
    refine ⟨_, _, key, ⟨?_, ?_, ?_, ?_⟩, showsCost_print h2, rfl, ?_⟩
    · rw [← h1]; rfl
    · exact h2
    · exact hlam
    · exact e10
    · simp [lmNext, Criteria.exceeded]
  obtain ⟨z, hz1, hz2⟩ := hc.gradient
  obtain ⟨j, hj, hcol⟩ := hc.column
  have hzl : z.length = A.shape.2 := by
    obtain ⟨l1, l2, -⟩ := matmul_vec (cooWF_T hwf) hz1
    exact l2
  rcases h4 with h4 | h4
  · -- a step of NaN
    obtain ⟨b', k1, -, -⟩ := h.retract_any hCE hg hsA hsl (d := List.replicate A.shape.2 nan) (by simp [hdim])
    refine finish (ATb := z.map fin) (delta := List.replicate A.shape.2 nan) (b' := b') (co := nan) (r' := List.replicate r.length nan)
      ?_ ?_ (by simpa using hzl) ?_ (by simp) k1 ?_ (.inl rfl) (by rw [h4]; simp) (.inr rfl)
    · rw [h1, h4, h.jacobian, hc.jac]; rfl
    · rw [h4, fin_map_neg, coo_map_T, fin_matmul, hz1]; rfl
    · rw [hlin, hl]
      exact (C109_zero_column A hwf j hj hcol z hzl l _ (htol _)).2 hz2
    · rw [h1] at k1
      exact hc.nan_cost b' k1
  · -- a step of zeros
    have hstay : s.assignments.manifoldRetract CE ⟨List.replicate A.shape.2 (fin 0), gE.localLayout⟩ = .ok (b.map fin) := by
      have := h.manifoldRetract b ⟨List.replicate A.shape.2 0, g.localLayout⟩
      rw [hg.zero_stays hz hb hlb (by intro y hy; exact List.eq_of_mem_replicate hy) (by simp [hdim])] at this
      rw [h1, h.localLayout, show (⟨List.replicate A.shape.2 (fin 0), g.localLayout⟩ : Assign Ext) =
        Assign.map fin ⟨List.replicate A.shape.2 0, g.localLayout⟩ by simp [Assign.map]]
      exact this
    have hvT : ((A.map fin).T).values ≠ [] := by simpa [Coo.T, Coo.map] using hv
    obtain ⟨w, w1, w2, w3⟩ := matmul_nan (cooWF_T hwfE) hvT
    have hnr : (s.residual.map fun x => -x) = List.replicate (A.map fin).T.shape.2 nan := by
      rw [h4, List.map_replicate, neg_nan, hr]; rfl
    refine finish (ATb := w) (delta := List.replicate A.shape.2 (fin 0)) (b' := b.map fin) (co := fin c) (r' := r.map fin)
      ?_ ?_ w2 ?_ (by simp) hstay ?_ (.inr ?_) (by rw [h4]; simp) (.inl rfl)
    · rw [h1, h4]; exact hc.nan_jac
    · rw [hnr]; exact w1
    · rw [hlin]
      exact cgSolve_nan hwfE w2 w3 _ _
    · rw [h.cost, hc.cost]; rfl
    · rw [h4]
      have : 0 < r.length := List.length_pos_iff.2 hr0
      simp; omega

/-- **C109**, Levenberg-Marquardt. From assignments at which a column of the Jacobian is zero and the gradient is not, the solver with
conjugate gradients does not move: every step is rejected, whatever the damping, until the iterations are used up. It returns the
initial assignments and all printed lines show their cost. -/
theorem C109_levenberg_marquardt (h : Lifts CE gE C g) (hCE : GoodClasses CE) (hg : SaneGraph C g ws) (hz : ZeroRetract C)
    (hpos : ∀ t, 0 < (C t).paramDim) {vars : List Var} {a : Assign ℝ} (ha : IsAssignmentOf C vars a) (hv : ∀ v, v ∈ vars ↔ v ∈ ws)
    (hne : vars ≠ []) (hab : a.updateStorageLayout C g.layout = .ok b) (hc : ZeroColumn CE gE g b c r A)
    {sE : LevenbergMarquardt Ext} {tol : Nat → ℝ} (htol : ∀ i, |tol i| < 1) (hlin : sE.linear = cgLinear fun i => fin (tol i))
    {l₀ lf lmin lmax : ℝ} (hl₀ : sE.lambdaInitial = fin l₀) (hlf : sE.lambdaFactor = fin lf) (hlmin : sE.lambdaMin = fin lmin)
    (hlmax : sE.lambdaMax = fin lmax) {fuel : Nat} (hf : max 1 sE.maxIterations ≤ fuel) :
    ∃ log, sE.solve CE gE fuel (a.map fin) = .ok (some (a.map fin, log ++
      hcbPrint sE.verbose (.terminated (max 1 sE.maxIterations).toNat (fin c)))) ∧ ∀ m ∈ log, ShowsCost (fin c) m := by
  obtain ⟨hb, hlb, hbne, hback⟩ := to_graph_order hg ha hv hpos hne hab
  have hinit : sE.init gE (b.map fin) = .ok ⟨⟨0, b.map fin, fin c, r.map fin, false⟩, fin l₀⟩ := by
    unfold LevenbergMarquardt.init initState
    rw [h.cost, hc.cost, hl₀]; rfl
  obtain ⟨t, log, k1, ⟨k2, k3, -⟩, k4, k5⟩ := whileLoop_counter (base := LMState.toState) (step := sE.step CE gE) (N := sE.maxIterations)
    (P := fun s => s.assignments = b.map fin ∧ s.cost = fin c ∧ (∃ l, s.lambd = fin l) ∧
      (s.residual = r.map fin ∨ s.residual = List.replicate r.length nan)) (Q := ShowsCost (fin c))
    (fun s hs => lm_stuck_step h hCE hg hz hb hlb hbne hc htol hlin hlf hlmin hlmax s hs.1 hs.2.1 hs.2.2.1 hs.2.2.2)
    fuel ⟨⟨0, b.map fin, fin c, r.map fin, false⟩, fin l₀⟩ ⟨rfl, rfl, ⟨_, rfl⟩, .inl rfl⟩ rfl (by omega) (by
      show sE.maxIterations - ((0 : Nat) : Int) ≤ fuel
      omega)
  refine ⟨log, ?_, k5⟩
  apply baseSolve_some.2
  refine ⟨b.map fin, _, t, log, ?_, hinit, k1, ?_, ?_⟩
  · rw [h.updateStorageLayout, h.layout, hab]; rfl
  · show t.assignments.updateStorageLayout CE a.layout = _
    rw [k2, h.updateStorageLayout, hback]; rfl
  · have e : t.iterations = (max 1 sE.maxIterations).toNat := by
      have : (t.iterations : Int) = max (((0 : Nat) : Int) + 1) sE.maxIterations := k4
      omega
    rw [k3, e]

/-- One dogleg step: rejected, and the radius stays. -/
theorem dogleg_stuck_step (h : Lifts CE gE C g) (hCE : GoodClasses CE) (hg : SaneGraph C g ws) (hz : ZeroRetract C)
    (hb : IsAssignmentOf C ws b) (hlb : b.layout = g.layout) (hne : b.storage ≠ []) (hc : ZeroColumn CE gE g b c r A)
    {sE : Dogleg Ext} {tol : Nat → ℝ} (htol : ∀ i, |tol i| < 1) (hlin : sE.linear = cgLinear fun i => fin (tol i))
    {ρ : ℝ} (hρ : 0 ≤ ρ) (hst : ∀ z y, A.T.matmul (r.map fun x => -x) = .ok z → A.matmul z = .ok y →
      sqNorm (z.map fun x => sqNorm z / sqNorm y * x) < ρ ^ 2)
    (s : DoglegState Ext) (h1 : s.assignments = b.map fin) (h2 : s.cost = fin c) (h3 : s.radius = fin ρ)
    (h4 : s.residual = r.map fin ∨ s.residual = List.replicate r.length nan) :
    ∃ s' l, sE.step CE gE s = .ok (s', l) ∧ (s'.assignments = b.map fin ∧ s'.cost = fin c ∧ s'.radius = fin ρ ∧
      (s'.residual = r.map fin ∨ s'.residual = List.replicate r.length nan)) ∧ (∀ m ∈ l, ShowsCost (fin c) m) ∧
      s'.iterations = s.iterations + 1 ∧ s'.done = decide ((s.iterations : Int) ≥ sE.maxIterations - 1) := by
  obtain ⟨hwf, hdim, hr, hv, hr0⟩ := hc.facts hg hb hlb
  have hwfE : CooWF (A.map fin) := by
    obtain ⟨e1, e2, e3, e4⟩ := hwf
    exact ⟨by simpa [Coo.map] using e1, by simpa [Coo.map] using e2, e3, e4⟩
  have hbE := h.isAssignment hb
  have hsne : s.assignments.storage ≠ [] := by
    rw [h1]; simpa [Assign.map] using hne
  have hsA : IsAssignmentOf CE ws s.assignments := by rw [h1]; exact hbE
  have hsl : s.assignments.layout = g.layout := by rw [h1]; exact hlb
  have finish : ∀ {ATb gn delta : List Ext} {b' : Assign Ext} {co : Ext} {r' : List Ext},
      gE.jacobian s.assignments s.residual = .ok (A.map fin) →
      (A.map fin).T.matmul (s.residual.map fun x => -x) = .ok ATb → ATb.length = A.shape.2 →
      sE.linear (A.map fin) ATb (Scal.lit 0) s.iterations = .ok gn → doglegStep (A.map fin) ATb gn s.radius = .ok delta →
      delta.length = A.shape.2 →
      s.assignments.manifoldRetract CE ⟨delta, gE.localLayout⟩ = .ok b' → gE.computeCost b' = .ok (co, r') →
      (co = nan ∨ nan ∈ s.residual) → s.residual.length = r.length → (r' = r.map fin ∨ r' = List.replicate r.length nan) →
      ∃ s' l, sE.step CE gE s = .ok (s', l) ∧ (s'.assignments = b.map fin ∧ s'.cost = fin c ∧ s'.radius = fin ρ ∧
      (s'.residual = r.map fin ∨ s'.residual = List.replicate r.length nan)) ∧ (∀ m ∈ l, ShowsCost (fin c) m) ∧
      s'.iterations = s.iterations + 1 ∧ s'.done = decide ((s.iterations : Int) ≥ sE.maxIterations - 1) := by
    intro ATb gn delta b' co r' e1 e2 e3 e4 e4' e5 e6 e7 e8 e9 e10
    obtain ⟨conv, e11⟩ := h.converged_any (p := s.toState) hCE hg hsA hsl hsne sE.toCriteria co delta (ng := ATb) (e3.trans hdim)
    have e12 := stepQuality_nan (p := s.toState) (co := co) (d := delta) hwfE e5 (by rw [e9, hr]; rfl) e8
    have key := (doglegSolverStep_ok (C := CE) (g := gE) (s := sE) (p := s)).2
      ⟨A.map fin, ATb, gn, delta, b', co, r', nan, conv, e1, e2, e4, e4', e6, e7, e12, e11, rfl, rfl⟩
    rw [le_nan] at key
    refine ⟨_, _, key, ⟨?_, ?_, ?_, ?_⟩, showsCost_print h2, rfl, ?_⟩
    · rw [← h1]; rfl
    · exact h2
    · show doglegRadius nan s.radius delta = _
      unfold doglegRadius
      rw [nan_lt, lt_nan, h3]; rfl
    · exact e10
    · simp [doglegNext, Criteria.exceeded]
  obtain ⟨z, hz1, hz2⟩ := hc.gradient
  obtain ⟨j, hj, hcol⟩ := hc.column
  obtain ⟨l1, hzl, l3⟩ := matmul_vec (cooWF_T hwf) hz1
  have hzl : z.length = A.shape.2 := hzl
  obtain ⟨y, y1, y2, y3⟩ := matmul_ok hwf hzl
  rcases h4 with h4 | h4
  · -- a step of NaN
    obtain ⟨b', k1, -, -⟩ := h.retract_any hCE hg hsA hsl (d := List.replicate A.shape.2 nan) (by simp [hdim])
    refine finish (ATb := z.map fin) (gn := List.replicate A.shape.2 nan) (delta := List.replicate A.shape.2 nan) (b' := b') (co := nan)
      (r' := List.replicate r.length nan)
      ?_ ?_ (by simpa using hzl) ?_ ?_ (by simp) k1 ?_ (.inl rfl) (by rw [h4]; simp) (.inr rfl)
    · rw [h1, h4, h.jacobian, hc.jac]; rfl
    · rw [h4, fin_map_neg, coo_map_T, fin_matmul, hz1]; rfl
    · rw [hlin, fin_lit_zero]
      exact (C109_zero_column A hwf j hj hcol z hzl 0 _ (htol _)).2 hz2
    · -- the dogleg path
      have hy0 : sqNorm y ≠ 0 := by
        intro h0
        have hyv : vec y A.shape.1 = 0 := by
          refine (mem_zero_vec y2).1 ?_
          intro x hx
          have := List.all_zero_of_le_zero_le_of_sum_eq_zero (l := y.map fun x => x ^ 2)
            (by intro x hx; obtain ⟨e, -, rfl⟩ := List.mem_map.1 hx; positivity) h0 (x := x ^ 2) (List.mem_map.2 ⟨x, hx, rfl⟩)
          simpa using this
        rw [hyv] at y3
        have l3' : vec z A.shape.2 = (cooMatrix A A.shape.1 A.shape.2)ᵀ *ᵥ vec (r.map fun x => -x) A.shape.1 := by
          rw [← cooMatrix_T]; exact l3
        have hzz : vec z A.shape.2 ⬝ᵥ vec z A.shape.2 = 0 := by
          conv_lhs => rw [l3']
          rw [← l3', dotProduct_comm, l3', dotProduct_mulVec, vecMul_transpose, ← l3', ← y3, zero_dotProduct]
        obtain ⟨x, hx, hxne⟩ := hz2
        exact hxne ((mem_zero_vec hzl).2 (dotProduct_self_eq_zero.1 hzz) x hx)
      unfold doglegStep
      rw [fin_matmul, y1]
      simp only [Except.map, py_bind_ok]
      rw [if_neg (by simp [hzl]), h3]
      simp only [py_pure]
      rw [fin_sumSq, fin_sumSq, fin_div hy0, fin_map_mul, fin_vecNorm]
      have hn0 : vecNorm (List.replicate A.shape.2 nan) = nan := vecNorm_nan (by simp; omega)
      have e1 : Scal.le (vecNorm (List.replicate A.shape.2 nan)) (fin ρ) = false := by rw [hn0]; rfl
      have e2 : Scal.le (fin ρ) (fin (nrm (z.map fun x => sqNorm z / sqNorm y * x))) = false := by
        rw [Bool.eq_false_iff]
        intro hle
        have h5 := (fin_le _ _).1 hle
        have h6 := hst z y hz1 y1
        have h7 := nrm_sq (z.map fun x => sqNorm z / sqNorm y * x)
        nlinarith
      rw [e1, e2]
      simp only [Bool.false_eq_true, if_false, Except.ok.injEq]
      rw [List.eq_replicate_iff]
      refine ⟨by simp [hzl], fun x hx => ?_⟩
      obtain ⟨i, hi, rfl⟩ := List.getElem_of_mem hx
      simp only [List.getElem_zipWith, List.getElem_map, List.getElem_replicate, nan_sub, mul_nan, add_nan]
    · rw [h1] at k1
      exact hc.nan_cost b' k1
  · -- a step of zeros
    have hstay : s.assignments.manifoldRetract CE ⟨List.replicate A.shape.2 (fin 0), gE.localLayout⟩ = .ok (b.map fin) := by
      have := h.manifoldRetract b ⟨List.replicate A.shape.2 0, g.localLayout⟩
      rw [hg.zero_stays hz hb hlb (by intro y hy; exact List.eq_of_mem_replicate hy) (by simp [hdim])] at this
      rw [h1, h.localLayout, show (⟨List.replicate A.shape.2 (fin 0), g.localLayout⟩ : Assign Ext) =
        Assign.map fin ⟨List.replicate A.shape.2 0, g.localLayout⟩ by simp [Assign.map]]
      exact this
    have hvT : ((A.map fin).T).values ≠ [] := by simpa [Coo.T, Coo.map] using hv
    obtain ⟨w, w1, w2, w3⟩ := matmul_nan (cooWF_T hwfE) hvT
    have w2' : w.length = (A.map fin).shape.2 := w2
    have hnr : (s.residual.map fun x => -x) = List.replicate (A.map fin).T.shape.2 nan := by
      rw [h4, List.map_replicate, neg_nan, hr]; rfl
    refine finish (ATb := w) (gn := List.replicate A.shape.2 (fin 0)) (delta := List.replicate A.shape.2 (fin 0)) (b' := b.map fin)
      (co := fin c) (r' := r.map fin)
      ?_ ?_ w2 ?_ ?_ (by simp) hstay ?_ (.inr ?_) (by rw [h4]; simp) (.inl rfl)
    · rw [h1, h4]; exact hc.nan_jac
    · rw [hnr]; exact w1
    · rw [hlin]
      exact cgSolve_nan hwfE w2 w3 _ _
    · obtain ⟨u, u1, u2⟩ := matmul_any_ok hwfE w2'
      unfold doglegStep
      rw [u1]
      simp only [py_bind_ok]
      rw [if_neg (by rw [w2']; simp [Coo.map]), h3]
      simp only [py_pure]
      have e1 : Scal.le (vecNorm (List.replicate A.shape.2 (fin 0))) (fin ρ) = true := by
        have : List.replicate A.shape.2 (fin 0) = (List.replicate A.shape.2 (0 : ℝ)).map fin := by rw [List.map_replicate]
        rw [this, fin_vecNorm, fin_le]
        have : nrm (List.replicate A.shape.2 (0 : ℝ)) = 0 := by simp [nrm, sqNorm]
        rw [this]; exact hρ
      rw [e1]; rfl
    · rw [h.cost, hc.cost]; rfl
    · rw [h4]
      have : 0 < r.length := List.length_pos_iff.2 hr0
      simp; omega

/-- **C109**, dogleg. If in addition the steepest descent step is shorter than the initial radius, the dogleg solver with conjugate
gradients does not move either, and its radius stays as it is. -/
theorem C109_dogleg (h : Lifts CE gE C g) (hCE : GoodClasses CE) (hg : SaneGraph C g ws) (hz : ZeroRetract C)
    (hpos : ∀ t, 0 < (C t).paramDim) {vars : List Var} {a : Assign ℝ} (ha : IsAssignmentOf C vars a) (hv : ∀ v, v ∈ vars ↔ v ∈ ws)
    (hne : vars ≠ []) (hab : a.updateStorageLayout C g.layout = .ok b) (hc : ZeroColumn CE gE g b c r A)
    {sE : Dogleg Ext} {tol : Nat → ℝ} (htol : ∀ i, |tol i| < 1) (hlin : sE.linear = cgLinear fun i => fin (tol i))
    {ρ : ℝ} (hρ : sE.radiusInitial = fin ρ) (hρ0 : 0 ≤ ρ) (hst : ∀ z y, A.T.matmul (r.map fun x => -x) = .ok z → A.matmul z = .ok y →
      sqNorm (z.map fun x => sqNorm z / sqNorm y * x) < ρ ^ 2) {fuel : Nat} (hf : max 1 sE.maxIterations ≤ fuel) :
    ∃ log, sE.solve CE gE fuel (a.map fin) = .ok (some (a.map fin, log ++
      hcbPrint sE.verbose (.terminated (max 1 sE.maxIterations).toNat (fin c)))) ∧ ∀ m ∈ log, ShowsCost (fin c) m := by
  obtain ⟨hb, hlb, hbne, hback⟩ := to_graph_order hg ha hv hpos hne hab
  have hinit : sE.init gE (b.map fin) = .ok ⟨⟨0, b.map fin, fin c, r.map fin, false⟩, fin ρ⟩ := by
    unfold Dogleg.init initState
    rw [h.cost, hc.cost, hρ]; rfl
  obtain ⟨t, log, k1, ⟨k2, k3, -⟩, k4, k5⟩ := whileLoop_counter (base := DoglegState.toState) (step := sE.step CE gE)
    (N := sE.maxIterations) (P := fun s => s.assignments = b.map fin ∧ s.cost = fin c ∧ s.radius = fin ρ ∧
      (s.residual = r.map fin ∨ s.residual = List.replicate r.length nan)) (Q := ShowsCost (fin c))
    (fun s hs => dogleg_stuck_step h hCE hg hz hb hlb hbne hc htol hlin hρ0 hst s hs.1 hs.2.1 hs.2.2.1 hs.2.2.2)
    fuel ⟨⟨0, b.map fin, fin c, r.map fin, false⟩, fin ρ⟩ ⟨rfl, rfl, rfl, .inl rfl⟩ rfl (by omega) (by
      show sE.maxIterations - ((0 : Nat) : Int) ≤ fuel
      omega)
  refine ⟨log, ?_, k5⟩
  apply baseSolve_some.2
  refine ⟨b.map fin, _, t, log, ?_, hinit, k1, ?_, ?_⟩
  · rw [h.updateStorageLayout, h.layout, hab]; rfl
  · show t.assignments.updateStorageLayout CE a.layout = _
    rw [k2, h.updateStorageLayout, hback]; rfl
  · have e : t.iterations = (max 1 sE.maxIterations).toNat := by
      have : (t.iterations : Int) = max (((0 : Nat) : Int) + 1) sE.maxIterations := k4
      omega
    rw [k3, e]

/-- **C109**, Gauss-Newton. From such assignments the first step replaces everything by the retraction `b'` by NaN. If some stored number
of `b'` is NaN, a retraction by zero keeps `b'` and the Jacobian at `b'` has the same shape, then nothing changes any more: the solver
returns `b'` and reports the cost NaN. -/
theorem C109_gauss_newton (h : Lifts CE gE C g) (hCE : GoodClasses CE) (hg : SaneGraph C g ws)
    (hpos : ∀ t, 0 < (C t).paramDim) {vars : List Var} {a : Assign ℝ} (ha : IsAssignmentOf C vars a) (hv : ∀ v, v ∈ vars ↔ v ∈ ws)
    (hne : vars ≠ []) (hab : a.updateStorageLayout C g.layout = .ok b) (hc : ZeroColumn CE gE g b c r A)
    {b' out : Assign Ext} (hret : (b.map fin).manifoldRetract CE ⟨List.replicate A.shape.2 nan, gE.localLayout⟩ = .ok b')
    (hnan : nan ∈ b'.storage) (hstay : b'.manifoldRetract CE ⟨List.replicate A.shape.2 (fin 0), gE.localLayout⟩ = .ok b')
    {A' : Coo Ext} (hjac : gE.jacobian b' (List.replicate r.length nan) = .ok A') (hA' : CooWF A') (hsh : A'.shape = A.shape)
    (hv' : A'.values ≠ []) (hout : b'.updateStorageLayout CE a.layout = .ok out)
    {sE : GaussNewton Ext} {tol : Nat → ℝ} (htol : ∀ i, |tol i| < 1) (hlin : sE.linear = cgLinear fun i => fin (tol i))
    {fuel : Nat} (hf : max 1 sE.maxIterations ≤ fuel) :
    ∃ log i, sE.solve CE gE fuel (a.map fin) = .ok (some (out, log ++ hcbPrint sE.verbose (.terminated i nan))) := by
  obtain ⟨hb, hlb, hbne, hback⟩ := to_graph_order hg ha hv hpos hne hab
  obtain ⟨hwf, hdim, hr, hvA, hr0⟩ := hc.facts hg hb hlb
  have hbE := h.isAssignment hb
  have hinit : initState gE (b.map fin) = .ok ⟨0, b.map fin, fin c, r.map fin, false⟩ := by
    unfold initState
    rw [h.cost, hc.cost]; rfl
  obtain ⟨z, hz1, hz2⟩ := hc.gradient
  obtain ⟨j, hj, hcol⟩ := hc.column
  -- the first step
  obtain ⟨hret1, hret2⟩ := manifoldRetract_shape hret
  have hb'A : IsAssignmentOf CE ws b' := by
    obtain ⟨q1, q2, -, q4⟩ := h.retract_any hCE hg hbE hlb (d := List.replicate A.shape.2 nan) (by simp [hdim])
    rw [hret] at q2
    cases Except.ok.inj q2
    exact q4
  have hb'l : b'.layout = g.layout := by rw [hret1]; exact hlb
  obtain ⟨w0, v1, v2, v3⟩ := matmul_ok (cooWF_T hwf) (x := r) hr
  have hzl : z = w0.map fun x => -x := by
    obtain ⟨l1, l2, l3⟩ := matmul_vec (cooWF_T hwf) hz1
    refine ext_vec l2 (by simpa using v2) ?_
    rw [l3, vec_neg_list (by exact hr), mulVec_neg, ← v3]
    funext i
    rw [vec_map v2]; rfl
  have hzlen : z.length = A.shape.2 := by rw [hzl, List.length_map]; exact v2
  have hbneE : (b.map fin).storage ≠ [] := by simpa [Assign.map] using hbne
  have hfirst : ∃ conv, sE.step CE gE ⟨0, b.map fin, fin c, r.map fin, false⟩ = .ok (⟨1, b', nan, List.replicate r.length nan,
      sE.exceeded ⟨0, b.map fin, fin c, r.map fin, false⟩ || conv⟩,
      hcbPrint sE.verbose (.iteration 0 (some sE.maxIterations) (fin c) none)) := by
    obtain ⟨conv, hconv⟩ := h.converged_any (p := ⟨0, b.map fin, fin c, r.map fin, false⟩) hCE hg hbE hlb hbneE sE.toCriteria nan
      (List.replicate A.shape.2 nan) (ng := z.map fin) (by simpa [hdim] using hzlen)
    refine ⟨conv, gnStep_ok.2 ⟨A.map fin, w0.map fin, List.replicate A.shape.2 nan, b', nan, List.replicate r.length nan, conv, ?_, ?_, ?_,
      hret, hc.nan_cost b' hret, ?_, rfl, rfl⟩⟩
    · rw [h.jacobian, hc.jac]; rfl
    · rw [coo_map_T, fin_matmul, v1]; rfl
    · rw [fin_map_neg, ← hzl, hlin, fin_lit_zero]
      exact (C109_zero_column A hwf j hj hcol z hzlen 0 _ (htol _)).2 hz2
    · rw [fin_map_neg, ← hzl]; exact hconv
  -- later steps
  have hvT : A'.T.values ≠ [] := hv'
  obtain ⟨w, w1, w2, w3⟩ := matmul_nan (cooWF_T hA') hvT
  have hw1 : A'.T.matmul (List.replicate r.length nan) = .ok w := by
    have : r.length = A'.T.shape.2 := by rw [hr, ← hsh]; rfl
    rw [this]; exact w1
  have w2' : w.length = A'.shape.2 := w2
  have hstep : ∀ s : State Ext, (s.assignments = b' ∧ s.cost = nan ∧ s.residual = List.replicate r.length nan) →
      ∃ s' l, sE.step CE gE s = .ok (s', l) ∧ (s'.assignments = b' ∧ s'.cost = nan ∧ s'.residual = List.replicate r.length nan) ∧
        (∀ m ∈ l, True) ∧ s'.iterations = s.iterations + 1 ∧ s'.done = decide ((s.iterations : Int) ≥ sE.maxIterations - 1) := by
    rintro s ⟨s1, s2, s3⟩
    have hconv : sE.converged CE s nan ⟨List.replicate A.shape.2 (fin 0), gE.localLayout⟩ (w.map fun x => -x) = .ok false := by
      unfold Criteria.converged Criteria.convergedGradient
      obtain ⟨m, m1, m2, m3⟩ := h.retract_any hCE hg (a := s.assignments) (by rw [s1]; exact hb'A) (by rw [s1]; exact hb'l)
        (d := w.map fun x => -x) (by rw [List.length_map, w2', hsh, hdim])
      simp only [m1, py_bind_ok]
      have hml : m.storage.length = s.assignments.storage.length := by rw [m3.2.2, m2, s1, ← hb'A.2.2]
      rw [jnpMax_nan (l := List.zipWith (· - ·) s.assignments.storage m.storage) (by
        obtain ⟨i, hi, he⟩ := List.getElem_of_mem hnan
        have hi' : i < s.assignments.storage.length := by rw [s1]; exact hi
        have e : (List.zipWith (· - ·) s.assignments.storage m.storage)[i]'(by simp; omega) = nan := by
          rw [List.getElem_zipWith]
          have : s.assignments.storage[i] = nan := by simp only [s1]; exact he
          rw [this, nan_sub]
        rw [← e]; exact List.getElem_mem _)]
      simp only [py_bind_ok, py_pure, nan_lt, ite_self]
      unfold Criteria.convergedCost Criteria.convergedParameters
      rw [nan_sub, s1, vecNorm_nan hnan, nan_add, nan_mul, lt_nan]
      have : Scal.abs nan / s.cost = nan := nan_div _
      rw [this, nan_lt]; rfl
    refine ⟨_, _, gnStep_ok.2 ⟨A', w, List.replicate A.shape.2 (fin 0), b', nan, List.replicate r.length nan, false, ?_, ?_, ?_,
      ?_, hc.nan_cost b' hret, hconv, rfl, rfl⟩, ⟨rfl, rfl, rfl⟩, by simp, rfl, by simp [Criteria.exceeded]⟩
    · rw [s1, s3]; exact hjac
    · rw [s3]; exact hw1
    · rw [hlin]
      have := cgSolve_nan hA' (b := w.map fun x => -x) (by simpa using w2') (List.mem_map.2 ⟨nan, w3, rfl⟩) (Scal.lit 0)
        (fin (tol s.iterations))
      rw [hsh] at this
      exact this
    · rw [s1]; exact hstay
  obtain ⟨conv, hfirst⟩ := hfirst
  obtain ⟨F, rfl⟩ : ∃ F, fuel = F + 1 := ⟨fuel - 1, by omega⟩
  have hup : (a.map fin).updateStorageLayout CE gE.layout = .ok (b.map fin) := by
    rw [h.updateStorageLayout, h.layout, hab]; rfl
  cases hd : (sE.exceeded ⟨0, b.map fin, fin c, r.map fin, false⟩ || conv) with
  | true =>
    rw [hd] at hfirst
    refine ⟨hcbPrint sE.verbose (.iteration 0 (some sE.maxIterations) (fin c) none) ++ [], 1,
      baseSolve_some.2 ⟨b.map fin, _, ⟨1, b', nan, List.replicate r.length nan, true⟩, _, hup, hinit, ?_, hout, rfl⟩⟩
    unfold whileLoop
    simp only [id, Bool.false_eq_true, if_false, hfirst, py_bind_ok]
    rw [whileLoop_done rfl]
    rfl
  | false =>
    rw [hd] at hfirst
    have hex : ¬ ((0 : Nat) : Int) ≥ sE.maxIterations - 1 := by
      intro hx
      have : sE.exceeded ⟨0, b.map fin, fin c, r.map fin, false⟩ = true := decide_eq_true hx
      rw [this] at hd
      cases hd
    obtain ⟨t, log, k1, ⟨k2, k3, -⟩, -⟩ := whileLoop_counter (base := id) (step := sE.step CE gE) (N := sE.maxIterations)
      (P := fun s => s.assignments = b' ∧ s.cost = nan ∧ s.residual = List.replicate r.length nan) (Q := fun _ => True) hstep F
      ⟨1, b', nan, List.replicate r.length nan, false⟩ ⟨rfl, rfl, rfl⟩ rfl (by omega) (by
        show sE.maxIterations - ((1 : Nat) : Int) ≤ F
        omega)
    refine ⟨hcbPrint sE.verbose (.iteration 0 (some sE.maxIterations) (fin c) none) ++ log, t.iterations, baseSolve_some.2 ⟨b.map fin, _, t, _, hup, hinit, ?_, by rw [← k2] at hout; exact hout, by rw [← k3]; rfl⟩⟩
    unfold whileLoop
    simp only [id, Bool.false_eq_true, if_false, hfirst, py_bind_ok]
    simp only [id] at k1
    rw [k1]
    rfl

end

/-! ### Concrete cases -/

-- one residual, two unknowns: the matrix has rank one and no column of zeros
example (tol : ℝ) := C109_no_zero_column ⟨[1, 1], [0, 0], [0, 1], (1, 2)⟩ ⟨rfl, rfl, by simp, by simp⟩
  (by
    intro j hj h
    have h1 := h (0, j, 1) (by
      have hj : j < 2 := hj
      interval_cases j <;> simp [entries]) rfl
    norm_num at h1) [3] rfl 0 le_rfl tol

-- the second unknown does not occur
example : cgSolveS (⟨[fin 1], [0], [0], (1, 2)⟩ : Coo Ext) [fin 3, fin 0] (fin 0) (fin (1 / 10)) = .ok [nan, nan] :=
  (C109_zero_column ⟨[1], [0], [0], (1, 2)⟩ ⟨rfl, rfl, by simp, by simp⟩ 1 (by simp) (by simp [ZeroAt, entries]) [3, 0] rfl 0 (1 / 10)
    (by norm_num [abs_of_pos])).2 ⟨3, by simp, by norm_num⟩

-- the factor with the residuals `x - 1` and `y²`, started at `(3/2, 0)`, default settings and tolerance
private theorem flat_hyps : (∀ _ : Nat, |(1 / 100000 : ℝ)| < 1) ∧ (3 / 2 : ℝ) ≠ 1 :=
  ⟨fun _ => by rw [abs_of_pos] <;> norm_num, by norm_num⟩

example (L : LinSolver ℝ) : ∃ log, ({ (LevenbergMarquardt.defaults L).lift with linear := cgLinear fun _ => fin (1 / 100000) } :
    LevenbergMarquardt Ext).solve Ex.CE Flat.gE 100 ((Flat.at_ (3 / 2) 0).map fin) =
      .ok (some ((Flat.at_ (3 / 2) 0).map fin, log ++ [.terminated 100 (fin ((3 / 2 - 1) ^ 2))])) := by
  obtain ⟨log, h, -⟩ := C109_levenberg_marquardt Flat.lifts Ex.goodE Flat.sane Poly.zeroRetract (by intro t; rw [Ex.paramDim]; omega)
    (Flat.at_assignment (3 / 2) 0) (fun _ => Iff.rfl) (by simp) rfl (Flat.zeroColumn _ flat_hyps.2)
    (sE := { (LevenbergMarquardt.defaults L).lift with linear := cgLinear fun _ => fin (1 / 100000) }) flat_hyps.1 rfl rfl rfl rfl rfl
    (fuel := 100) (by show max 1 (100 : Int) ≤ 100; norm_num)
  exact ⟨log, h⟩

example (L : LinSolver ℝ) : ∃ log, ({ (Dogleg.defaults L).lift with linear := cgLinear fun _ => fin (1 / 100000) } :
    Dogleg Ext).solve Ex.CE Flat.gE 100 ((Flat.at_ (3 / 2) 0).map fin) =
      .ok (some ((Flat.at_ (3 / 2) 0).map fin, log ++ [.terminated 100 (fin ((3 / 2 - 1) ^ 2))])) := by
  obtain ⟨log, h, -⟩ := C109_dogleg Flat.lifts Ex.goodE Flat.sane Poly.zeroRetract (by intro t; rw [Ex.paramDim]; omega)
    (Flat.at_assignment (3 / 2) 0) (fun _ => Iff.rfl) (by simp) rfl (Flat.zeroColumn _ flat_hyps.2)
    (sE := { (Dogleg.defaults L).lift with linear := cgLinear fun _ => fin (1 / 100000) }) flat_hyps.1 rfl (ρ := 1) rfl zero_le_one
    (by
      intro z y hz hy
      have e1 : (Flat.J 0).T.matmul ([(3 / 2 : ℝ) - 1, 0].map fun x => -x) =
        .ok [0 + 1 * (-(3 / 2 - 1)) + 0 * -0, 0 + 0 * (-(3 / 2 - 1)) + 2 * 0 * -0] := rfl
      rw [e1] at hz
      cases Except.ok.inj hz
      have e2 : ∀ u v : ℝ, (Flat.J 0).matmul [u, v] = .ok [0 + 1 * u + 0 * v, 0 + 0 * u + 2 * 0 * v] := fun _ _ => rfl
      rw [e2] at hy
      cases Except.ok.inj hy
      norm_num [sqNorm])
    (fuel := 100) (by show max 1 (100 : Int) ≤ 100; norm_num)
  exact ⟨log, h⟩

example (L : LinSolver ℝ) : ∃ log i, ({ (GaussNewton.defaults L).lift with linear := cgLinear fun _ => fin (1 / 100000) } :
    GaussNewton Ext).solve Ex.CE Flat.gE 100 ((Flat.at_ (3 / 2) 0).map fin) =
      .ok (some (Flat.atNan, log ++ [.terminated i nan])) :=
  C109_gauss_newton Flat.lifts Ex.goodE Flat.sane (by intro t; rw [Ex.paramDim]; omega)
    (Flat.at_assignment (3 / 2) 0) (fun _ => Iff.rfl) (by simp) rfl (Flat.zeroColumn _ flat_hyps.2) (b' := Flat.atNan) rfl
    (by simp [Flat.atNan]) rfl Flat.jac_nan ⟨rfl, rfl, by simp, by simp⟩ rfl (by simp) rfl
    (sE := { (GaussNewton.defaults L).lift with linear := cgLinear fun _ => fin (1 / 100000) }) flat_hyps.1 rfl (fuel := 100) (by show max 1 (100 : Int) ≤ 100; norm_num)

end Jaxfg.Props
