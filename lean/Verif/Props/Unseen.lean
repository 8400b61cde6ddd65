/-
Property C113: solvers do not move along directions that no measurement sees. See Verif.Props.SolverReal for the setting: real
arithmetic, inside a program that also knows infinities and NaNs.
-/
import Verif.Lemmas.Unseen
import Verif.Lemmas.Parts
import Verif.Lemmas.SymmetryPose
import Verif.Lemmas.ExampleDeriv
import Verif.Props.Invariants
import Verif.Props.SolverSpecial
import Verif.Props.ZeroColumn

namespace Jaxfg.Props
open Spec
open Matrix hiding vec
open Ext (fin)

/-! ### The linear solvers -/

/-- **C113**, the direct solver. CHOLMOD damps with a multiple of the identity, so its answers are orthogonal to the directions that
the matrix maps to zero. This holds for every damping. -/
theorem C113_cholmod_orthogonal (stale : Pattern → ScipyCoo ℝ → ℝ → List ℝ → Py (List ℝ)) (addr : Nat) :
    OrthogonalSolutions (fun A b l _ => (cholmodSolve stale .empty addr A b l).1) := by
  intro A b l i x hA hb h v hv hvb
  have h : (cholmodSolve stale .empty addr A b l).1 = .ok x := h
  unfold cholmodSolve at h
  rw [asScipy_ok (cooWF_T hA)] at h
  have hS : (⟨A.T.values, A.T.rows, A.T.cols, A.T.shape⟩ : ScipyCoo ℝ).toMatrix = (cooMatrix A A.shape.1 A.shape.2)ᵀ := by
    rw [toMatrix_eq]; exact cooMatrix_T
  have ha : (cholmodAnalysis .empty addr ⟨A.T.values, A.T.rows, A.T.cols, A.T.shape⟩).1 =
      ScipyCoo.pattern ⟨A.T.values, A.T.rows, A.T.cols, A.T.shape⟩ := rfl
  simp only [ha, cholmodFactorSolve, if_true] at h
  split at h
  · cases h
  · split at h
    · rename_i hpd
      obtain ⟨M, hM⟩ : ∃ M, M = cooMatrix A A.shape.1 A.shape.2 := ⟨_, rfl⟩
      change Matrix (Fin A.shape.1) (Fin A.shape.2) ℝ at M
      obtain ⟨T, hT⟩ : ∃ T : Matrix (Fin A.shape.2) (Fin A.shape.1) ℝ,
          T = (⟨A.T.values, A.T.rows, A.T.cols, A.T.shape⟩ : ScipyCoo ℝ).toMatrix := ⟨_, rfl⟩
      have hT' : T = Mᵀ := by rw [hT, hM]; exact hS
      obtain ⟨H, hH⟩ : ∃ H : Matrix (Fin A.shape.2) (Fin A.shape.2) ℝ, H = T * Tᵀ + (l + 1 / 100000) • 1 := ⟨_, rfl⟩
      have hpd : H.PosDef := by rw [hH, hT]; exact hpd
      have hx : x = List.ofFn (H⁻¹ *ᵥ vec b A.shape.2) := by
        rw [hH, hT]; exact (Except.ok.inj h).symm
      rw [hT', transpose_transpose] at hH
      have hu : IsUnit H.det := (Matrix.isUnit_iff_isUnit_det _).1 hpd.isUnit
      have hsolve : H *ᵥ vec x A.shape.2 = vec b A.shape.2 := by
        have hv : vec (List.ofFn (H⁻¹ *ᵥ vec b A.shape.2)) A.shape.2 = H⁻¹ *ᵥ vec b A.shape.2 := vec_ofVec _
        rw [hx, hv, mulVec_mulVec, mul_nonsing_inv _ hu, one_mulVec]
      rw [← hM] at hv
      have hHv : ∀ w, v ⬝ᵥ (H *ᵥ w) = (l + 1 / 100000) * (v ⬝ᵥ w) := by
        intro w
        rw [hH, add_mulVec, dotProduct_add, ← mulVec_mulVec, dotProduct_mulVec, vecMul_transpose, hv, zero_dotProduct, smul_mulVec,
          one_mulVec, dotProduct_smul, zero_add, smul_eq_mul]
      by_cases h0 : v = 0
      · rw [h0, zero_dotProduct]
      · have h1 := hpd.dotProduct_mulVec_pos h0
        rw [star_trivial, hHv] at h1
        have h2 := hHv (vec x A.shape.2)
        rw [hsolve, hvb] at h2
        exact (mul_eq_zero.1 h2.symm).resolve_left fun h3 => by rw [h3, zero_mul] at h1; exact lt_irrefl _ h1
    · cases h

/-- **C113**, conjugate gradients. The Jacobi preconditioner weighs coordinates with the squared norms of the columns of the matrix.
Answers are orthogonal in these weights to the directions that the matrix maps to zero. -/
theorem C113_cg_weighted (A : Coo ℝ) (hA : CooWF A) (hcol : ∀ j < A.shape.2, ¬ ZeroAt A j) (b : List ℝ) (hb : b.length = A.shape.2)
    (l tol : ℝ) (x : List ℝ) (hx : cgSolve A b l tol = .ok x) (v : Fin A.shape.2 → ℝ)
    (hv : cooMatrix A A.shape.1 A.shape.2 *ᵥ v = 0) (hvb : v ⬝ᵥ vec b A.shape.2 = 0) :
    ∑ j, v j * (((entries A).filter fun e => e.2.1 = j.val).map fun e => e.2.2 ^ 2).sum * vec x A.shape.2 j = 0 := by
  have hpos : ∀ j, 0 < colSquares A A.shape.2 j := fun j => (colSquares_pos_iff A j).2 (hcol j j.2)
  have h := opsMatch hA l
  have h0 : vec (List.replicate A.shape.2 (0 : ℝ)) A.shape.2 = 0 := by
    funext i; rw [vec_eq (by simp)]; simp
  obtain ⟨y, h1, h2, h3⟩ := h.op (List.replicate A.shape.2 0) (by simp)
  rw [h0, mulVec_zero] at h3
  have hlr : (List.zipWith (· - ·) b y).length = A.shape.2 := by simp [hb, h2]
  have hr0 : vec (List.zipWith (· - ·) b y) A.shape.2 = vec b A.shape.2 := by
    funext i; rw [vec_zipWith hb h2, h3]; simp
  obtain ⟨hz1, hz2⟩ := h.pre _ hlr
  rw [hr0] at hz2
  have hs : CgMatch ⟨List.replicate A.shape.2 0, List.zipWith (· - ·) b y,
      vdot (List.zipWith (· - ·) b y) (jacobiPreconditioner (ataDiagonals A A.shape.2) (List.zipWith (· - ·) b y)),
      jacobiPreconditioner (ataDiagonals A A.shape.2) (List.zipWith (· - ·) b y)⟩
      (CG.seq (cgMatrix A l) (cgPreconditioner A) (CG.start (cgPreconditioner A) (vec b A.shape.2)) 0) := by
    refine ⟨by simp, hlr, hz1, h0, hr0, ?_, hz2⟩
    rw [vdot_eq hlr hz1, hz2, hr0]; rfl
  obtain ⟨s', k', g1, g2, -⟩ := cgLoop_ok h (max (tol ^ 2 * vdot b b) 0) (CG.start (cgPreconditioner A) (vec b A.shape.2)) A.shape.2 0 hs
  have hx' : x = s'.x := by
    unfold cgSolve cg at hx
    simp only [hb, List.length_replicate, h1, py_bind_ok, g1] at hx
    exact (Except.ok.inj hx).symm
  obtain ⟨E, hE⟩ : ∃ E : Matrix (Fin A.shape.2) (Fin A.shape.2) ℝ, E = diagonal (colSquares A A.shape.2) := ⟨_, rfl⟩
  have hEM : E * cgPreconditioner A = 1 := by
    rw [hE, cgPreconditioner, diagonal_mul_diagonal, ← diagonal_one]
    congr 1
    funext j
    exact mul_inv_cancel₀ (hpos j).ne'
  have hvH : ∀ w, v ⬝ᵥ (cgMatrix A l *ᵥ w) = l * (v ⬝ᵥ (E *ᵥ w)) := by
    intro w
    rw [cgMatrix, add_mulVec, dotProduct_add, ← mulVec_mulVec, dotProduct_mulVec, vecMul_transpose, hv, zero_dotProduct, smul_mulVec,
      dotProduct_smul, zero_add, smul_eq_mul, hE]
  have hvM : ∀ w, v ⬝ᵥ (E *ᵥ (cgPreconditioner A *ᵥ w)) = v ⬝ᵥ w := by
    intro w; rw [mulVec_mulVec, hEM, one_mulVec]
  have inv : ∀ k, let s := CG.seq (cgMatrix A l) (cgPreconditioner A) (CG.start (cgPreconditioner A) (vec b A.shape.2)) k
      v ⬝ᵥ s.r = 0 ∧ v ⬝ᵥ (E *ᵥ s.p) = 0 ∧ v ⬝ᵥ (E *ᵥ s.x) = 0 := by
    intro k
    induction k with
    | zero =>
      refine ⟨hvb, ?_, ?_⟩
      · show v ⬝ᵥ (E *ᵥ (cgPreconditioner A *ᵥ _)) = 0
        rw [hvM, hvb]
      · show v ⬝ᵥ (E *ᵥ 0) = 0
        rw [mulVec_zero, dotProduct_zero]
    | succ k ih =>
      obtain ⟨i1, i2, i3⟩ := ih
      simp only [CG.seq, CG.step]
      have hr : ∀ α : ℝ, v ⬝ᵥ ((CG.seq (cgMatrix A l) (cgPreconditioner A) (CG.start (cgPreconditioner A) (vec b A.shape.2)) k).r -
          α • (cgMatrix A l *ᵥ (CG.seq (cgMatrix A l) (cgPreconditioner A) (CG.start (cgPreconditioner A) (vec b A.shape.2)) k).p)) = 0 := by
        intro α
        rw [dotProduct_sub, i1, dotProduct_smul, hvH, i2, mul_zero, smul_zero, sub_zero]
      refine ⟨hr _, ?_, ?_⟩
      · rw [mulVec_add, dotProduct_add, hvM, hr, mulVec_smul, dotProduct_smul, i2, smul_zero, add_zero]
      · rw [mulVec_add, dotProduct_add, i3, mulVec_smul, dotProduct_smul, i2, smul_zero, add_zero]
  have := (inv k').2.2
  rw [← g2.x, ← hx', hE] at this
  rw [← this]
  simp only [dotProduct, mulVec_diagonal]
  exact Finset.sum_congr rfl fun j _ => mul_assoc _ _ _

/-- The Jacobian of two measurements of differences in a chain of three numbers. -/
def chainOfThree : Coo ℝ := ⟨[1, -1, 1, -1], [0, 0, 1, 1], [0, 1, 1, 2], (2, 3)⟩

theorem chain_wf : CooWF chainOfThree := by unfold CooWF chainOfThree; simp

theorem chain_matrix : cooMatrix chainOfThree 2 3 = !![1, -1, 0; 0, 1, -1] := by
  funext i j
  fin_cases i <;> fin_cases j <;> simp [cooMatrix, entries, chainOfThree]

theorem chain_columns : ∀ j < 3, ¬ ZeroAt chainOfThree j := by
  intro j hj h
  unfold ZeroAt at h
  simp only [entries, chainOfThree] at h
  have h1 := h (0, 0, 1) (by simp)
  have h2 := h (0, 1, -1) (by simp)
  have h3 := h (1, 2, -1) (by simp)
  simp only at h1 h2 h3
  interval_cases j <;> simp_all

/-- **C113**, the two linear solvers disagree. Measurements of differences say nothing about the sum of three numbers. A Gauss-Newton
step with CHOLMOD keeps the sum; the same step with conjugate gradients, even if they converge exactly, moves it. -/
theorem C113_cg_moves : ∃ x, cgSolve chainOfThree [1, -1, 0] 0 0 = .ok x ∧ cooMatrix chainOfThree 2 3 *ᵥ ![1, 1, 1] = 0 ∧
    x.sum = 1 / 4 := by
  have hb : ([1, -1, 0] : List ℝ).length = chainOfThree.shape.2 := rfl
  have hpos : ∀ j, 0 < colSquares chainOfThree chainOfThree.shape.2 j :=
    fun j => (colSquares_pos_iff chainOfThree j).2 (chain_columns j j.2)
  have hr : vec [1, -1, 0] chainOfThree.shape.2 = (cooMatrix chainOfThree chainOfThree.shape.1 chainOfThree.shape.2)ᵀ *ᵥ ![1, 0] := by
    show vec [1, -1, 0] 3 = (cooMatrix chainOfThree 2 3)ᵀ *ᵥ ![1, 0]
    rw [chain_matrix]
    funext i
    fin_cases i <;> simp [vec, mulVec, dotProduct, Fin.sum_univ_two]
  have hp := proper_of_range chainOfThree (le_refl 0) ![1, 0]
  rw [← hr] at hp
  obtain ⟨x, g1, g2, g3⟩ := cg_ok_of (opsMatch chain_wf 0) (cgMatrix_symm _ 0) (cgPreconditioner_symm _)
    (cgPreconditioner_pd_of _ hpos) hb hp 0
  have hx : cgSolve chainOfThree [1, -1, 0] 0 0 = .ok x := g1
  have hk : cooMatrix chainOfThree 2 3 *ᵥ ![1, 1, 1] = 0 := by
    rw [chain_matrix]
    funext i
    fin_cases i <;> simp [mulVec, dotProduct, Fin.sum_univ_three]
  refine ⟨x, hx, hk, ?_⟩
  have hw := C113_cg_weighted chainOfThree chain_wf chain_columns [1, -1, 0] hb 0 0 x hx ![1, 1, 1] hk (by
    show ![1, 1, 1] ⬝ᵥ vec [1, -1, 0] 3 = 0
    simp [dotProduct, vec, Fin.sum_univ_three])
  have hres : vec [1, -1, 0] chainOfThree.shape.2 - cgMatrix chainOfThree 0 *ᵥ vec x chainOfThree.shape.2 = 0 := by
    rw [← dotProduct_self_eq_zero]
    refine le_antisymm (g3.trans (by simp)) ?_
    exact Finset.sum_nonneg fun i _ => mul_self_nonneg _
  obtain ⟨p, q, s, rfl⟩ := List.length_eq_three.1 g2
  have hres : vec [1, -1, 0] 3 - ((cooMatrix chainOfThree 2 3)ᵀ * cooMatrix chainOfThree 2 3) *ᵥ vec [p, q, s] 3 = 0 := by
    unfold cgMatrix at hres
    rw [zero_smul, add_zero] at hres
    exact hres
  rw [chain_matrix, sub_eq_zero, ← mulVec_mulVec] at hres
  have e0 := congrFun hres 0
  have e2 := congrFun hres 2
  simp [vec, mulVec, dotProduct, Fin.sum_univ_three, Fin.sum_univ_two] at e0 e2
  have hw : ∑ j : Fin 3, ![1, 1, 1] j * (((entries chainOfThree).filter fun e => e.2.1 = j.val).map fun e => e.2.2 ^ 2).sum *
      vec [p, q, s] 3 j = 0 := hw
  simp [Fin.sum_univ_three, entries, chainOfThree, vec] at hw
  simp only [List.sum_cons, List.sum_nil]
  linarith

/-! ### The nonlinear solvers -/

section
variable (F : Nat → FactorClass) (C : Ty → VarClass ℝ)

theorem component_stacked {fs : List Factor} {u : Var → List ℝ} {vars : List Var} {val : Var → Value ℝ} {b : Assign ℝ}
    (hE : UsesDefaultRetraction C (Graph.variablesOf fs)) (hlen : ∀ f ∈ fs, ∀ v ∈ f.vars, (u v).length = (C v.ty).localDim)
    (hn : vars.Nodup) (hs : ∀ v, v ∈ vars ↔ ∃ f ∈ fs, v ∈ f.vars) (h : Stores C (Graph.variablesOf fs) val b) :
    vdot (stacked fs u) b.storage = component u vars val := by
  have hv := variablesOf_spec fs
  have hl : ∀ v ∈ grouped (Graph.variablesOf fs), (u v).length = (val v).flatten.length := by
    intro v hv'
    have hv' := mem_grouped.1 hv'
    obtain ⟨f, hf, hm⟩ := (hv.2 v).1 hv'
    have := h.1.len v hv'
    simp only [dimOf, Bool.false_eq_true, if_false] at this
    rw [hlen f hf v hm, this, hE v hv']
    rfl
  rw [h.1.storage, stacked, vdot_flatMap hl]
  have hperm : (grouped (Graph.variablesOf fs)).Perm vars :=
    (grouped_perm _).trans ((List.perm_ext_iff_of_nodup hv.1 hn).2 fun v => by rw [hv.2, hs])
  exact (hperm.map _).sum_eq

/-- If all Jacobians map `x` to zero, and solutions of the linear solver are orthogonal to what the Jacobian maps to zero, then solving
keeps the inner product of `x` with the values, stored in the order of the graph. -/
theorem orthogonal_kept (hC : GoodClasses C) {fs : List Factor} (hne : fs ≠ []) (hfs : ∀ f ∈ fs, FactorWF F C f)
    (hpos : ∀ f ∈ fs, ∀ v ∈ f.vars, 0 < (C v.ty).paramDim) (hE : ∀ f ∈ fs, UsesDefaultRetraction C f.vars)
    {g : Graph} (hG : GraphOf F C fs g) {x : List ℝ} (hxl : x.length = g.localLayout.dim)
    (h0 : ∀ val a w A, Holds C fs (Graph.variablesOf fs) val a → (∀ f ∈ fs, (w f).length = rdim f) →
      g.computeWhitenedResidualJacobian F C a ((evalOrder fs).flatMap w) = .ok A →
      cooMatrix A A.shape.1 A.shape.2 *ᵥ vec x A.shape.2 = 0)
    {CE : Ty → VarClass Ext} {gE : GraphOps Ext} (hl : Lifts CE gE C (g.ops F C)) {vars : List Var} {val : Var → Value ℝ} {a b : Assign ℝ}
    (ha : Holds C fs vars val a) (hb : Stores C (Graph.variablesOf fs) val b) :
    let O := fun o : Assign ℝ => o.layout = a.layout ∧ ∃ val' b', Holds C fs vars val' o ∧ Stores C (Graph.variablesOf fs) val' b' ∧
      vdot x b'.storage = vdot x b.storage
    (∀ sE s, LiftsGN sE s → SizedSolutions s.linear → OrthogonalSolutions s.linear → ReturnsOnly (sE.solve CE gE) a O) ∧
    (∀ sE s, LiftsLM sE s → SizedSolutions s.linear → OrthogonalSolutions s.linear → s.lambdaFactor ≠ 0 →
      ReturnsOnly (sE.solve CE gE) a O) ∧
    (∀ sE s, LiftsDogleg sE s → SizedSolutions s.linear → OrthogonalSolutions s.linear → ZeroAtZero s.linear →
      0 < s.radiusInitial → ReturnsOnly (sE.solve CE gE) a O) ∧
    (∀ (sE : FixedIteration Ext) L, LiftsSolver sE.linear L → SizedSolutions L → OrthogonalSolutions L → a.layout = g.layout →
      ReturnsOnly (sE.solve CE gE) a O) := by
  intro O
  have hv := variablesOf_spec fs
  have hE' : UsesDefaultRetraction C (Graph.variablesOf fs) := by
    intro v hv'
    obtain ⟨f, hf, hm⟩ := (hv.2 v).1 hv'
    exact hE f hf v hm
  have hp : ∀ v ∈ Graph.variablesOf fs, 0 < (C v.ty).paramDim := fun v hv' => by
    obtain ⟨f, hf, hm⟩ := (hv.2 v).1 hv'; exact hpos f hf v hm
  have sim := fun L hL hO => orthogonal_sim (L := L) hC hfs hne hG hE' hL hO hxl h0 (vdot x b.storage)
  have same : ∀ {y y' : Assign ℝ}, KeepR C (Graph.variablesOf fs) x (vdot x b.storage) y y' → y' = y := by
    rintro ⟨s, l⟩ ⟨s', l'⟩ ⟨⟨w, h1, h2, -⟩, -⟩
    have e1 := h1.1.layout; have e2 := h2.1.layout; have e3 := h1.1.storage; have e4 := h2.1.storage
    simp only at e1 e2 e3 e4
    rw [e1, e2, e3, e4]
  have hT : ∀ t : Criteria ℝ, TestSim True C C (g.ops F C) (g.ops F C)
      (KeepR C (Graph.variablesOf fs) x (vdot x b.storage)) (SymQ fs id)
      (KeepD g.localLayout.dim x) t (InBounds t) := by
    intro t p p' c d d' z z' conv _ hp hd hz h
    obtain ⟨p1, p2, p3, p4, p5⟩ := p
    obtain ⟨q1, q2, q3, q4, q5⟩ := p'
    obtain ⟨h1, h2, h3, h4, h5⟩ := hp
    obtain rfl : q1 = p1 := h1
    obtain rfl : q3 = p3 := h2
    obtain rfl : q2 = p2 := same h3
    obtain rfl : q4 = p4 := h4.1.1
    obtain rfl : q5 = p5 := h5 trivial
    rw [hd.1.1, hz.1.1]
    exact ⟨conv, h, fun _ => rfl⟩
  have ha' := stores_of_holds hC ha
  have hsame : ∀ v, v ∈ vars ↔ v ∈ Graph.variablesOf fs := fun v => by rw [ha.sameVars, hv.2]
  obtain ⟨b₁, u1, -, hb₁⟩ := ha'.update hv.1 hsame fun v hv' => hp v ((hsame v).1 hv')
  obtain rfl : b₁ = b := by
    obtain ⟨s, l⟩ := b
    obtain ⟨s', l'⟩ := b₁
    have e1 := hb.1.layout; have e2 := hb₁.1.layout; have e3 := hb.1.storage; have e4 := hb₁.1.storage
    simp only at e1 e2 e3 e4
    rw [e1, e2, e3, e4]
  have hlay : g.layout = Layout.make C (Graph.variablesOf fs) false := hG.layout
  have hR : KeepR C (Graph.variablesOf fs) x (vdot x b₁.storage) b₁ b₁ := ⟨⟨val, hb, hb, fun _ _ => trivial⟩, rfl⟩
  have hin : ∀ {y}, a.updateStorageLayout C (g.ops F C).layout = .ok y →
      ∃ y', a.updateStorageLayout C (g.ops F C).layout = .ok y' ∧ KeepR C (Graph.variablesOf fs) x (vdot x b₁.storage) y y' := by
    intro y hy
    have hy' : a.updateStorageLayout C g.layout = .ok y := hy
    rw [hlay] at hy'
    obtain rfl : b₁ = y := Except.ok.inj (u1.symm.trans hy')
    exact ⟨b₁, hy, hR⟩
  have hlayA : a.layout = Layout.make C vars false := by have := ha.assignment.2.1; rwa [ha.isGlobal] at this
  have hout : ∀ {y y' o}, KeepR C (Graph.variablesOf fs) x (vdot x b₁.storage) y y' →
      y.updateStorageLayout C a.layout = .ok o → ∃ o', y'.updateStorageLayout C a.layout = .ok o' ∧ O o := by
    intro y y' o hy ho
    obtain rfl : y' = y := same hy
    obtain ⟨⟨val', s1, -, -⟩, hk⟩ := hy
    refine ⟨o, ho, ?_⟩
    obtain ⟨o1, e1, e2, e3⟩ := s1.update ha.assignment.1 (fun v => (hsame v).symm) hp
    rw [← hlayA] at e1 e2
    obtain rfl : o1 = o := Except.ok.inj (e1.symm.trans ho)
    exact ⟨e2, val', _, e3.holds ha.sameVars, s1, hk⟩
  refine ⟨fun sE s hs hL hO fuel out log h => ?_, fun sE s hs hL hO hf fuel out log h => ?_,
    fun sE s hs hL hO hz hr fuel out log h => ?_, fun sE L hs hL hO h1 fuel out log h => ?_⟩
  · obtain ⟨o, o', k1, -, k2⟩ := (sim _ hL hO).gnSolve (O := fun o _ => O o) hl hl hs hs (hT _) hin hout h
    exact ⟨o, k1, k2⟩
  · obtain ⟨o, o', k1, -, k2⟩ := (sim _ hL hO).lmSolve (O := fun o _ => O o) hl hl hs hs hf (hT _) hin hout h
    exact ⟨o, k1, k2⟩
  · obtain ⟨o, o', k1, -, k2⟩ := (sim _ hL hO).doglegSolve (O := fun o _ => O o) hl hl hs hs hz hr (hT _) hin hout h
    exact ⟨o, k1, k2⟩
  · have e1 : a.updateStorageLayout C g.layout = .ok a := by
      unfold Assign.updateStorageLayout; rw [h1, hG.layout, layoutEq_refl C (variablesOf_spec _).1]; rfl
    rw [hlay] at e1
    obtain rfl : a = b₁ := Except.ok.inj (e1.symm.trans u1)
    obtain ⟨o, o', k1, -, k2⟩ := (sim _ hL hO).fixedSolve hl hl hs hs rfl rfl rfl hR h
    have e2 : o.layout = a.layout := by
      obtain ⟨⟨val', s1, -⟩, -⟩ := k2
      rw [h1, hG.layout]; exact s1.1.layout
    have e3 : o.updateStorageLayout C a.layout = .ok o := by
      unfold Assign.updateStorageLayout; rw [e2, hlayA, layoutEq_refl C ha.assignment.1]; rfl
    obtain ⟨-, -, k3⟩ := hout k2 e3
    exact ⟨o, k1, k3⟩

/-- **C113.** Let all variables use the default retraction, and let moving them along `u` change no residual. If the solutions of the
linear solver are orthogonal to what the Jacobian maps to zero, solving keeps the component of the values along `u`. The result has
the layout of the initial values. -/
theorem C113_component (hC : GoodClasses C) (fs : List Factor) (hne : fs ≠ []) (hfs : ∀ f ∈ fs, FactorWF F C f)
    (hpos : ∀ f ∈ fs, ∀ v ∈ f.vars, 0 < (C v.ty).paramDim) (hE : ∀ f ∈ fs, UsesDefaultRetraction C f.vars)
    (hJ : ∀ f ∈ fs, ∀ vals, ValuesFor C f.vars vals → JacobiansCorrect F C f vals) (u : Var → List ℝ) (hu : Unseen F C fs u) :
    ∃ g, Graph.make C fs = .ok g ∧ ∀ CE gE, Lifts CE gE C (g.ops F C) →
      ∀ vars val a, Holds C fs vars val a →
        let O := fun o : Assign ℝ => o.layout = a.layout ∧ ∃ val', Holds C fs vars val' o ∧ component u vars val' = component u vars val
        (∀ sE s, LiftsGN sE s → SizedSolutions s.linear → OrthogonalSolutions s.linear → ReturnsOnly (sE.solve CE gE) a O) ∧
        (∀ sE s, LiftsLM sE s → SizedSolutions s.linear → OrthogonalSolutions s.linear → s.lambdaFactor ≠ 0 →
          ReturnsOnly (sE.solve CE gE) a O) ∧
        (∀ sE s, LiftsDogleg sE s → SizedSolutions s.linear → OrthogonalSolutions s.linear → ZeroAtZero s.linear →
          0 < s.radiusInitial → ReturnsOnly (sE.solve CE gE) a O) ∧
        (∀ (sE : FixedIteration Ext) L, LiftsSolver sE.linear L → SizedSolutions L → OrthogonalSolutions L → a.layout = g.layout →
          ReturnsOnly (sE.solve CE gE) a O) := by
  obtain ⟨g, hg, hG⟩ := graph_ok (F := F) hfs hne
  refine ⟨g, hg, fun CE gE hl vars val a ha => ?_⟩
  intro O
  have hv := variablesOf_spec fs
  have hE' : UsesDefaultRetraction C (Graph.variablesOf fs) := by
    intro v hv'
    obtain ⟨f, hf, hm⟩ := (hv.2 v).1 hv'
    exact hE f hf v hm
  have hp : ∀ v ∈ Graph.variablesOf fs, 0 < (C v.ty).paramDim := fun v hv' => by
    obtain ⟨f, hf, hm⟩ := (hv.2 v).1 hv'; exact hpos f hf v hm
  have hsame : ∀ v, v ∈ vars ↔ v ∈ Graph.variablesOf fs := fun v => by rw [ha.sameVars, hv.2]
  obtain ⟨b, -, -, hb⟩ := (stores_of_holds hC ha).update hv.1 hsame fun v hv' => hp v ((hsame v).1 hv')
  have h0 : ∀ f ∈ fs, ∀ vals, ValuesFor C f.vars vals → applyBlocks C (rdim f) f.vars ((F f.cls).jacobians f.self vals) u = 0 :=
    fun f hf vals h => hu.blocks hf h (hJ f hf vals h)
  have key := orthogonal_kept F C hC hne hfs hpos hE hG (stacked_rep hG hu.length).storage_length'
    (fun _ _ _ _ hh hw hA => jacobian_stacked hC hfs hne hG hh hw hA hu.length fun f hf => h0 f hf _ (hh.valuesFor hC hf)) hl ha hb
  have weaken : ∀ {solve}, ReturnsOnly solve a (fun o : Assign ℝ => o.layout = a.layout ∧ ∃ val' b', Holds C fs vars val' o ∧
      Stores C (Graph.variablesOf fs) val' b' ∧ vdot (stacked fs u) b'.storage = vdot (stacked fs u) b.storage) →
      ReturnsOnly solve a O := by
    intro solve h fuel out log hq
    obtain ⟨o, k1, k2, val', b', k3, k4, k5⟩ := h fuel out log hq
    rw [component_stacked C hE' hu.length ha.assignment.1 ha.sameVars k4,
      component_stacked C hE' hu.length ha.assignment.1 ha.sameVars hb] at k5
    exact ⟨o, k1, k2, val', k3, k5⟩
  obtain ⟨k1, k2, k3, k4⟩ := key
  exact ⟨fun sE s hs hL hO => weaken (k1 sE s hs hL hO), fun sE s hs hL hO hf => weaken (k2 sE s hs hL hO hf),
    fun sE s hs hL hO hz hr => weaken (k3 sE s hs hL hO hz hr), fun sE L hs hL hO h1 => weaken (k4 sE L hs hL hO h1)⟩

/-- **C113, CHOLMOD.** All solvers with the direct solver keep the component of the values along directions that no measurement
sees. -/
theorem C113_cholmod (hC : GoodClasses C) (fs : List Factor) (hne : fs ≠ []) (hfs : ∀ f ∈ fs, FactorWF F C f)
    (hpos : ∀ f ∈ fs, ∀ v ∈ f.vars, 0 < (C v.ty).paramDim) (hE : ∀ f ∈ fs, UsesDefaultRetraction C f.vars)
    (hJ : ∀ f ∈ fs, ∀ vals, ValuesFor C f.vars vals → JacobiansCorrect F C f vals) (u : Var → List ℝ) (hu : Unseen F C fs u)
    (stale : Pattern → ScipyCoo ℝ → ℝ → List ℝ → Py (List ℝ)) (addr : Nat) :
    let L : LinSolver ℝ := fun A b l _ => (cholmodSolve stale .empty addr A b l).1
    ∃ g, Graph.make C fs = .ok g ∧ ∀ CE gE, Lifts CE gE C (g.ops F C) →
      ∀ vars val a, Holds C fs vars val a →
        let O := fun o : Assign ℝ => o.layout = a.layout ∧ ∃ val', Holds C fs vars val' o ∧ component u vars val' = component u vars val
        (∀ sE s, LiftsGN sE s → s.linear = L → ReturnsOnly (sE.solve CE gE) a O) ∧
        (∀ sE s, LiftsLM sE s → s.linear = L → s.lambdaFactor ≠ 0 → ReturnsOnly (sE.solve CE gE) a O) ∧
        (∀ sE s, LiftsDogleg sE s → s.linear = L → 0 < s.radiusInitial → ReturnsOnly (sE.solve CE gE) a O) ∧
        (∀ (sE : FixedIteration Ext), LiftsSolver sE.linear L → a.layout = g.layout → ReturnsOnly (sE.solve CE gE) a O) := by
  intro L
  obtain ⟨g, hg, h⟩ := C113_component F C hC fs hne hfs hpos hE hJ u hu
  refine ⟨g, hg, fun CE gE hl vars val a ha => ?_⟩
  obtain ⟨k1, k2, k3, k4⟩ := h CE gE hl vars val a ha
  have l1 := cholmod_sized stale addr
  have l2 := C113_cholmod_orthogonal stale addr
  have l3 := cholmod_zeroAtZero stale addr
  exact ⟨fun sE s hs e => k1 sE s hs (by rw [e]; exact l1) (by rw [e]; exact l2),
    fun sE s hs e => k2 sE s hs (by rw [e]; exact l1) (by rw [e]; exact l2),
    fun sE s hs e => k3 sE s hs (by rw [e]; exact l1) (by rw [e]; exact l2) (by rw [e]; exact l3),
    fun sE hs => k4 sE L hs l1 l2⟩

end

/-- Non-vacuity of C113: the numbers `x` and `y` are tied by a measurement of their difference only, and `z` has a prior. No
measurement sees a common motion of `x` and `y`, so their sum is kept. -/
example : let u : Var → List ℝ := fun v => if v.ty = 0 then [1] else [0, 0]
    (∀ f ∈ [Ex.f2, Ex.f4], FactorWF Ex.F Ex.C f) ∧ (∀ f ∈ [Ex.f2, Ex.f4], UsesDefaultRetraction Ex.C f.vars) ∧
    (∀ f ∈ [Ex.f2, Ex.f4], ∀ vals, ValuesFor Ex.C f.vars vals → JacobiansCorrect Ex.F Ex.C f vals) ∧
    Unseen Ex.F Ex.C [Ex.f2, Ex.f4] u ∧ Holds Ex.C [Ex.f2, Ex.f4] Ex.vars Ex.val Ex.a ∧ component u Ex.vars Ex.val = 30 := by
  refine ⟨?_, ?_, ?_, ⟨?_, ?_⟩, ?_, ?_⟩
  · intro f hf
    simp only [List.mem_cons, List.not_mem_nil, or_false] at hf
    rcases hf with rfl | rfl
    exacts [Ex.f2_wf, Ex.f4_wf]
  · intro f _ v _
    rfl
  · intro f hf vals hv
    simp only [List.mem_cons, List.not_mem_nil, or_false] at hf
    rcases hf with rfl | rfl
    · cases hv with
      | cons h1 h2 =>
        cases h2 with
        | cons h2 h3 =>
          cases h3
          exact Ex.between_correct Ex.x Ex.y rfl Ex.f2.noise _ ⟨rfl, rfl⟩ h1 h2
    · cases hv with
      | cons h1 h2 =>
        cases h2
        exact Ex.prior_correct Ex.z Ex.f4.noise _ ⟨rfl, rfl⟩ h1
  · intro f hf v hv
    simp only [List.mem_cons, List.not_mem_nil, or_false] at hf
    rw [Ex.localDim]
    rcases hf with rfl | rfl <;> simp only [Ex.f2, Ex.f4, List.mem_cons, List.not_mem_nil, or_false] at hv
    · rcases hv with rfl | rfl <;> simp [Ex.x, Ex.y]
    · subst hv; simp [Ex.z]
  · intro f hf vals hv t
    simp only [List.mem_cons, List.not_mem_nil, or_false] at hf
    rcases hf with rfl | rfl
    · cases hv with
      | @cons _ p _ _ h1 h2 =>
        cases h2 with
        | @cons _ q _ _ h2 h3 =>
          cases h3
          obtain ⟨e1, e2⟩ := Ex.retract_entry h1 (d := [t * 1]) rfl (i := 0) (by decide)
          obtain ⟨e3, e4⟩ := Ex.retract_entry h2 (d := [t * 1]) rfl (i := 0) (by decide)
          have l1 := Ex.value_length h1
          simp only [Ex.x, Ex.y] at e1 e2 e3 e4 l1
          simp [movedValues, Ex.F, Ex.f2, Ex.x, Ex.y, Factor.self] at e1 e2 e3 e4 l1 ⊢
          rw [e1, l1]
          simp [e2, e4]
    · cases hv with
      | @cons _ p _ _ h1 h2 =>
        cases h2
        obtain ⟨e1, e2⟩ := Ex.retract_entry h1 (d := [t * 0, t * 0]) rfl (i := 0) (by decide)
        obtain ⟨-, e3⟩ := Ex.retract_entry h1 (d := [t * 0, t * 0]) rfl (i := 1) (by decide)
        have l1 := Ex.value_length h1
        simp only [Ex.z] at e1 e2 e3 l1
        simp [movedValues, Ex.F, Ex.f4, Ex.z, Factor.self] at e1 e2 e3 l1 ⊢
        rw [e1, l1]
        simp [List.range_succ, e2, e3]
  · refine ⟨Ex.holds.assignment, Ex.holds.isGlobal, fun v => ?_, Ex.holds.values⟩
    simp [Ex.vars, Ex.f2, Ex.f4]
    tauto
  · simp [component, Ex.vars, Ex.val, Ex.flat, Ex.x, Ex.y, Ex.z, Value.flatten]
    norm_num

end Jaxfg.Props
