/-
Property C105: the tests of covariances (tests/test_marginalization.py) pass for all random draws, measurements and poses.
-/
import Verif.Model.MarginalizationTest
import Verif.Props.Anchored
import Verif.Props.Sparse
import Verif.Lemmas.PoseGraphScript

namespace Jaxfg.Props
open Spec SparseCovariance
open Matrix hiding vec

theorem assertAllclose_self (x : List (List ℝ)) : assertAllclose x x = .ok () := by
  have h : List.Forall₂ (List.Forall₂ fun x y : ℝ => |x - y| ≤ 1e-8 + 1e-5 * |y|) x x := by
    refine List.forall₂_same.2 fun r _ => List.forall₂_same.2 fun y _ => ?_
    rw [sub_self, abs_zero]
    positivity
  simp only [assertAllclose, pyAssert, h, decide_true, if_true]

theorem allclose_entry {m n : Nat} {M N : Matrix (Fin m) (Fin n) ℝ}
    (h : List.Forall₂ (List.Forall₂ fun x y : ℝ => |x - y| ≤ 1e-8 + 1e-5 * |y|) (matRows M) (matRows N)) (i : Fin m) (j : Fin n) :
    |M i j - N i j| ≤ 1e-8 + 1e-5 * |N i j| := by
  have h1 := (List.forall₂_iff_get.1 h).2 i (by rw [matRows, List.length_ofFn]; exact i.2) (by rw [matRows, List.length_ofFn]; exact i.2)
  simp only [matRows, List.get_ofFn] at h1
  have h2 := (List.forall₂_iff_get.1 h1).2 j (by rw [List.length_ofFn]; exact j.2) (by rw [List.length_ofFn]; exact j.2)
  rw [List.get_ofFn, List.get_ofFn] at h2
  exact h2

/-- What the first two tests compare: the covariance, and the covariance with its coordinates in the order that CHOLMOD chose. -/
theorem marginalization_eq (lib : CholmodChoice) (depth : Nat) (hd : 5 ≤ depth) (next copies : Nat) (hc : copies ≠ 0)
    (S : Matrix (Fin 3) (Fin 3) ℝ) (hS : S.det ≠ 0) :
    ∃ p, marginalizationTest lib depth next copies S =
      assertAllclose (matRows (S * Sᵀ)) (matRows ((S * Sᵀ).submatrix (lib.order p 3) (lib.order p 3))) := by
  have hpos : (S * Sᵀ).PosDef := by
    rw [← conjTranspose_eq_transpose_of_trivial]
    refine Matrix.PosDef.mul_conjTranspose_self S ?_
    intro x y hxy
    rw [← sub_eq_zero] at hxy ⊢
    rw [← Matrix.sub_vecMul] at hxy
    exact Matrix.eq_zero_of_vecMul_eq_zero hS hxy
  obtain ⟨v, hv⟩ : ∃ v : Var, v = ⟨se2Ty, next⟩ := ⟨_, rfl⟩
  obtain ⟨N, hN⟩ : ∃ N, Noise.gaussianFromCovariance (.ofMat (S * Sᵀ)) = .ok N := ⟨_, rfl⟩
  have hC := lie_goodClasses g2oClasses_eq
  have hCv : g2oClasses v.ty = LieType.se2.ops.varClass := by rw [hv]; rfl
  have hval : IsValueOf (g2oClasses v.ty) (LieGroup.se2.value LieGroup.se2.identity) := by
    rw [hCv]; exact (isValueOf_lie .se2).2 ⟨_, rfl, rfl⟩
  have hdict : (PyDict.empty.set v (LieGroup.se2.value LieGroup.se2.identity)) = ⟨[(v, LieGroup.se2.value LieGroup.se2.identity)]⟩ := rfl
  have hget : ∀ w x, (⟨[(v, LieGroup.se2.value LieGroup.se2.identity)]⟩ : PyDict Var (Value ℝ)).get? w = some x →
      w = v ∧ x = LieGroup.se2.value LieGroup.se2.identity := by
    intro w x h
    by_cases hw : v = w
    · subst hw
      simp [PyDict.get?] at h
      exact ⟨rfl, h.symm⟩
    · have : (w == v) = false := beq_false_of_ne (Ne.symm hw)
      simp [PyDict.get?, List.lookup, this] at h
  have hself : (⟨[(v, LieGroup.se2.value LieGroup.se2.identity)]⟩ : PyDict Var (Value ℝ)).get? v =
      some (LieGroup.se2.value LieGroup.se2.identity) := by simp [PyDict.get?]
  obtain ⟨a, ha, ha1, ha2, -, ha3, -⟩ := C06_make_from_dict g2oClasses (fun t => by rw [g2oClasses_eq]; exact lie_wellShaped _)
    ⟨[(v, LieGroup.se2.value LieGroup.se2.identity)]⟩ (by simp [PyDict.keys])
    (by simp [PyDict.keys]) (by rintro w x hx; obtain ⟨rfl, rfl⟩ := hget w x hx; exact hval)
  have hfs : List.replicate copies (PriorFactor.make (priorCls (LieGroup.se2.value LieGroup.se2.identity).treedef) v
      (LieGroup.se2.value LieGroup.se2.identity) N) =
      (List.replicate copies LieGroup.se2.identity).map fun mu => PriorFactor.make 1 v (LieType.se2.ops.value mu) N := by
    rw [List.map_replicate]; rfl
  have hH : Holds g2oClasses ((List.replicate copies LieGroup.se2.identity).map fun mu => PriorFactor.make 1 v (LieType.se2.ops.value mu) N)
      [v] (fun _ => LieGroup.se2.value LieGroup.se2.identity) a := by
    refine ⟨ha1, ha2, fun w => ?_, fun w hw => ?_⟩
    · simp [PriorFactor.make, hc]
    · obtain rfl := List.mem_singleton.1 hw
      exact ha3 _ _ hself
  obtain ⟨g, c, σ, h1, h2, h3, h4⟩ := C82_equal_priors (F := g2oFactors) lib hC .se2 v hCv 1 rfl
    (.ofMat (S * Sᵀ)) (isMat_ofMat _) (by rw [show LieType.se2.ops.tangentDim = 3 from rfl, arrMat_ofMat]; exact hpos) N hN
    (List.replicate copies LieGroup.se2.identity)
    (by intro mu hmu; rw [(List.mem_replicate.1 hmu).2]; rfl) (by simpa using hc) [v] _ a hH
  have h5 := h4 .empty .make depth (by show 2 * 3 ≤ depth + 1; omega)
  obtain ⟨p, hp⟩ := h3
  refine ⟨p, ?_⟩
  obtain ⟨τ, hτ⟩ : ∃ τ : Equiv.Perm (Fin 3), τ = lib.order p 3 := ⟨_, rfl⟩
  have hστ : σ = τ := hp.trans hτ.symm
  rw [← hτ]
  have h6 : (c.computeMarginal g2oClasses depth [v] .empty).1 = .ok (matRows ((copies : ℝ)⁻¹ • (S * Sᵀ).submatrix τ τ)) := by
    rw [h5, hστ, List.length_replicate]
    congr 1
    refine congrArg _ (funext fun i => congrArg _ (funext fun j => ?_))
    refine (congrArg (· / (copies : ℝ)) (congrFun (congrFun (arrMat_ofMat (S * Sᵀ)) (τ i)) (τ j))).trans ?_
    exact (inv_mul_eq_div (copies : ℝ) ((S * Sᵀ) (τ i) (τ j))).symm
  have h7 : (matRows ((copies : ℝ)⁻¹ • (S * Sᵀ).submatrix τ τ)).map (fun row => row.map (· * (copies : ℝ))) =
      matRows ((S * Sᵀ).submatrix τ τ) := by
    have hc0 : (copies : ℝ) ≠ 0 := by exact_mod_cast hc
    unfold matRows
    rw [List.map_ofFn]
    refine congrArg _ (funext fun i => ?_)
    rw [Function.comp, List.map_ofFn]
    refine congrArg _ (funext fun j => ?_)
    simp only [Function.comp, Matrix.smul_apply, smul_eq_mul]
    field_simp
  unfold marginalizationTest
  simp only [← hv, hN, py_bind_ok, hfs, h1, hdict, ha, h2, h6, h7]

/-- **C105, `test_marginalization` and `test_marginalization_double`.** If CHOLMOD keeps the order of the coordinates and Python
allows five nested calls, the tests pass for every draw of a matrix with determinant not 0, with any number of priors. -/
theorem C105_marginalization (lib : CholmodChoice) (hlib : ∀ p n, lib.order p n = 1) (depth : Nat) (hd : 5 ≤ depth) (next copies : Nat)
    (hc : copies ≠ 0) (S : Matrix (Fin 3) (Fin 3) ℝ) (hS : S.det ≠ 0) :
    marginalizationTest lib depth next copies S = .ok () := by
  obtain ⟨p, h⟩ := marginalization_eq lib depth hd next copies hc S hS
  rw [h, hlib]
  exact assertAllclose_self _

/-- **C105, other orders.** If CHOLMOD changed the order of three coordinates, the tests would fail for the draw
`diag(1, 2, 3)`. -/
theorem C105_marginalization_order (lib : CholmodChoice) (hlib : ∀ p, lib.order p 3 ≠ 1) (depth : Nat) (hd : 5 ≤ depth)
    (next copies : Nat) (hc : copies ≠ 0) :
    marginalizationTest lib depth next copies (Matrix.diagonal ![1, 2, 3]) = .error .assertion := by
  obtain ⟨p, h⟩ := marginalization_eq lib depth hd next copies hc (Matrix.diagonal ![1, 2, 3]) (by
    simp [Matrix.det_diagonal, Fin.prod_univ_three])
  rw [h]
  obtain ⟨τ, hτ⟩ : ∃ τ : Equiv.Perm (Fin 3), τ = lib.order p 3 := ⟨_, rfl⟩
  rw [← hτ]
  obtain ⟨i, hi⟩ : ∃ i, τ i ≠ i := by
    by_contra hall
    push Not at hall
    exact hlib p (hτ ▸ Equiv.ext hall)
  have h3 : ∀ j : Fin 3, j ≠ i → ¬ (|Matrix.diagonal (![1, 4, 9] : Fin 3 → ℝ) i i -
      Matrix.diagonal (![1, 4, 9] : Fin 3 → ℝ) j j| ≤ 1e-8 + 1e-5 * |Matrix.diagonal (![1, 4, 9] : Fin 3 → ℝ) j j|) := by
    intro j hj
    fin_cases i <;> fin_cases j <;> first | exact absurd rfl hj | (simp; norm_num [abs_of_nonneg, abs_of_neg])
  have hD : (Matrix.diagonal ![1, 2, 3] : Matrix (Fin 3) (Fin 3) ℝ) * (Matrix.diagonal ![1, 2, 3])ᵀ =
      Matrix.diagonal (![1, 4, 9] : Fin 3 → ℝ) := by
    rw [Matrix.diagonal_transpose, Matrix.diagonal_mul_diagonal]
    congr 1
    funext k
    fin_cases k <;> norm_num
  have hno : ¬ List.Forall₂ (List.Forall₂ fun x y : ℝ => |x - y| ≤ 1e-8 + 1e-5 * |y|)
      (matRows ((Matrix.diagonal ![1, 2, 3] : Matrix (Fin 3) (Fin 3) ℝ) * (Matrix.diagonal ![1, 2, 3])ᵀ))
      (matRows (((Matrix.diagonal ![1, 2, 3] : Matrix (Fin 3) (Fin 3) ℝ) * (Matrix.diagonal ![1, 2, 3])ᵀ).submatrix τ τ)) := by
    intro hall
    have h2 := allclose_entry hall i i
    rw [Matrix.submatrix_apply, hD] at h2
    exact h3 (τ i) hi h2
  simp only [assertAllclose, pyAssert, hno, decide_false]
  rfl

/-- **C105, `test_marginalization_as_dense`.** If CHOLMOD keeps the order of the coordinates, the test passes for all measured poses,
whatever valid poses `graph.solve` returns. -/
theorem C105_as_dense (lib : CholmodChoice) (hlib : ∀ p n, lib.order p n = 1) (depth : Nat) (hd : 11 ≤ depth) (next : Nat)
    (mu0 mu1 T : List ℝ) (hmu0 : LieType.se2.Valid mu0) (hmu1 : LieType.se2.Valid mu1) (hT : LieType.se2.Valid T)
    (pose : Var → List ℝ) (hpose : ∀ v ∈ simpleVariables next, LieType.se2.Valid (pose v)) (a : Assign ℝ)
    (ha : IsAssignmentOf g2oClasses (simpleVariables next) a) (hflag : a.layout.localFlag = false)
    (hval : ∀ v ∈ simpleVariables next, a.getValue g2oClasses v = .ok (LieGroup.se2.value (pose v))) :
    asDenseTest lib depth next mu0 mu1 T a = .ok () := by
  obtain ⟨x, hx⟩ : ∃ x : Var, x = ⟨se2Ty, next⟩ := ⟨_, rfl⟩
  obtain ⟨y, hy⟩ : ∃ y : Var, y = ⟨se2Ty, next + 1⟩ := ⟨_, rfl⟩
  obtain ⟨N, hN⟩ : ∃ N, N = Noise.gaussian (.ofMat (1 : Matrix (Fin 3) (Fin 3) ℝ)) := ⟨_, rfl⟩
  have hvars : simpleVariables next = [x, y] := by rw [hx, hy]; rfl
  rw [hvars] at hpose ha hval
  have hxy : x ≠ y := by rw [hx, hy]; simp
  have hKx : fileGroup x.ty = .se2 := by rw [hx]; rfl
  have hKy : fileGroup y.ty = .se2 := by rw [hy]; rfl
  obtain ⟨f2, hf2, hf2'⟩ : ∃ f2, BetweenFactor.make (betweenCls (LieGroup.se2.value T).treedef) (fun t => (g2oGroup t).treedef) x y
      (LieGroup.se2.value T) N = .ok f2 ∧ f2 = ⟨0, [x, y], N, (LieGroup.se2.value T).leaves⟩ := by
    rw [hx, hy]; exact ⟨_, rfl, rfl⟩
  obtain ⟨fs, hfs⟩ : ∃ fs, fs = [PriorFactor.make 1 x (LieGroup.se2.value mu0) N, PriorFactor.make 1 y (LieGroup.se2.value mu1) N, f2] :=
    ⟨_, rfl⟩
  have hmk : asDenseFactors x y mu0 mu1 T = .ok fs := by
    unfold asDenseFactors
    simp only [← hN, hf2, py_bind_ok]
    rw [hfs]; rfl
  have hM : ∀ f ∈ fs, ∃ P, Measures g2oFactors fileGroup f P := by
    intro f hf
    rw [hfs] at hf
    simp only [List.mem_cons, List.not_mem_nil, or_false] at hf
    rcases hf with rfl | rfl | rfl
    · have := Measures.prior (F := g2oFactors) (K := fileGroup) 1 x mu0 N (by rw [hKx]; rfl) (by rw [hKx]; exact hmu0)
      rw [hKx] at this
      exact ⟨_, this⟩
    · have := Measures.prior (F := g2oFactors) (K := fileGroup) 1 y mu1 N (by rw [hKy]; rfl) (by rw [hKy]; exact hmu1)
      rw [hKy] at this
      exact ⟨_, this⟩
    · refine ⟨_, Measures.between (F := g2oFactors) (K := fileGroup) 0 x y T N _ (by rw [hKx]; rfl) (by rw [hKx]; exact hT) ?_⟩
      rw [hf2', hKx, hx, hy]
      rfl
  have hty : ∀ f ∈ fs, f.noise = N ∧ ∀ v ∈ f.vars, fileGroup v.ty = .se2 := by
    intro f hf
    rw [hfs] at hf
    simp only [List.mem_cons, List.not_mem_nil, or_false] at hf
    rcases hf with rfl | rfl | rfl
    · exact ⟨rfl, fun v hv => by rw [List.mem_singleton.1 hv, hKx]⟩
    · exact ⟨rfl, fun v hv => by rw [List.mem_singleton.1 hv, hKy]⟩
    · rw [hf2']
      refine ⟨rfl, fun v hv => ?_⟩
      rcases List.mem_cons.1 hv with rfl | hv
      · exact hKx
      · rw [List.mem_singleton.1 hv, hKy]
  have hnoise : ∀ f ∈ fs, ∀ v ∈ f.vars, NoiseWF f.noise (fileGroup v.ty).ops.tangentDim (fileGroup v.ty).ops.tangentDim ∧
      NoiseRegular f.noise (fileGroup v.ty).ops.tangentDim := by
    intro f hf v hv
    rw [(hty f hf).1, (hty f hf).2 v hv, hN]
    refine ⟨isMat_ofMat _, ?_⟩
    show (arrMat (.ofMat (1 : Matrix (Fin 3) (Fin 3) ℝ)) 3 3).det ≠ 0
    rw [arrMat_ofMat, det_one]
    exact one_ne_zero
  have hK : ∀ v ∈ [x, y], fileGroup v.ty = .se2 := by
    intro v hv
    simp only [List.mem_cons, List.not_mem_nil, or_false] at hv
    rcases hv with rfl | rfl
    exacts [hKx, hKy]
  have hH : Holds g2oClasses fs [x, y] (poseValue fileGroup pose) a := by
    refine ⟨ha, hflag, fun v => ?_, fun v hv => ?_⟩
    · rw [hfs, hf2']
      simp [PriorFactor.make]
      tauto
    · rw [hval v hv, poseValue, hK v hv]
      rfl
  have hpose' : ∀ v ∈ [x, y], (fileGroup v.ty).Valid (pose v) := fun v hv => by rw [hK v hv]; exact hpose v hv
  have hne : fs ≠ [] := by rw [hfs]; simp
  obtain ⟨g, hg, hok, -⟩ := C104_anchored lib g2oFactors g2oClasses fileGroup g2oClasses_eq fs hne hM hnoise [x, y] pose
    hpose' a hH
  obtain ⟨c, hc⟩ := hok (by
    intro v hv
    simp only [List.mem_cons, List.not_mem_nil, or_false] at hv
    rcases hv with rfl | rfl
    · exact .prior (f := PriorFactor.make 1 v (LieGroup.se2.value mu0) N) (by rw [hfs]; simp) rfl
    · exact .prior (f := PriorFactor.make 1 v (LieGroup.se2.value mu1) N) (by rw [hfs]; simp) rfl)
  -- the Jacobian
  have hG := lie_goodClasses g2oClasses_eq
  have hwf : ∀ f ∈ fs, FactorWF g2oFactors g2oClasses f := by
    intro f hf
    obtain ⟨P, hP⟩ := hM f hf
    exact (C54_wellformed g2oFactors g2oClasses fileGroup f P hP fun v hv => ⟨g2oClasses_eq _, (hnoise f hf v hv).1⟩).1
  obtain ⟨w, hw⟩ := Holds.whitened hG hwf hH
  obtain ⟨g', hg', hGo⟩ := graph_ok (F := g2oFactors) (C := g2oClasses) hwf hne
  obtain rfl : g = g' := Except.ok.inj (hg.symm.trans hg')
  have hres := (residual_ok hG hwf hne hGo hH (fun f hf => (hw f hf).1)).1
  obtain ⟨g', hg'', -, -, hnd, hJac⟩ := C19_coordinates (F := g2oFactors) (C := g2oClasses) hG fs hne hwf
  obtain rfl : g = g' := Except.ok.inj (hg.symm.trans hg'')
  obtain ⟨A, hJ, hshape, hcoord, hA⟩ := hJac [x, y] _ a hH w (fun f hf => (hw f hf).2)
  have hdim : g.localLayout.dim = 6 := by
    have hs := variablesOf_spec fs
    have hp : (Graph.variablesOf fs).Perm [x, y] := by
      rw [List.perm_ext_iff_of_nodup hs.1 (by simp [hxy])]
      intro v
      rw [hs.2, ← hH.sameVars]
    rw [hGo.localLayout, make_dim _ hs.1]
    unfold total
    rw [(((grouped_perm _).trans hp).map _).sum_eq]
    simp [dimOf, hx, hy]
    rfl
  have hn : A.shape.2 = 6 := by rw [hshape]; exact hdim
  obtain ⟨D, hD, -, -, hDm, -⟩ := C33_as_dense_partial A hA (by
    rw [hcoord]
    refine hnd fun f hf => ?_
    rw [hfs] at hf
    simp only [List.mem_cons, List.not_mem_nil, or_false] at hf
    rcases hf with rfl | rfl | rfl
    · simp [PriorFactor.make]
    · simp [PriorFactor.make]
    · rw [hf2']; simp [hxy])
  obtain ⟨σ, hσ, hcov⟩ := covariance_factor lib g2oFactors g2oClasses hres hJ hA (n := A.shape.2) rfl
  obtain rfl : σ = 1 := by obtain ⟨p, hp⟩ := hσ; rw [hp, hlib]
  have hPD : ((cooMatrix A A.shape.1 A.shape.2)ᵀ * cooMatrix A A.shape.1 A.shape.2).PosDef := by
    by_contra hnp
    rw [hcov.2 hnp] at hc
    cases hc
  obtain ⟨L, h1, h2, h3⟩ := hcov.1 hPD
  obtain rfl : c = ofFactor L g.localLayout := Except.ok.inj (hc.symm.trans h1)
  have hLd : IsTriangularFactor L g.localLayout.dim := by rw [hshape] at h2; exact h2
  have hrows : ∀ cache, Reachable (ofFactor L g.localLayout) cache → ∀ b, ((ofFactor L g.localLayout).asDense depth b cache).1 =
      .ok (matRows ((cooMatrix A A.shape.1 A.shape.2)ᵀ * cooMatrix A A.shape.1 A.shape.2)⁻¹) := by
    intro cache hr b
    have h5 := C52_as_dense hLd hr depth (by rw [hdim]; omega) b
    rw [h5]
    have hd2 : g.localLayout.dim = A.shape.2 := by rw [hshape]
    congr 1
    have aux : ∀ n, n = A.shape.2 → List.ofFn (fun i => List.ofFn fun j => ((cscMatrix L n * (cscMatrix L n)ᵀ)⁻¹) i j) =
        matRows ((cooMatrix A A.shape.1 A.shape.2)ᵀ * cooMatrix A A.shape.1 A.shape.2)⁻¹ := by
      rintro n rfl
      rw [h3]
      rfl
    exact aux _ hd2
  have hdet : ((cooMatrix A A.shape.1 A.shape.2)ᵀ * cooMatrix A A.shape.1 A.shape.2).det ≠ 0 := hPD.det_pos.ne'
  have hM2 : (fun i j => (D.getD i []).getD j 0 : Matrix (Fin A.shape.1) (Fin A.shape.2) ℝ) = cooMatrix A A.shape.1 A.shape.2 := hDm
  unfold asDenseTest
  simp only [← hx, ← hy, hmk, py_bind_ok, hg, hc, hres, hJ, hD, hM2, hdet, if_false, hrows _ .make,
    hrows _ (Reachable.asDense .make depth false), hn, assertAllclose_self]
  rfl

/-- The test itself: two poses on an axis, some solution, and a draw with correlations. -/
example (lib : CholmodChoice) (hlib : ∀ p n, lib.order p n = 1) : ∃ a, asDenseTest lib 1000 7 [1, 0, 0, 0] [1, 0, 2, 0] [1, 0, 1, 0] a = .ok () ∧
    marginalizationTest lib 1000 7 2 !![1, 2, 0; 0, 1, 1; 0, 0, 3] = .ok () := by
  obtain ⟨⟨a, h1, h2, h3, h4, h5⟩, -⟩ := C07_partial_and_defaults g2oClasses (fun t => by rw [g2oClasses_eq]; exact lie_wellShaped _)
    (simpleVariables 7) (by decide) (by decide) .empty (fun v hv z hz => by cases hz)
  refine ⟨a, C105_as_dense lib hlib 1000 (by norm_num) 7 _ _ _ ⟨1, 0, 0, 0, rfl, by norm_num⟩ ⟨1, 0, 2, 0, rfl, by norm_num⟩
    ⟨1, 0, 1, 0, rfl, by norm_num⟩ (fun _ => [1, 0, 0, 0]) (fun v _ => ⟨1, 0, 0, 0, rfl, by norm_num⟩) a h2 h3 (fun v hv => ?_),
    C105_marginalization lib hlib 1000 (by norm_num) 7 2 (by norm_num) _ (by simp [Matrix.det_fin_three])⟩
  rw [h5 v hv rfl]
  simp only [simpleVariables, List.mem_cons, List.not_mem_nil, or_false] at hv
  rcases hv with rfl | rfl <;> rfl

end Jaxfg.Props
