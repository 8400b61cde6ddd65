/- C112: solvers with conjugate gradients return on pose graphs. -/
import Verif.Spec.PoseColumns
import Verif.Lemmas.PoseColumns
import Verif.Props.CgFinite
import Verif.Props.Invariants
import Verif.Props.Anchored

namespace Jaxfg.Props
open Spec
open Matrix hiding vec
open Ext (fin nan)

/-- In real numbers, conjugate gradients never raise. -/
theorem cg_total {A : Coo ℝ} (hA : CooWF A) (tol : Nat → ℝ) : TotalSolver (fun A b l i => cgSolve A b l (tol i)) A := by
  intro b l i hb _
  have key : ∃ x, cgSolve A b l (tol i) = .ok x := by
    unfold cgSolve cg
    simp only [List.length_replicate, hb]
    have ops := opsMatch hA l
    obtain ⟨y, h1, h2, -⟩ := ops.op (List.replicate A.shape.2 0) (by simp)
    rw [h1]
    simp only [py_bind_ok]
    have hlr : (List.zipWith (· - ·) b y).length = A.shape.2 := by simp [hb, h2]
    obtain ⟨s, k, h3, h4, -⟩ := cgLoop_ok ops (max (tol i ^ 2 * vdot b b) 0)
      ⟨Spec.vec (List.replicate A.shape.2 0) _, Spec.vec (List.zipWith (· - ·) b y) _, vdot (List.zipWith (· - ·) b y)
        (jacobiPreconditioner (ataDiagonals A A.shape.2) (List.zipWith (· - ·) b y)),
        Spec.vec (jacobiPreconditioner (ataDiagonals A A.shape.2) (List.zipWith (· - ·) b y)) _⟩ A.shape.2 0
      (s := ⟨List.replicate A.shape.2 0, List.zipWith (· - ·) b y, vdot (List.zipWith (· - ·) b y)
        (jacobiPreconditioner (ataDiagonals A A.shape.2) (List.zipWith (· - ·) b y)),
        jacobiPreconditioner (ataDiagonals A A.shape.2) (List.zipWith (· - ·) b y)⟩)
      ⟨by simp, hlr, (ops.pre _ hlr).1, rfl, rfl, rfl, rfl⟩
    exact ⟨_, by rw [h3]; rfl⟩
  obtain ⟨x, hx⟩ := key
  exact ⟨x, hx, cg_sized tol A b l i x hA hb hx⟩

section
variable (F : Nat → FactorClass) (C : Ty → VarClass ℝ)

/-- **C112.** `C72` for conjugate gradients with infinities and NaN: where no Jacobian has a column of zeros, `solve` neither raises nor
computes forever nor returns infinities or NaN, whatever the tolerances of the conjugate gradients. -/
theorem C112_solve_returns (hC : GoodClasses C) (fs : List Factor) (hne : fs ≠ []) (hfs : ∀ f ∈ fs, FactorWF F C f)
    (hpos : ∀ f ∈ fs, ∀ v ∈ f.vars, 0 < (C v.ty).paramDim) (tol : Nat → ℝ) :
    ∃ g, Graph.make C fs = .ok g ∧ ∀ CE gE, Lifts CE gE C (g.ops F C) → ∀ P, NoZeroColumns C (g.ops F C) P →
      ∀ vars a, IsAssignmentOf C vars a → a.layout.localFlag = false → (∀ v, v ∈ vars ↔ ∃ f ∈ fs, v ∈ f.vars) →
      (∀ b, a.updateStorageLayout C g.layout = .ok b → P b) →
        (∀ s : GaussNewton ℝ, Returns C (GaussNewton.solve CE gE { s.lift with linear := cgLinear fun i => fin (tol i) })
          s.maxIterations vars a) ∧
        (∀ s : LevenbergMarquardt ℝ, 0 < s.lambdaFactor → 0 ≤ s.lambdaMin → 0 ≤ s.lambdaInitial →
          Returns C (LevenbergMarquardt.solve CE gE { s.lift with linear := cgLinear fun i => fin (tol i) }) s.maxIterations vars a) ∧
        (∀ s : Dogleg ℝ, 0 < s.radiusInitial →
          Returns C (Dogleg.solve CE gE { s.lift with linear := cgLinear fun i => fin (tol i) }) s.maxIterations vars a) ∧
        (∀ sE : FixedIteration Ext, sE.linear = cgLinear (fun i => fin (tol i)) → a.layout = g.layout →
          Returns C (sE.solve CE gE) sE.iterations vars a) := by
  obtain ⟨g, hg, h⟩ := C72_solve_returns F C hC fs hne hfs hpos
  obtain ⟨g', hg', hS⟩ := sane_graph (F := F) hC hfs hne
  obtain rfl : g' = g := Except.ok.inj (hg'.symm.trans hg)
  obtain ⟨g1, hg1, hG⟩ := graph_ok (F := F) hfs hne
  obtain rfl : g1 = g' := Except.ok.inj (hg1.symm.trans hg)
  have htot : AllJacobians C (g1.ops F C) (Graph.variablesOf fs) (TotalSolver fun A b l i => cgSolve A b l (tol i)) :=
    fun a a' c r A h1 h2 h3 h4 h5 h6 => cg_total (hS.jacobian a a' c r A h1 h2 h3 h4 h5 h6).1 tol
  refine ⟨g1, hg, fun CE gE hl P hP vars a ha hf hv hPa => ?_⟩
  obtain ⟨h1, h2, h3, h4⟩ := h CE gE hl vars a ha hf hv
  have tr : ∀ {solve solve' : Nat → Assign Ext → Py (Option (Assign Ext × List (Msg Ext)))} {N : Int},
      (∀ fuel, solve' fuel (a.map fin) = solve fuel (a.map fin)) → Returns C solve N vars a → Returns C solve' N vars a := by
    rintro solve solve' N he ⟨o, log, k1, k2, k3⟩
    exact ⟨o, log, k1, k2, fun fuel hf => (he fuel).trans (k3 fuel hf)⟩
  refine ⟨fun s => ?_, fun s x1 x2 x3 => ?_, fun s x1 => ?_, fun sE x1 x2 => ?_⟩
  · exact tr (fun fuel => C110_gauss_newton hl hP { s with linear := fun A b l i => cgSolve A b l (tol i) } tol rfl a hPa fuel)
      (h1 _ { s with linear := fun A b l i => cgSolve A b l (tol i) } (liftsGN_lift _) htot)
  · exact tr (fun fuel => C110_levenberg_marquardt hl hP { s with linear := fun A b l i => cgSolve A b l (tol i) } tol rfl x1 x2 x3 a
      hPa fuel) (h2 _ { s with linear := fun A b l i => cgSolve A b l (tol i) } (liftsLM_lift _) htot x1 x2 x3)
  · exact tr (fun fuel => C110_dogleg hl hP { s with linear := fun A b l i => cgSolve A b l (tol i) } tol rfl x1 a hPa fuel)
      (h3 _ { s with linear := fun A b l i => cgSolve A b l (tol i) } (liftsDogleg_lift _) htot (cg_zeroAtZero tol) x1)
  · have u0 : a.updateStorageLayout C g1.layout = .ok a := by
      unfold Assign.updateStorageLayout; rw [x2, hG.layout, layoutEq_refl C (variablesOf_spec _).1]; rfl
    exact tr (fun fuel => C110_fixed_iteration hl hP sE tol x1 a (hPa a u0) fuel)
      (h4 { sE with linear := LinSolver.lift fun A b l i => cgSolve A b l (tol i) } _
        (liftsSolver_lift fun A b l i => cgSolve A b l (tol i)) htot x2)

end

/-- A product of invertible matrices has no column of zeros. -/
theorem column_of_product {n : Nat} {W J J' : Matrix (Fin n) (Fin n) ℝ} (hW : W.det ≠ 0) (hJ : J' * J = 1) (c : Fin n) :
    ∃ r, (W * J) r c ≠ 0 := by
  by_contra hn
  push Not at hn
  have h0 : (W * J) *ᵥ Pi.single c 1 = 0 := by
    funext r
    rw [mulVec_single_one]
    exact hn r
  rw [← mulVec_mulVec] at h0
  have h1 := Matrix.eq_zero_of_mulVec_eq_zero hW h0
  have h2 : (J' * J) *ᵥ Pi.single c 1 = (0 : Fin n → ℝ) := by rw [← mulVec_mulVec, h1, mulVec_zero]
  rw [hJ, one_mulVec] at h2
  have := congrFun h2 c
  simp at this

section
variable {F : Nat → FactorClass} {C : Ty → VarClass ℝ} {K : Ty → LieType}

/-- The whitened Jacobians of a measurement of poses have no columns of zeros. -/
theorem measure_columns (hK : ∀ t, C t = (K t).ops.varClass) {f : Factor} {M : (Var → List ℝ) → Prop} (hf : Measures F K f M)
    (hnoise : ∀ v ∈ f.vars, NoiseWF f.noise (K v.ty).ops.tangentDim (K v.ty).ops.tangentDim ∧
      NoiseRegular f.noise (K v.ty).ops.tangentDim) {pose : Var → List ℝ} (hpose : ∀ v ∈ f.vars, (K v.ty).Valid (pose v))
    {r : List ℝ} (hr : r.length = rdim f) {R : List (Arr ℝ)} (hR : whitenedJacobiansAt F (poseValue K pose) f r = .ok R) {v : Var}
    {i : Nat} (hi : f.vars[i]? = some v) : ∀ c < (C v.ty).localDim, ∃ r < rdim f, (R.getD i ⟨[], []⟩).at2 (C v.ty).localDim r c ≠ 0 := by
  have hld : ∀ v : Var, (C v.ty).localDim = (K v.ty).ops.tangentDim := fun v => by rw [hK]; rfl
  have hrd := (C54_wellformed F C K f M hf fun v hv => ⟨hK _, (hnoise v hv).1⟩).2
  have hvm : v ∈ f.vars := List.mem_of_getElem? hi
  intro c hc
  -- it is enough to find the block as a product of invertible matrices
  suffices h : ∃ W J J' : Matrix (Fin (C v.ty).localDim) (Fin (C v.ty).localDim) ℝ, W.det ≠ 0 ∧ J' * J = 1 ∧
      arrMat (R.getD i ⟨[], []⟩) (C v.ty).localDim (C v.ty).localDim = W * J by
    obtain ⟨W, J, J', h1, h2, h3⟩ := h
    obtain ⟨r, hr⟩ := column_of_product h1 h2 ⟨c, hc⟩
    rw [← h3] at hr
    refine ⟨r, by rw [hrd v hvm, ← hld v]; exact r.2, hr⟩
  rw [hld v]
  have hneg : ∀ n : Nat, (-1 : Matrix (Fin n) (Fin n) ℝ) * arrMat (negEye n) n n = 1 := fun n => by rw [arrMat_negEye]; simp
  cases hf with
  | prior cls u mu noise hF hmu =>
    have hu : v = u := by
      have : ([u] : List Var)[i]? = some v := hi
      rw [List.getElem?_singleton] at this
      split at this
      · exact (Option.some.inj this).symm
      · simp at this
    subst hu
    have hi0 : i = 0 := by
      have : i < ([v] : List Var).length := (List.getElem?_eq_some_iff.1 hi).1
      simpa using this
    subst hi0
    obtain ⟨hN, hreg⟩ := hnoise v hvm
    obtain ⟨W, hW, h⟩ := whitenJacobian_regular hN hreg (hr.trans (hrd v hvm))
    obtain ⟨R0, h0, -, h2⟩ := h _ (negEye (K v.ty).ops.tangentDim) (negEye_isMat _)
    have e0 : R = [R0] := by
      unfold whitenedJacobiansAt at hR
      rw [show F (PriorFactor.make cls v ((K v.ty).ops.value mu) noise).cls = _ from hF] at hR
      have : [negEye (K v.ty).ops.tangentDim].mapM (fun J => noise.whitenJacobian J r) = .ok R := hR
      have h0 : noise.whitenJacobian (negEye (K v.ty).ops.tangentDim) r = .ok R0 := h0
      simp only [List.mapM_cons, h0, List.mapM_nil, py_bind_ok, py_pure] at this
      exact (Except.ok.inj this).symm
    refine ⟨W, _, _, hW, hneg _, ?_⟩
    rw [e0]
    exact h2
  | between cls a b Mm noise f hF hMm hmake =>
    obtain ⟨hab, -, rfl⟩ := between_make_ok hmake
    have ha : a ∈ [a, b] := by simp
    obtain ⟨hN, hreg⟩ := hnoise a ha
    obtain ⟨W, hW, h⟩ := whitenJacobian_regular hN hreg (hr.trans (hrd a ha))
    have hxv : (K a.ty).Valid (pose a) := hpose a ha
    have hyv : (K a.ty).Valid (pose b) := by rw [hab]; exact hpose b (by simp)
    have L := lieLaws (K a.ty)
    set z := (K a.ty).ops.multiply ((K a.ty).ops.inverse (pose a)) (pose b) with hz
    have hzv : (K a.ty).Valid z := L.mul _ _ (L.inv _ hxv) hyv
    obtain ⟨R0, h0, -, h2⟩ := h _ _ (L.adjoint ((K a.ty).ops.inverse z))
    obtain ⟨R1, h1, -, h3⟩ := h _ (negEye (K a.ty).ops.tangentDim) (negEye_isMat _)
    have e0 : R = [R0, R1] := by
      unfold whitenedJacobiansAt at hR
      simp only at hR
      rw [hF] at hR
      have : [(K a.ty).ops.adjoint ((K a.ty).ops.inverse ((K a.ty).ops.multiply ((K a.ty).ops.inverse (poseValue K pose a).flatten)
          (poseValue K pose b).flatten)), negEye (K a.ty).ops.tangentDim].mapM (fun J => noise.whitenJacobian J r) = .ok R := hR
      rw [poseValue, poseValue, ← hab, value_flatten, value_flatten, ← hz] at this
      have h0 : noise.whitenJacobian _ r = .ok R0 := h0
      have h1 : noise.whitenJacobian (negEye (K a.ty).ops.tangentDim) r = .ok R1 := h1
      simp only [List.mapM_cons, h0, h1, List.mapM_nil, py_bind_ok, py_pure] at this
      exact (Except.ok.inj this).symm
    have hi' : ([a, b] : List Var)[i]? = some v := hi
    match i, hi' with
    | 0, hi' =>
      obtain rfl : a = v := Option.some.inj hi'
      refine ⟨W, adMat (K a.ty) ((K a.ty).ops.inverse z), adMat (K a.ty) z, hW, ?_, ?_⟩
      · exact mul_eq_one_comm.1 (adMat_inv_mul (K a.ty) hzv)
      · rw [e0]; exact h2
    | 1, hi' =>
      obtain rfl : b = v := Option.some.inj hi'
      rw [← hab]
      refine ⟨W, _, _, hW, hneg _, ?_⟩
      rw [e0]; exact h3

/-- **C112, columns.** At poses, no Jacobian of a pose graph has a column of zeros, be the poses tied to the world or not. -/
theorem C112_columns (hK : ∀ t, C t = (K t).ops.varClass) (fs : List Factor) (hne : fs ≠ []) (hfs : ∀ f ∈ fs, ∃ M, Measures F K f M)
    (hnoise : ∀ f ∈ fs, ∀ v ∈ f.vars, NoiseWF f.noise (K v.ty).ops.tangentDim (K v.ty).ops.tangentDim ∧
      NoiseRegular f.noise (K v.ty).ops.tangentDim) :
    ∃ g, Graph.make C fs = .ok g ∧ NoZeroColumns C (g.ops F C) (HoldsPoses C K fs g.layout) := by
  have hC := lie_goodClasses hK
  have hwf : ∀ f ∈ fs, FactorWF F C f := fun f hf =>
    (C54_wellformed F C K f _ (hfs f hf).choose_spec fun v hv => ⟨hK _, (hnoise f hf v hv).1⟩).1
  obtain ⟨g, hg, hG⟩ := graph_ok (F := F) hwf hne
  have hs := variablesOf_spec fs
  -- the variables in the order of the graph
  have conv : ∀ {a : Assign ℝ}, HoldsPoses C K fs g.layout a → ∃ pose, Holds C fs (Graph.variablesOf fs) (poseValue K pose) a ∧
      ∀ v ∈ Graph.variablesOf fs, (K v.ty).Valid (pose v) := by
    rintro a ⟨hl, vars, pose, h1, h2⟩
    have same : ∀ v, v ∈ vars ↔ v ∈ Graph.variablesOf fs := fun v => by rw [h1.sameVars, hs.2]
    have hlay : a.layout = Layout.make C (Graph.variablesOf fs) false := by rw [hl, hG.layout]
    refine ⟨pose, ⟨⟨hs.1, ?_, h1.assignment.2.2⟩, h1.isGlobal, hs.2, fun v hv => h1.values v ((same v).2 hv)⟩,
      fun v hv => h2 v ((same v).2 hv)⟩
    rw [hlay]; rfl
  refine ⟨g, hg, ?_, ?_⟩
  · intro a d b ha hb
    obtain ⟨pose, h1, h2⟩ := conv ha
    have s1 := stores_of_holds hC h1
    have hb : a.manifoldRetract C ⟨d, g.localLayout⟩ = .ok b := hb
    rw [hG.localLayout] at hb
    obtain ⟨d', hd', hb'⟩ := retract_resize s1.1 hb
    obtain ⟨e, he⟩ : ∃ e, Rep C (Graph.variablesOf fs) true e ⟨d', Layout.make C (Graph.variablesOf fs) true⟩ :=
      exists_rep (a := ⟨d', Layout.make C (Graph.variablesOf fs) true⟩) ⟨hs.1, rfl, hd'⟩
    obtain ⟨b', k1, k2⟩ := s1.retract hC he
    obtain rfl : b' = b := Except.ok.inj (k1.symm.trans hb')
    have hp : ∀ v, ∃ q, v ∈ Graph.variablesOf fs → (K v.ty).Valid q ∧
        (C v.ty).retract (poseValue K pose v) (e v) = (K v.ty).ops.value q := by
      intro v
      by_cases hv : v ∈ Graph.variablesOf fs
      · obtain ⟨y, hy, hq⟩ := (C67_retraction (K v.ty) (pose v) (h2 v hv)).1 (e v)
        exact ⟨y, fun _ => ⟨hy, by rw [hK]; exact hq⟩⟩
      · exact ⟨[], fun h => absurd h hv⟩
    choose pose' hp using hp
    have k3 := k2.holds (fs := fs) hs.2
    refine ⟨(manifoldRetract_shape hb).1.trans ha.1, _, pose', ⟨k3.assignment, k3.isGlobal, hs.2, fun v hv => ?_⟩, fun v hv => (hp v hv).1⟩
    rw [k3.values v hv, (hp v hv).2]
    rfl
  · rintro a r A ha ⟨a', c, ha', hc⟩ hA
    obtain ⟨pose, h1, h2⟩ := conv ha
    obtain ⟨pose', h1', -⟩ := conv ha'
    obtain ⟨w, hw⟩ := h1'.whitened hC hwf
    have e1 := cost_ok _ _ hC hne hwf hG h1' fun f hf => (hw f hf).1
    have hc : g.computeCost F C a' = .ok (c, r) := hc
    rw [e1] at hc
    obtain ⟨-, rfl⟩ := Prod.mk.inj (Except.ok.inj hc)
    have : ∀ f, ∃ R, f ∈ fs → whitenedJacobiansAt F (poseValue K pose) f (w f) = .ok R := by
      intro f
      by_cases hf : f ∈ fs
      · obtain ⟨R, k1, _⟩ := whitenedJacobians_ok (hwf f hf) (h1.valuesFor hC hf) (hw f hf).2
        exact ⟨R, fun _ => k1⟩
      · exact ⟨[], fun h => absurd h hf⟩
    choose R hR using this
    refine noZero_of_blocks hC hwf hne hG h1 (fun f hf => (hw f hf).2) hR ?_ hA
    intro v hv
    obtain ⟨f, hf, hvf⟩ := (hs.2 v).1 hv
    obtain ⟨i, hi, hiv⟩ := List.getElem_of_mem hvf
    have hi' : f.vars[i]? = some v := by rw [List.getElem?_eq_getElem hi, hiv]
    exact ⟨f, hf, i, hi', measure_columns hK (hfs f hf).choose_spec (hnoise f hf) (fun u hu => h2 u ((hs.2 u).2 ⟨f, hf, hu⟩))
      (hw f hf).2 (hR f hf) hi'⟩

/-- **C112, pose graphs.** Priors and measurements between poses of SO(2), SE(2), SO(3) and SE(3), with noise models that are blind in
no direction (also under Huber wrappers), poses as initial values, and conjugate gradients with any tolerances: the solvers return
poses, also where the poses are not tied to the world and the systems are singular. -/
theorem C112_pose_graphs (hK : ∀ t, C t = (K t).ops.varClass) (fs : List Factor) (hne : fs ≠ [])
    (hfs : ∀ f ∈ fs, ∃ M, Measures F K f M)
    (hnoise : ∀ f ∈ fs, ∀ v ∈ f.vars, NoiseWF f.noise (K v.ty).ops.tangentDim (K v.ty).ops.tangentDim ∧
      NoiseRegular f.noise (K v.ty).ops.tangentDim) (tol : Nat → ℝ) :
    ∃ g, Graph.make C fs = .ok g ∧ ∀ CE gE, Lifts CE gE C (g.ops F C) →
      ∀ vars pose a, Holds C fs vars (poseValue K pose) a → (∀ v ∈ vars, (K v.ty).Valid (pose v)) →
        (∀ s : GaussNewton ℝ, ReturnsPoses C K fs (GaussNewton.solve CE gE { s.lift with linear := cgLinear fun i => fin (tol i) })
          s.maxIterations vars a) ∧
        (∀ s : LevenbergMarquardt ℝ, 0 < s.lambdaFactor → 0 ≤ s.lambdaMin → 0 ≤ s.lambdaInitial → ReturnsPoses C K fs
          (LevenbergMarquardt.solve CE gE { s.lift with linear := cgLinear fun i => fin (tol i) }) s.maxIterations vars a) ∧
        (∀ s : Dogleg ℝ, 0 < s.radiusInitial →
          ReturnsPoses C K fs (Dogleg.solve CE gE { s.lift with linear := cgLinear fun i => fin (tol i) }) s.maxIterations vars a) ∧
        (∀ sE : FixedIteration Ext, sE.linear = cgLinear (fun i => fin (tol i)) → a.layout = g.layout →
          ReturnsPoses C K fs (sE.solve CE gE) sE.iterations vars a) := by
  have hC := lie_goodClasses hK
  have hwf : ∀ f ∈ fs, FactorWF F C f := fun f hf =>
    (C54_wellformed F C K f _ (hfs f hf).choose_spec fun v hv => ⟨hK _, (hnoise f hf v hv).1⟩).1
  have hpos : ∀ f ∈ fs, ∀ v ∈ f.vars, 0 < (C v.ty).paramDim := fun f hf v hv => by rw [hK]; exact lie_paramDim_pos _
  obtain ⟨g, hg, hP⟩ := C112_columns hK fs hne hfs hnoise
  obtain ⟨g1, hg1, hret⟩ := C112_solve_returns F C hC fs hne hwf hpos tol
  obtain rfl : g1 = g := Except.ok.inj (hg1.symm.trans hg)
  obtain ⟨g2, hg2, hposes⟩ := C74_poses F C K hK fs hne hwf
  obtain rfl : g2 = g1 := Except.ok.inj (hg2.symm.trans hg)
  obtain ⟨g3, hg3, hG⟩ := graph_ok (F := F) hwf hne
  obtain rfl : g3 = g2 := Except.ok.inj (hg3.symm.trans hg)
  refine ⟨g3, hg, fun CE gE hl vars pose a ha hval => ?_⟩
  have hs := variablesOf_spec fs
  obtain ⟨b, u1, -, u2⟩ := (stores_of_holds hC ha).update hs.1 (fun v => by rw [ha.sameVars, hs.2]) fun v hv => by
    obtain ⟨f, hf, hv⟩ := (ha.sameVars v).1 hv; exact hpos f hf v hv
  rw [← hG.layout] at u1
  have hPa : ∀ x, a.updateStorageLayout C g3.layout = .ok x → HoldsPoses C K fs g3.layout x := by
    intro x hx
    obtain rfl : b = x := Except.ok.inj (u1.symm.trans hx)
    exact ⟨by rw [hG.layout]; exact u2.1.layout, _, pose, u2.holds hs.2, fun v hv => hval v ((ha.sameVars v).2 ((hs.2 v).1 hv))⟩
  obtain ⟨r1, r2, r3, r4⟩ := hret CE gE hl _ hP vars a ha.assignment ha.isGlobal ha.sameVars hPa
  obtain ⟨p1, p2, p3, p4⟩ := hposes CE gE hl vars pose a ha hval
  have comb : ∀ {solve solve' : Nat → Assign Ext → Py (Option (Assign Ext × List (Msg Ext)))} {N : Int},
      (∀ fuel, solve' fuel (a.map fin) = solve fuel (a.map fin)) → Returns C solve' N vars a →
      ReturnsOnly solve a (fun o => o.layout = a.layout ∧ ∃ pose', Holds C fs vars (poseValue K pose') o ∧
        ∀ v ∈ vars, (K v.ty).Valid (pose' v)) → ReturnsPoses C K fs solve' N vars a := by
    rintro solve solve' N he ⟨o, log, -, -, k3⟩ hr
    obtain ⟨o', e1, e2, pose', e3, e4⟩ := hr (max 1 N).toNat (o.map fin) log ((he _).symm.trans (k3 _ (by omega)))
    exact ⟨o', log, pose', e2, e3, e4, fun fuel hf => by rw [k3 fuel hf, e1]⟩
  refine ⟨fun s => ?_, fun s x1 x2 x3 => ?_, fun s x1 => ?_, fun sE x1 x2 => ?_⟩
  · exact comb (fun fuel => C110_gauss_newton hl hP { s with linear := fun A b l i => cgSolve A b l (tol i) } tol rfl a hPa fuel) (r1 s)
      (p1 _ { s with linear := fun A b l i => cgSolve A b l (tol i) } (liftsGN_lift _) (cg_sized tol))
  · exact comb (fun fuel => C110_levenberg_marquardt hl hP { s with linear := fun A b l i => cgSolve A b l (tol i) } tol rfl x1 x2 x3 a
      hPa fuel) (r2 s x1 x2 x3) (p2 _ { s with linear := fun A b l i => cgSolve A b l (tol i) } (liftsLM_lift _) (cg_sized tol) x1.ne')
  · exact comb (fun fuel => C110_dogleg hl hP { s with linear := fun A b l i => cgSolve A b l (tol i) } tol rfl x1 a hPa fuel)
      (r3 s x1) (p3 _ { s with linear := fun A b l i => cgSolve A b l (tol i) } (liftsDogleg_lift _) (cg_sized tol) (cg_zeroAtZero tol) x1)
  · have u0 : a.updateStorageLayout C g3.layout = .ok a := by
      unfold Assign.updateStorageLayout; rw [x2, hG.layout, layoutEq_refl C hs.1]; rfl
    exact comb (fun fuel => C110_fixed_iteration hl hP sE tol x1 a (hPa a u0) fuel) (r4 sE x1 x2)
      (p4 { sE with linear := LinSolver.lift fun A b l i => cgSolve A b l (tol i) } _
        (liftsSolver_lift fun A b l i => cgSolve A b l (tol i)) (cg_sized tol) x2)

end

/-- The pose graph of `PoseEx`, in which rotations of space are not tied to the world (`r_not`), under a Huber loss and from initial
poses that do not satisfy its measurements: the default solver with conjugate gradients returns poses. -/
example : ∃ g a, Graph.make PoseEx.C PoseEx.fs = .ok g ∧
    Holds PoseEx.C PoseEx.fs [PoseEx.x, PoseEx.y, PoseEx.r, PoseEx.s] (poseValue PoseEx.K (PoseEx.pose false)) a ∧
    ReturnsPoses PoseEx.C PoseEx.K PoseEx.fs (LevenbergMarquardt.solve (fun t => (PoseEx.C t).lift) (g.ops PoseEx.F PoseEx.C).lift
      { (LevenbergMarquardt.defaults fun A b l _ => cgSolve A b l (1e-5)).lift with linear := cgLinear fun _ => fin 1e-5 })
      100 [PoseEx.x, PoseEx.y, PoseEx.r, PoseEx.s] a := by
  obtain ⟨a, ha⟩ := PoseEx.holds false
  obtain ⟨g, hg, h⟩ := C112_pose_graphs (F := PoseEx.F) (C := PoseEx.C) (K := PoseEx.K) (fun _ => rfl) PoseEx.fs (by simp [PoseEx.fs])
    PoseEx.measured AnchoredEx.noise fun _ => 1e-5
  obtain ⟨-, h2, -⟩ := h _ _ (lifts_lift _ _) _ _ a ha (PoseEx.pose_valid false)
  refine ⟨g, a, hg, ha, h2 (LevenbergMarquardt.defaults fun A b l _ => cgSolve A b l (1e-5)) ?_ ?_ ?_⟩ <;>
    norm_num [LevenbergMarquardt.defaults]

end Jaxfg.Props
