/-
Property C125: what the solvers do at local minima of the cost (jaxfg/solvers/_gauss_newton_solver.py,
jaxfg/solvers/_levenberg_marquardt_solver.py, jaxfg/solvers/_dogleg_solver.py).
-/
import Verif.Spec.LocalMin
import Verif.Props.Accuracy
import Verif.Props.Frechet
import Mathlib.Analysis.Calculus.LocalExtr.Basic

namespace Jaxfg.Props
open Spec
open Ext (fin)
open Matrix hiding vec
variable (F : Nat → FactorClass) (C : Ty → VarClass ℝ)

/-- The blocks of a delta in the local order of the graph. -/
theorem block_local {F : Nat → FactorClass} {C : Ty → VarClass ℝ} {fs : List Factor} {g : Graph} (hG : GraphOf F C fs g)
    {vars : List Var} {val : Var → Value ℝ} {a : Assign ℝ} (h : Holds C fs vars val a) {d : List ℝ} (hd : d.length = g.localLayout.dim)
    {v : Var} (hv : v ∈ vars) :
    (block C ⟨d, g.localLayout⟩ v).length = (C v.ty).localDim ∧ ∀ x ∈ block C ⟨d, g.localLayout⟩ v, x ∈ d := by
  have hs := variablesOf_spec fs
  have hvm : v ∈ Graph.variablesOf fs := by rw [hs.2, ← h.sameVars]; exact hv
  have hδ : IsAssignmentOf C (Graph.variablesOf fs) ⟨d, g.localLayout⟩ := by
    refine ⟨hs.1, ?_, hd⟩
    simp only [hG.localLayout, make_localFlag]
  obtain ⟨q, hq⟩ := exists_rep hδ
  constructor
  · rw [hq.block_eq hvm, hq.len _ hvm]
    simp [hG.localLayout, make_localFlag, dimOf]
  · intro x hx
    unfold block at hx
    split at hx
    · exact List.mem_of_mem_drop (List.mem_of_mem_take hx)
    · simp at hx

/-- A delta of zeros does not change the cost. -/
theorem hasCost_zero {F : Nat → FactorClass} {C : Ty → VarClass ℝ} {fs : List Factor} {g : Graph} (hG : GraphOf F C fs g)
    {vars : List Var} {val : Var → Value ℝ} {a : Assign ℝ} (h : Holds C fs vars val a)
    (hzero : ∀ v ∈ vars, (C v.ty).retract (val v) (List.replicate (C v.ty).localDim 0) = val v) {d : List ℝ}
    (hd : d.length = g.localLayout.dim) (hd0 : ∀ x ∈ d, x = 0) {c : ℝ}
    (hc : HasCost F fs (fun v => (C v.ty).retract (val v) (block C ⟨d, g.localLayout⟩ v)) c) : HasCost F fs val c := by
  have hsame : ∀ f ∈ fs, whitenedAt F (fun v => (C v.ty).retract (val v) (block C ⟨d, g.localLayout⟩ v)) f = whitenedAt F val f := by
    intro f hf
    unfold whitenedAt
    congr 2
    refine List.map_congr_left fun v hv => ?_
    have hvm : v ∈ vars := (h.sameVars v).2 ⟨f, hf, hv⟩
    obtain ⟨h1, h2⟩ := block_local hG h hd hvm
    have h3 : block C ⟨d, g.localLayout⟩ v = List.replicate (C v.ty).localDim 0 :=
      List.eq_replicate_iff.2 ⟨h1, fun x hx => hd0 x (h2 x hx)⟩
    simp only [h3, hzero v hvm]
  obtain ⟨w, hw, hcw⟩ := hc
  exact ⟨w, fun f hf => by rw [← hsame f hf]; exact hw f hf, hcw⟩

/-- **C125, the gradient.** At a local minimum of the cost the vector `A.T @ r` is zero, if all noise models are Gaussian, the Jacobians
of the factors are derivatives of their residuals there, and retractions by zero change nothing. -/
theorem C125_gradient (hC : GoodClasses C) (fs : List Factor) (hne : fs ≠ []) (hfs : ∀ f ∈ fs, FactorWF F C f)
    (hgauss : ∀ f ∈ fs, NoiseGaussian f.noise) :
    ∃ g, Graph.make C fs = .ok g ∧
      ∀ vars val a, Holds C fs vars val a → a.layout = g.layout → (∀ f ∈ fs, JacobiansCorrect F C f (f.vars.map val)) →
        (∀ v ∈ vars, (C v.ty).retract (val v) (List.replicate (C v.ty).localDim 0) = val v) → IsLocalMinimum F C fs vars val →
        ∃ c r A, AtRest (g.ops F C) a c r A := by
  obtain ⟨g, hg, hall⟩ := C22_right_hand_side F C hC fs hne hfs hgauss
  obtain ⟨g', hg', hG⟩ := graph_ok (F := F) hfs hne
  rw [hg] at hg'; cases hg'
  refine ⟨g, hg, fun vars val a h hlay hcorr hzero hmin => ?_⟩
  obtain ⟨c, r, A, y, hc, hA, hy, hyl, hdir⟩ := hall vars val a h hlay hcorr hzero
  refine ⟨c, r, A, hc, hA, y, hy, ?_⟩
  obtain ⟨b, cost, res, hb, hder⟩ := hdir y hyl
  obtain ⟨c₀, ε, hc₀, hε, hle⟩ := hmin
  have hcost0 : c₀ = c := by
    obtain ⟨c', r', h1, h2⟩ := hasCost_of_holds hC hfs hne hG h
    rw [hc] at h1
    cases h1
    exact HasCost.unique hc₀ h2
  have hval : ∀ t : ℝ, HasCost F fs (fun v => (C v.ty).retract (val v) (block C ⟨y.map (t * ·), g.localLayout⟩ v)) (cost t) := by
    intro t
    obtain ⟨b', h1, h2, h3⟩ := holds_retract hC hG h hlay (d := y.map (t * ·)) (by simpa using hyl)
    rw [(hb t).1] at h1
    cases h1
    obtain ⟨c', r', h4, h5⟩ := hasCost_of_holds hC hfs hne hG h3
    rw [(hb t).2] at h4
    cases h4
    exact h5
  obtain ⟨B, hB0, hB⟩ : ∃ B : ℝ, 0 < B ∧ ∀ z ∈ y, |z| ≤ B := by
    refine ⟨(y.map fun z => |z|).sum + 1, ?_, fun z hz => ?_⟩
    · have : 0 ≤ (y.map fun z => |z|).sum := List.sum_nonneg (by simp)
      linarith
    · have := List.single_le_sum (l := y.map fun z => |z|) (by simp) |z| (List.mem_map.2 ⟨z, hz, rfl⟩)
      linarith
  have hc0 : cost 0 = c := by
    rw [← hcost0]
    exact HasCost.unique (hasCost_zero hG h hzero (by simpa using hyl) (by simp) (hval 0)) hc₀
  have hloc : IsLocalMin cost 0 := by
    have : ∀ᶠ t in nhds (0 : ℝ), |t| < ε / B := by
      have := Metric.ball_mem_nhds (0 : ℝ) (div_pos hε hB0)
      filter_upwards [this] with t ht
      simpa [Real.dist_eq] using ht
    filter_upwards [this] with t ht
    rw [hc0, ← hcost0]
    refine hle (block C ⟨y.map (t * ·), g.localLayout⟩) (cost t) (fun v hv => ⟨(block_local hG h (by simpa using hyl) hv).1,
      fun x hx => ?_⟩) (hval t)
    obtain ⟨z, hz, rfl⟩ := List.mem_map.1 ((block_local hG h (by simpa using hyl) hv).2 x hx)
    rw [abs_mul]
    calc |t| * |z| ≤ |t| * B := by gcongr; exact hB z hz
      _ < ε / B * B := by gcongr
      _ = ε := by field_simp
  have h0 := hloc.hasDerivAt_eq_zero hder
  have hdot : Spec.vec y g.localLayout.dim ⬝ᵥ Spec.vec y g.localLayout.dim = 0 := by linarith
  have hvz := dotProduct_self_eq_zero.1 hdot
  intro z hz
  obtain ⟨i, hi, rfl⟩ := List.mem_iff_getElem.1 hz
  have := congrFun hvz ⟨i, hyl ▸ hi⟩
  simpa [Spec.vec, hi] using this

/-- **C125, the solvers.** Started at a local minimum of the cost, in any storage order and with CHOLMOD, Gauss-Newton returns the initial
assignments after one step; Levenberg-Marquardt and dogleg return the initial assignments after `max_iterations` steps. -/
theorem C125_solvers (hC : GoodClasses C) (fs : List Factor) (hne : fs ≠ []) (hfs : ∀ f ∈ fs, FactorWF F C f)
    (hpos : ∀ t, 0 < (C t).paramDim) (hz : ZeroRetract C) (hgauss : ∀ f ∈ fs, NoiseGaussian f.noise)
    (stale : Pattern → ScipyCoo ℝ → ℝ → List ℝ → Py (List ℝ)) (addr : Nat) :
    ∃ g, Graph.make C fs = .ok g ∧ ∀ CE gE, Lifts CE gE C (g.ops F C) → ∀ vars val a, Holds C fs vars val a →
      (∀ f ∈ fs, JacobiansCorrect F C f (f.vars.map val)) → IsLocalMinimum F C fs vars val →
      let L : LinSolver ℝ := fun A b l _ => (cholmodSolve stale .empty addr A b l).1
      (∀ sE s, LiftsGN sE s → s.linear = L → 0 < s.parameterTolerance →
        ∃ log, ∀ fuel : Nat, 1 ≤ fuel → sE.solve CE gE fuel (a.map fin) = .ok (some (a.map fin, log))) ∧
      (∀ sE s, LiftsLM sE s → s.linear = L → 0 < s.lambdaInitial → 1 ≤ s.lambdaFactor → 0 < s.lambdaMin →
        ∃ log, ∀ fuel : Nat, max 1 s.maxIterations ≤ fuel → sE.solve CE gE fuel (a.map fin) = .ok (some (a.map fin, log))) ∧
      (∀ sE s, LiftsDogleg sE s → s.linear = L → 0 < s.radiusInitial →
        ∃ log, ∀ fuel : Nat, max 1 s.maxIterations ≤ fuel → sE.solve CE gE fuel (a.map fin) = .ok (some (a.map fin, log))) := by
  obtain ⟨g, hg, hgrad⟩ := C125_gradient F C hC fs hne hfs hgauss
  obtain ⟨g', hg', hS⟩ := sane_graph (F := F) hC hfs hne
  rw [hg] at hg'; cases hg'
  obtain ⟨g', hg', hG⟩ := graph_ok (F := F) hfs hne
  rw [hg] at hg'; cases hg'
  refine ⟨g, hg, fun CE gE hL vars val a ha hcorr hmin => ?_⟩
  have hs := variablesOf_spec fs
  have hv : ∀ v, v ∈ vars ↔ v ∈ Graph.variablesOf fs := fun v => by rw [ha.sameVars, hs.2]
  obtain ⟨b, u1, u2, u3⟩ := (stores_of_holds hC ha).update hs.1 hv (fun v _ => hpos v.ty)
  rw [← hG.layout] at u1 u2
  have hb : Holds C fs (Graph.variablesOf fs) val b := u3.holds hs.2
  have hvals := (stores_of_holds hC hb).2
  have hmin' : IsLocalMinimum F C fs (Graph.variablesOf fs) val := by
    obtain ⟨c, ε, h1, h2, h3⟩ := hmin
    exact ⟨c, ε, h1, h2, fun δ c' h4 h5 => h3 δ c' (fun v hv' => h4 v ((hv v).1 hv')) h5⟩
  obtain ⟨c, r, A, hrest⟩ := hgrad _ val b hb u2 hcorr (fun v hv' => hz _ _ _ (hvals v hv') (by simp) (by simp)) hmin'
  have hvne : vars ≠ [] := by
    rintro rfl
    obtain ⟨f, hf⟩ := List.exists_mem_of_ne_nil fs hne
    obtain ⟨v, hvf⟩ := List.exists_mem_of_ne_nil f.vars (hfs f hf).vars
    have := (ha.sameVars v).2 ⟨f, hf, hvf⟩
    simp at this
  have hreg := cholmod_graph hS stale addr b b c r A hb.assignment u2 hb.assignment u2 hrest.cost hrest.jac
  obtain ⟨g', hg', htot⟩ := C72_cholmod F C hC fs hne hfs stale addr
  rw [hg] at hg'; cases hg'
  have hok := htot b b c r A hb.assignment u2 hb.assignment u2 hrest.cost hrest.jac
  intro L
  have hok' : ∀ z l i, z.length = A.shape.2 → 0 ≤ l → ∃ x, L A z l i = .ok x := fun z l i h1 h2 => by
    obtain ⟨x, h3, -⟩ := hok z l i h1 h2
    exact ⟨x, h3⟩
  refine ⟨fun sE s hs' hl htol => ?_, fun sE s hs' hl p1 p2 p3 => ?_, fun sE s hs' hl p1 => ?_⟩
  · refine ⟨hcbPrint s.verbose (.iteration 0 (some s.maxIterations) (fin c) none) ++ hcbPrint s.verbose (.terminated 1 (fin c)),
      fun fuel hf => ?_⟩
    rw [C48_gauss_newton hL hS hz hs' htol ha.assignment hv hpos hvne u1 hrest (by rw [hl]; exact hreg) (by rw [hl]; exact hok') fuel,
      if_neg (by omega)]
  · obtain ⟨log, h1⟩ := C48_levenberg_marquardt hL hS hz hs' p1 p2 p3 ha.assignment hv hpos hvne u1 hrest (by rw [hl]; exact hreg)
      (by rw [hl]; exact hok')
    exact ⟨_, fun fuel hf => by rw [h1 fuel, if_neg (by omega)]⟩
  · obtain ⟨log, h1⟩ := C48_dogleg hL hS hz hs' p1 ha.assignment hv hpos hvne u1 hrest (by rw [hl]; exact hreg) (by rw [hl]; exact hok')
    exact ⟨_, fun fuel hf => by rw [h1 fuel, if_neg (by omega)]⟩

theorem pi_norm_sq_le {n : Nat} (x : Fin n → ℝ) : ‖x‖ ^ 2 ≤ ∑ i, x i ^ 2 := by
  have hnn : 0 ≤ ∑ i, x i ^ 2 := Finset.sum_nonneg fun i _ => sq_nonneg _
  rw [← Real.sqrt_le_sqrt_iff hnn, Real.sqrt_sq (norm_nonneg _)]
  refine (pi_norm_le_iff_of_nonneg (Real.sqrt_nonneg _)).2 fun i => ?_
  rw [Real.norm_eq_abs, ← Real.sqrt_sq_eq_abs]
  exact Real.sqrt_le_sqrt (Finset.single_le_sum (f := fun i => x i ^ 2) (fun i _ => sq_nonneg _) (Finset.mem_univ i))

/-- If the cost is zero then the residual after a retraction by zero is zero. -/
theorem exact_fit {F : Nat → FactorClass} {C : Ty → VarClass ℝ} (hC : GoodClasses C) {fs : List Factor}
    (hfs : ∀ f ∈ fs, FactorWF F C f) (hne : fs ≠ []) {g : Graph} (hG : GraphOf F C fs g)
    {vars : List Var} {val : Var → Value ℝ} {a : Assign ℝ} (h : Holds C fs vars val a) (hlay : a.layout = g.layout)
    (hzero : ∀ v ∈ vars, (C v.ty).retract (val v) (List.replicate (C v.ty).localDim 0) = val v) {r : List ℝ}
    (hcost : g.computeCost F C a = .ok (0, r)) {b : (Fin g.localLayout.dim → ℝ) → Assign ℝ} {res : (Fin g.localLayout.dim → ℝ) → List ℝ}
    (hb : ∀ d, a.manifoldRetract C ⟨List.ofFn d, g.localLayout⟩ = .ok (b d))
    (hcd : ∀ d, g.computeCost F C (b d) = .ok (sqNorm (res d), res d)) (hl : (res 0).length = g.residualDim) :
    Spec.vec (res 0) g.residualDim = 0 := by
  obtain ⟨b', h1, h2, h3⟩ := holds_retract hC hG h hlay (d := List.ofFn (0 : Fin g.localLayout.dim → ℝ)) (by simp)
  rw [hb 0] at h1
  cases h1
  obtain ⟨c', r', h4, h5⟩ := hasCost_of_holds hC hfs hne hG h3
  rw [hcd] at h4
  cases h4
  have h6 := hasCost_zero hG h hzero (by simp) (by simp) h5
  obtain ⟨c'', r'', h7, h8⟩ := hasCost_of_holds hC hfs hne hG h
  rw [hcost] at h7
  cases h7
  have h9 := HasCost.unique h6 h8
  rw [sqNorm_eq hl] at h9
  exact dotProduct_self_eq_zero.1 h9

/-- **C125, exact fits.** If the cost is zero, the Jacobians of the factors are total derivatives and the columns of the Jacobian of the
graph are linearly independent, then the cost grows at least quadratically: near the assignments no others have the cost zero. -/
theorem C125_isolated (hC : GoodClasses C) (fs : List Factor) (hne : fs ≠ []) (hfs : ∀ f ∈ fs, FactorWF F C f)
    (hgauss : ∀ f ∈ fs, NoiseGaussian f.noise) :
    ∃ g, Graph.make C fs = .ok g ∧
      ∀ vars val a, Holds C fs vars val a → a.layout = g.layout → (∀ f ∈ fs, JacobiansTotal F C f (f.vars.map val)) →
        (∀ v ∈ vars, (C v.ty).retract (val v) (List.replicate (C v.ty).localDim 0) = val v) →
        ∀ r A, g.computeCost F C a = .ok (0, r) → g.computeWhitenedResidualJacobian F C a r = .ok A →
          (∀ x, cooMatrix A g.residualDim g.localLayout.dim *ᵥ x = 0 → x = 0) →
          ∃ κ ε : ℝ, 0 < κ ∧ 0 < ε ∧ ∀ d : List ℝ, d.length = g.localLayout.dim → (∀ x ∈ d, |x| < ε) →
            ∃ b c r', a.manifoldRetract C ⟨d, g.localLayout⟩ = .ok b ∧ g.computeCost F C b = .ok (c, r') ∧
              ∀ x ∈ d, κ * x ^ 2 ≤ c := by
  obtain ⟨g, hg, hall⟩ := C21_total_derivative F C hC fs hne hfs hgauss
  obtain ⟨g', hg', hG⟩ := graph_ok (F := F) hfs hne
  rw [hg] at hg'; cases hg'
  refine ⟨g, hg, fun vars val a h hlay htot hzero r A hcost hA hinj => ?_⟩
  obtain ⟨w, hw⟩ := h.whitened hC hfs
  have hcost' := cost_ok F C hC hne hfs hG h fun f hf => (hw f hf).1
  rw [hcost] at hcost'
  obtain ⟨hc0, hr⟩ := Prod.mk.inj (Except.ok.inj hcost')
  obtain ⟨A', b, res, hA', hsh, hres, hder⟩ := hall vars val a h hlay htot w fun f hf => (hw f hf).2
  rw [← hr, hA] at hA'
  cases hA'
  have hcd : ∀ d, g.computeCost F C (b d) = .ok (sqNorm (res d), res d) := by
    intro d
    unfold Graph.computeCost
    rw [(hres d).2.1]
    rfl
  have hzero' : Spec.vec (res 0) g.residualDim = 0 :=
    exact_fit hC hfs hne hG h hlay hzero hcost (fun d => (hres d).1) hcd (hres 0).2.2
  obtain ⟨K, hK, hanti⟩ := LinearMap.exists_antilipschitzWith (mulVecL (cooMatrix A g.residualDim g.localLayout.dim)).toLinearMap
    (LinearMap.ker_eq_bot'.2 fun x hx => hinj x hx)
  have hK' : (0 : ℝ) < K := hK
  have hlow : ∀ x : Fin g.localLayout.dim → ℝ, ‖x‖ ≤ K * ‖mulVecL (cooMatrix A g.residualDim g.localLayout.dim) x‖ := by
    intro x
    have := hanti.le_mul_dist x 0
    simpa [dist_eq_norm] using this
  have hlittle := hder.isLittleO.def (c := 1 / (2 * K)) (by positivity)
  obtain ⟨ε, hε, hball⟩ := Metric.eventually_nhds_iff.1 hlittle
  refine ⟨1 / (2 * K) ^ 2, ε, by positivity, hε, fun d hd hsmall => ?_⟩
  set D : Fin g.localLayout.dim → ℝ := Spec.vec d g.localLayout.dim with hDdef
  have hDd : List.ofFn D = d := by
    apply List.ext_getElem (by simp [hd])
    intro i h1 h2
    simp [D, Spec.vec, h2]
  have hDsmall : ‖D‖ < ε := by
    refine (pi_norm_lt_iff hε).2 fun i => ?_
    have hi : i.1 < d.length := by rw [hd]; exact i.2
    have : D i = d[i.1] := by simp [D, Spec.vec, hi]
    rw [this]
    exact hsmall _ (List.getElem_mem hi)
  have h1 := hball (y := D) (by simpa [dist_eq_norm] using hDsmall)
  simp only [hzero', sub_zero] at h1
  refine ⟨b D, sqNorm (res D), res D, by rw [← hDd]; exact (hres D).1, hcd D, fun x hx => ?_⟩
  obtain ⟨i, hi, rfl⟩ := List.mem_iff_getElem.1 hx
  have hxi : |d[i]| ≤ ‖D‖ := by
    have h2 := norm_le_pi_norm D ⟨i, hd ▸ hi⟩
    have : D ⟨i, hd ▸ hi⟩ = d[i] := by simp [D, Spec.vec, hi]
    rwa [this] at h2
  have h3 : ‖D‖ ≤ 2 * K * ‖Spec.vec (res D) g.residualDim‖ := by
    have h4 := hlow D
    have h5 := norm_sub_norm_le (mulVecL (cooMatrix A g.residualDim g.localLayout.dim) D) (Spec.vec (res D) g.residualDim)
    rw [norm_sub_rev] at h5
    have h6 : ‖mulVecL (cooMatrix A g.residualDim g.localLayout.dim) D‖ ≤ 1 / (2 * K) * ‖D‖ + ‖Spec.vec (res D) g.residualDim‖ := by
      linarith
    have h7 : K * ‖mulVecL (cooMatrix A g.residualDim g.localLayout.dim) D‖ ≤ K * (1 / (2 * K) * ‖D‖ + ‖Spec.vec (res D) g.residualDim‖) := by
      gcongr
    have h8 : K * (1 / (2 * K) * ‖D‖ + ‖Spec.vec (res D) g.residualDim‖) = ‖D‖ / 2 + K * ‖Spec.vec (res D) g.residualDim‖ := by
      field_simp
    linarith
  have h9 : ‖Spec.vec (res D) g.residualDim‖ ^ 2 ≤ sqNorm (res D) := by
    rw [sqNorm_eq_sum (hres D).2.2]
    exact pi_norm_sq_le _
  have h10 : d[i] ^ 2 ≤ (2 * K * ‖Spec.vec (res D) g.residualDim‖) ^ 2 := by
    rw [← sq_abs]
    gcongr
    exact hxi.trans h3
  rw [mul_pow] at h10
  calc 1 / (2 * K) ^ 2 * d[i] ^ 2 ≤ 1 / (2 * K) ^ 2 * ((2 * K) ^ 2 * ‖Spec.vec (res D) g.residualDim‖ ^ 2) := by gcongr
    _ = ‖Spec.vec (res D) g.residualDim‖ ^ 2 := by field_simp
    _ ≤ sqNorm (res D) := h9

/-- **C125, second order.** Where the cost is zero and the Jacobians of the factors are total derivatives, the cost after a retraction by
`d` is `|A @ d|²` up to an error that is small compared with `|d|²`: there `A.T @ A` is one half of the Hessian of the cost. -/
theorem C125_hessian (hC : GoodClasses C) (fs : List Factor) (hne : fs ≠ []) (hfs : ∀ f ∈ fs, FactorWF F C f)
    (hgauss : ∀ f ∈ fs, NoiseGaussian f.noise) :
    ∃ g, Graph.make C fs = .ok g ∧
      ∀ vars val a, Holds C fs vars val a → a.layout = g.layout → (∀ f ∈ fs, JacobiansTotal F C f (f.vars.map val)) →
        (∀ v ∈ vars, (C v.ty).retract (val v) (List.replicate (C v.ty).localDim 0) = val v) →
        ∀ r A, g.computeCost F C a = .ok (0, r) → g.computeWhitenedResidualJacobian F C a r = .ok A →
          ∀ η > 0, ∃ ε > 0, ∀ d : List ℝ, d.length = g.localLayout.dim → (∀ x ∈ d, |x| < ε) →
            ∃ b c r' z, a.manifoldRetract C ⟨d, g.localLayout⟩ = .ok b ∧ g.computeCost F C b = .ok (c, r') ∧ A.matmul d = .ok z ∧
              |c - sqNorm z| ≤ η * sqNorm d := by
  obtain ⟨g, hg, hall⟩ := C21_total_derivative F C hC fs hne hfs hgauss
  obtain ⟨g', hg', hG⟩ := graph_ok (F := F) hfs hne
  rw [hg] at hg'; cases hg'
  refine ⟨g, hg, fun vars val a h hlay htot hzero r A hcost hA η hη => ?_⟩
  obtain ⟨w, hw⟩ := h.whitened hC hfs
  have hcost' := cost_ok F C hC hne hfs hG h fun f hf => (hw f hf).1
  rw [hcost] at hcost'
  obtain ⟨hc0, hr⟩ := Prod.mk.inj (Except.ok.inj hcost')
  obtain ⟨A', b, res, hA', hsh, hres, hder⟩ := hall vars val a h hlay htot w fun f hf => (hw f hf).2
  obtain ⟨A'', hA'', hwf⟩ : ∃ A'', g.computeWhitenedResidualJacobian F C a ((evalOrder fs).flatMap w) = .ok A'' ∧ CooWF A'' := by
    obtain ⟨g', hg', hall'⟩ := C19_coordinates F C hC fs hne hfs
    rw [hg] at hg'; cases hg'
    obtain ⟨A'', h1, -, -, h2⟩ := hall'.2.2.2 vars val a h w fun f hf => (hw f hf).2
    exact ⟨A'', h1, h2⟩
  rw [hA'] at hA''
  cases hA''
  rw [← hr, hA] at hA'
  cases hA'
  have hcd : ∀ d, g.computeCost F C (b d) = .ok (sqNorm (res d), res d) := by
    intro d
    unfold Graph.computeCost
    rw [(hres d).2.1]
    rfl
  have hzero' : Spec.vec (res 0) g.residualDim = 0 :=
    exact_fit hC hfs hne hG h hlay hzero hcost (fun d => (hres d).1) hcd (hres 0).2.2
  set D := mulVecL (cooMatrix A g.residualDim g.localLayout.dim) with hDdef
  have hlittle : (fun d => Spec.vec (res d) g.residualDim - D d) =o[nhds 0] fun d => d := by
    have := hder.isLittleO
    simpa [hzero'] using this
  have hcoord : ∀ i, (fun d => Spec.vec (res d) g.residualDim i ^ 2 - D d i ^ 2) =o[nhds 0] fun d => ‖d‖ * ‖d‖ := by
    intro i
    have h1 : (fun d => Spec.vec (res d) g.residualDim i - D d i) =o[nhds 0] fun d => ‖d‖ := by
      refine Asymptotics.IsLittleO.norm_right ?_
      exact (Asymptotics.isLittleO_pi.1 hlittle) i
    have h2 : (fun d => D d i) =O[nhds 0] fun d => ‖d‖ := by
      refine Asymptotics.IsBigO.norm_right ?_
      exact ((ContinuousLinearMap.proj (R := ℝ) (φ := fun _ : Fin g.residualDim => ℝ) i).comp D).isBigO_id (nhds 0)
    have h3 : (fun d => Spec.vec (res d) g.residualDim i + D d i) =O[nhds 0] fun d => ‖d‖ := by
      have := (h1.isBigO.add h2).add h2
      refine this.congr_left fun d => ?_
      ring
    refine (h1.mul_isBigO h3).congr_left fun d => ?_
    ring
  have hsum := Asymptotics.IsLittleO.sum (s := Finset.univ) fun i _ => hcoord i
  obtain ⟨ε, hε, hball⟩ := Metric.eventually_nhds_iff.1 (hsum.def hη)
  refine ⟨ε, hε, fun d hd hsmall => ?_⟩
  set X : Fin g.localLayout.dim → ℝ := Spec.vec d g.localLayout.dim with hX
  have hXd : List.ofFn X = d := by
    apply List.ext_getElem (by simp [hd])
    intro i h1 h2
    simp [X, Spec.vec, h2]
  have hXsmall : ‖X‖ < ε := by
    refine (pi_norm_lt_iff hε).2 fun i => ?_
    have hi : i.1 < d.length := by rw [hd]; exact i.2
    have : X i = d[i.1] := by simp [X, Spec.vec, hi]
    rw [this]
    exact hsmall _ (List.getElem_mem hi)
  have h1 := hball (y := X) (by simpa [dist_eq_norm] using hXsmall)
  obtain ⟨z, hz1, hz2, hz3⟩ := matmul_ok hwf (x := d) (by rw [hd, hsh])
  refine ⟨b X, sqNorm (res X), res X, z, by rw [← hXd]; exact (hres X).1, hcd X, hz1, ?_⟩
  rw [hsh] at hz2 hz3
  rw [sqNorm_eq_sum (hres X).2.2, sqNorm_eq_sum hz2, ← Finset.sum_sub_distrib]
  have hzD : Spec.vec z g.residualDim = D X := hz3
  rw [hzD]
  have h2 : ‖X‖ * ‖X‖ ≤ sqNorm d := by
    rw [← sq, sqNorm_eq_sum hd]
    exact pi_norm_sq_le X
  rw [Real.norm_eq_abs, Real.norm_eq_abs, abs_of_nonneg (mul_nonneg (norm_nonneg X) (norm_nonneg X))] at h1
  rw [Finset.sum_apply] at h1
  exact h1.trans (mul_le_mul_of_nonneg_left h2 hη.le)

/-! ### Examples -/

namespace Poly1
open Jaxfg.Poly

/-- The value `v` for every variable. -/
noncomputable def valAt (v : ℝ) : Var → Value ℝ := fun _ => ⟨0, [⟨[1], [v]⟩]⟩

theorem holds_valAt (p q s v : ℝ) : Holds Ex.C [f p q s] [Ex.x] (valAt v) (at_ v) where
  assignment := at_assignment v
  isGlobal := rfl
  sameVars w := by simp [f]
  values w hw := by
    obtain rfl := List.mem_singleton.1 hw
    rfl

/-- Zero is a local minimum of `(1 + x²)²`. -/
theorem localMin_square : IsLocalMinimum Poly.F Ex.C [f 1 0 1] [Ex.x] (valAt 0) := by
  refine ⟨(1 * (1 + 0 * 0 + 1 * 0 ^ 2)) ^ 2, 1, ⟨fun _ => [1 * (1 + 0 * 0 + 1 * 0 ^ 2)], fun h hh => ?_, ?_⟩, by norm_num,
    fun δ c' hδ hc => ?_⟩
  · obtain rfl := List.mem_singleton.1 hh
    rfl
  · simp [sqNorm]
  · obtain ⟨hl, -⟩ := hδ Ex.x (by simp)
    rw [Ex.localDim] at hl
    obtain ⟨t, ht⟩ : ∃ t, δ Ex.x = [t] := List.length_eq_one_iff.1 hl
    obtain ⟨w, hw, rfl⟩ := hc
    have h1 := hw (f 1 0 1) (by simp)
    have h2 : whitenedAt Poly.F (fun v => (Ex.C v.ty).retract (valAt 0 v) (δ v)) (f 1 0 1) =
        .ok [1 * (1 + 0 * (0 + t) + 1 * (0 + t) ^ 2)] := by
      unfold whitenedAt
      show Noise.whiten _ ((Poly.F 0).residual _ [(Ex.C Ex.x.ty).retract (valAt 0 Ex.x) (δ Ex.x)]) = _
      rw [ht]
      rfl
    rw [h2] at h1
    rw [List.map_singleton, List.sum_singleton, ← Except.ok.inj h1]
    simp only [sqNorm, List.map_singleton, List.sum_singleton]
    nlinarith [sq_nonneg t, sq_nonneg (t ^ 2)]

/-- Non-vacuity of `C125_gradient` and `C125_solvers`. -/
example : Holds Ex.C [f 1 0 1] [Ex.x] (valAt 0) (at_ 0) ∧ IsLocalMinimum Poly.F Ex.C [f 1 0 1] [Ex.x] (valAt 0) ∧ ZeroRetract Ex.C ∧
    (∀ h ∈ [f 1 0 1], FactorWF Poly.F Ex.C h ∧ NoiseGaussian h.noise ∧ JacobiansCorrect Poly.F Ex.C h (h.vars.map (valAt 0))) := by
  refine ⟨holds_valAt 1 0 1 0, localMin_square, zeroRetract, fun h hh => ?_⟩
  have := (holds_valAt 1 0 1 0).valuesFor Ex.good hh
  obtain rfl := List.mem_singleton.1 hh
  exact ⟨f_wf 1 0 1, trivial, f_correct 1 0 1 this⟩

/-- Non-vacuity of `C125_isolated` and `C125_hessian`: the residual `x + x²` at zero. -/
example : (g 0 1 1).computeCost Poly.F Ex.C (at_ 0) = .ok (0, [0]) ∧
    ∃ A, (g 0 1 1).computeWhitenedResidualJacobian Poly.F Ex.C (at_ 0) [0] = .ok A ∧
      ∀ x, cooMatrix A (g 0 1 1).residualDim (g 0 1 1).localLayout.dim *ᵥ x = 0 → x = 0 := by
  refine ⟨(cost_eq 0 1 1 0).trans (by norm_num), _, jac_eq 0 1 1 0 0, fun x hx => ?_⟩
  have h1 : ∀ x : Fin 1 → ℝ, cooMatrix (⟨[(1 : ℝ) + 2 * 1 * 0], [0], [0], (1, 1)⟩ : Coo ℝ) 1 1 *ᵥ x = 0 → x = 0 := by
    intro x hx
    have hm : cooMatrix (⟨[(1 : ℝ) + 2 * 1 * 0], [0], [0], (1, 1)⟩ : Coo ℝ) 1 1 0 0 = 1 := by simp [cooMatrix, entries]
    have := congrFun hx 0
    simp only [Matrix.mulVec, dotProduct, Fin.sum_univ_one, hm, one_mul] at this
    funext i
    obtain rfl : i = 0 := Subsingleton.elim _ _
    exact this
  exact h1 x hx

end Poly1

end Jaxfg.Props
