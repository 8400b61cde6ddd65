/-
Property C129: what the solvers return near an exact fit of a pose graph, and why they stop (jaxfg/geometry/_factors.py,
jaxfg/solvers/_mixins.py:46-114, jaxfg/solvers/_nonlinear_solver_base.py).
-/
import Verif.Props.GeometryDamped
import Verif.Props.Progress

namespace Jaxfg.Props
open Spec Filter Topology LieGroup
open Ext (fin)
open Matrix hiding vec

section
variable {F : Nat → FactorClass} {C : Ty → VarClass ℝ} {K : Ty → LieType}

theorem retract_keeps_layout {a b δ : Assign ℝ} (h : a.manifoldRetract C δ = .ok b) : b.layout = a.layout := by
  unfold Assign.manifoldRetract at h
  obtain ⟨-, -, h⟩ := py_bind_eq_ok.1 h
  obtain ⟨-, -, h⟩ := py_bind_eq_ok.1 h
  obtain ⟨s, -, h⟩ := py_bind_eq_ok.1 h
  cases h
  rfl

/-- What `solve` does with assignments in the layout of the graph. -/
theorem solve_from {CE : Ty → VarClass Ext} {gE : GraphOps Ext} {g : GraphOps ℝ} (hl : Lifts CE gE C g) (hg : g.layout.eq g.layout = true)
    {σ : Type} {verbose : Bool} {base : σ → State Ext} {init : Assign Ext → Py σ} {step : σ → Py (σ × List (Msg Ext))} {fuel : Nat}
    {a : Assign ℝ} {out : Assign Ext} {log : List (Msg Ext)} (ha : a.layout = g.layout)
    (h : baseSolve CE gE verbose base init step fuel (a.map fin) = .ok (some (out, log))) :
    ∃ st st' k l, init (a.map fin) = .ok st ∧ Runs (fun s => (base s).done) step k st st' l ∧ (base st').done = true ∧
      ∀ p : Assign ℝ, (base st').assignments = p.map fin → p.layout = g.layout → out = p.map fin := by
  have stay : ∀ p : Assign ℝ, p.layout = g.layout → (p.map fin).updateStorageLayout CE g.layout = .ok (p.map fin) := by
    intro p hp
    have : (p.map fin).layout = g.layout := hp
    unfold Assign.updateStorageLayout
    rw [this, hg]
    rfl
  obtain ⟨b, st, st', l, h1, h2, h3, h4, -⟩ := baseSolve_some.1 h
  rw [hl.layout, stay a ha] at h1
  cases h1
  obtain ⟨k, -, h5, h6⟩ := runs_of_whileLoop h3
  refine ⟨st, st', k, l, h2, h5, h6, fun p hp hp' => ?_⟩
  have e1 : (a.map fin).layout = g.layout := ha
  rw [hp, e1, stay p hp'] at h4
  exact (Except.ok.inj h4).symm

/-- Gauss-Newton near an exact fit. -/
theorem gn_near (hC : ∀ t, C t = (K t).ops.varClass) {fs : List Factor} (hne : fs ≠ [])
    {P : Factor → (Var → List ℝ) → Prop} (hfs : ∀ f ∈ fs, Measures F K f (P f))
    (hnoise : ∀ f ∈ fs, ∀ v ∈ f.vars, NoiseWF f.noise (K v.ty).ops.tangentDim (K v.ty).ops.tangentDim ∧
      NoiseRegular f.noise (K v.ty).ops.tangentDim) (hgauss : ∀ f ∈ fs, NoiseGaussian f.noise) {g : Graph}
    (hg : Graph.make C fs = .ok g) {vars : List Var} {pose : Var → List ℝ} {e : Assign ℝ} (hpose : ∀ v ∈ vars, (K v.ty).Valid (pose v))
    (h : Holds C fs vars (poseValue K pose) e) (hlay : e.layout = g.layout) (hP : ∀ f ∈ fs, P f pose)
    (hanch : ∀ v ∈ vars, Anchored fs v) {μ : ℝ} (hμ : 0 ≤ μ) :
    ∃ κ₀ < 1, (μ = 0 → κ₀ = 0) ∧ 0 ≤ κ₀ ∧ ∀ κ, κ₀ < κ → κ < 1 → ∃ τ > 0, ∃ ε > 0,
      ∀ CE gE, Lifts CE gE C (g.ops F C) → ∀ sE s, LiftsGN sE s →
        AllJacobians C (g.ops F C) (Graph.variablesOf fs) (DampedAt 0 μ s.linear) →
        ∀ d : List ℝ, d.length = g.localLayout.dim → √(sqNorm d) < ε → ∀ a, e.manifoldRetract C ⟨d, g.localLayout⟩ = .ok a →
        ∀ st st' k log, initState gE (a.map fin) = .ok st → Runs (fun s => s.done) (sE.step CE gE) k st st' log →
          ∃ (p : State ℝ) (d' : List ℝ), st' = p.map fin ∧ (g.ops F C).computeCost p.assignments = .ok (p.cost, p.residual) ∧
            d'.length = g.localLayout.dim ∧ e.manifoldRetract C ⟨d', g.localLayout⟩ = .ok p.assignments ∧
            √(sqNorm d') ≤ κ ^ k * √(sqNorm d) ∧ p.iterations = k ∧
            (p.done = true → s.costTolerance ≤ τ → NearStop C s.toCriteria g.localLayout e κ √(sqNorm d) k d') := by
  obtain ⟨κ₀, h1, h1', h2, h3⟩ := pose_damped_step hC hne hfs hnoise hgauss hg hpose h hlay hP hanch hμ
    (by norm_num : (1 / 4 : ℝ) < 1)
  refine ⟨κ₀, h1, h1', h2, fun κ hκ hκ1 => ?_⟩
  obtain ⟨τ, hτ, ε, hε, H⟩ := h3 κ hκ hκ1
  have hκ0 : 0 ≤ κ := h2.trans hκ.le
  refine ⟨τ / 4, by positivity, ε, hε, fun CE gE hl sE s hs hL d hd hdε a ha st st' k log hi hr => ?_⟩
  obtain ⟨c, r, hc, rfl⟩ := (initState_fin hl).1 hi
  generalize hst : State.map fin ⟨0, a, c, r, false⟩ = st at hr
  induction hr with
  | refl s => exact ⟨_, d, hst.symm, hc, hd, ha, by simp, rfl, fun hd => by cases hd⟩
  | @step k _ _ _ _ _ r1 r2 r3 ih =>
    obtain ⟨p, d₁, rfl, hp, hd₁, hpe, hpd, hit, -⟩ := ih hst
    obtain ⟨A, ATr, x, b, c, r, conv, e1, e2, e3, e4, e5, e9, rfl, -⟩ := (gnStep_fin hl hs).1 r3
    have hdd : √(sqNorm d₁) ≤ √(sqNorm d) := hpd.trans (mul_le_of_le_one_left (Real.sqrt_nonneg _) (pow_le_one₀ hκ0 hκ1.le))
    obtain ⟨n0, n0', n3, n4, n5⟩ := H d₁ hd₁ (hdd.trans_lt hdε) p.assignments hpe p.cost p.residual A hp e1 _
      (fun hA => matmul_neg (cooWF_T hA) e2) s.linear 0 μ hμ hL _ x e3
    obtain ⟨-, hx1, d', b', p1, p2, p3, p4, p5⟩ := n5 le_rfl
    have e4' : p.assignments.manifoldRetract C ⟨x, g.localLayout⟩ = .ok b := e4
    rw [p3] at e4'
    cases e4'
    obtain ⟨As, hAs, -⟩ := matmul_ok n0 n0'
    obtain ⟨p6, p6', p7⟩ := p5 As c r hAs e5
    have hle := n3 As hAs
    refine ⟨_, d', rfl, e5, p1, p2, ?_, by simp [hit], fun hdone htol => ?_⟩
    · rw [pow_succ', mul_assoc]
      exact p4.trans (mul_le_mul_of_nonneg_left hpd hκ0)
    · refine stop_reason e9 hit hκ0 hκ1 htol ?_ hd₁ hpe hdd p4 hx1 hdone
      by_cases hz : sqNorm d₁ = 0
      · exact .inl (n4 hz).1
      · refine .inr ⟨lt_of_le_of_lt (sqNorm_nonneg _) (p6 hz), ?_⟩
        linarith

variable (F C K)

/-- **C129.** Let a pose graph of prior and between factors over the four groups, with Gaussian noise models that are blind in no
direction, have poses `e` that satisfy all measurements, every pose being tied to the world by a chain of measurements that ends in a
prior. Then there is a rate below one, and for every larger `κ < 1` there are `τ > 0` and `ε > 0`, such that Gauss-Newton,
Levenberg-Marquardt and dogleg, called with `e` retracted by a delta `d` shorter than `ε`, return only `e` retracted by some `d'` with
`|d'| ≤ κᵏ |d|`, where `k ≥ 1` is the number of steps. If the cost tolerance is at most `τ`, they stop for one of these reasons: the
budget is used up; more than `gradient_tolerance_start_step` steps were made, so that the gradient was tested; `|d'|` is at most
`κ / (1 - κ)` times the bound of the parameter test; or the fit is reached. The cost test never stops them. -/
theorem C129_solvers (hC : ∀ t, C t = (K t).ops.varClass) (fs : List Factor) (hne : fs ≠ [])
    (P : Factor → (Var → List ℝ) → Prop) (hfs : ∀ f ∈ fs, Measures F K f (P f))
    (hnoise : ∀ f ∈ fs, ∀ v ∈ f.vars, NoiseWF f.noise (K v.ty).ops.tangentDim (K v.ty).ops.tangentDim ∧
      NoiseRegular f.noise (K v.ty).ops.tangentDim) (hgauss : ∀ f ∈ fs, NoiseGaussian f.noise) :
    ∃ g, Graph.make C fs = .ok g ∧
      ∀ vars pose e, (∀ v ∈ vars, (K v.ty).Valid (pose v)) → Holds C fs vars (poseValue K pose) e → e.layout = g.layout →
        (∀ f ∈ fs, P f pose) → (∀ v ∈ vars, Anchored fs v) → ∀ (μ : ℝ → ℝ), (∀ l, 0 ≤ l → 0 ≤ μ l) →
        (∀ l l', 0 ≤ l → l ≤ l' → μ l ≤ μ l') → ∀ l₀ q ρ₀, 0 ≤ l₀ → q < 1 → 0 < ρ₀ →
        ∃ κ₀ < 1, ∀ κ, κ₀ < κ → κ < 1 → ∃ τ > 0, ∃ ε > 0, ∀ CE gE, Lifts CE gE C (g.ops F C) →
          ∀ d : List ℝ, d.length = g.localLayout.dim → √(sqNorm d) < ε → ∀ a, e.manifoldRetract C ⟨d, g.localLayout⟩ = .ok a →
          (∀ sE s, LiftsGN sE s → AllJacobians C (g.ops F C) (Graph.variablesOf fs) (DampedAt 0 (μ 0) s.linear) →
            ReturnsOnly (sE.solve CE gE) a (ReturnsNear C s.toCriteria g.localLayout e κ τ d)) ∧
          (∀ sE s, LiftsLM sE s → 1 ≤ s.lambdaFactor → 0 ≤ s.lambdaMin → s.lambdaInitial = l₀ → s.stepQualityMin = q →
            (∀ l, 0 ≤ l → AllJacobians C (g.ops F C) (Graph.variablesOf fs) (DampedAt l (μ l) s.linear)) →
            ReturnsOnly (sE.solve CE gE) a (ReturnsNear C s.toCriteria g.localLayout e κ τ d)) ∧
          (∀ sE s, LiftsDogleg sE s → s.radiusInitial = ρ₀ → s.stepQualityMin = q →
            AllJacobians C (g.ops F C) (Graph.variablesOf fs) (DampedAt 0 (μ 0) s.linear) →
            ReturnsOnly (sE.solve CE gE) a (ReturnsNear C s.toCriteria g.localLayout e κ τ d)) := by
  have hwf' : ∀ f ∈ fs, FactorWF F C f := fun f hf =>
    (C54_wellformed F C K f (P f) (hfs f hf) fun v hv => ⟨hC _, (hnoise f hf v hv).1⟩).1
  obtain ⟨g, hg, hG⟩ := graph_ok (F := F) hwf' hne
  refine ⟨g, hg, fun vars pose e hpose h hlay hP hanch μ hμ hmono l₀ q ρ₀ hl₀ hq hρ₀ => ?_⟩
  have hrefl : (g.ops F C).layout.eq (g.ops F C).layout = true := by
    show g.layout.eq g.layout = true
    rw [hG.layout, layoutEq_refl C (variablesOf_spec _).1]
  obtain ⟨κ₁, a1, -, -, a3⟩ := gn_near hC hne hfs hnoise hgauss hg hpose h hlay hP hanch (hμ 0 le_rfl)
  obtain ⟨κ₂, b1, -, b3⟩ := lm_near hC hne hfs hnoise hgauss hg hpose h hlay hP hanch hμ hmono hl₀ hq
  obtain ⟨κ₃, c1, -, -, c3⟩ := dogleg_near hC hne hfs hnoise hgauss hg hpose h hlay hP hanch (hμ 0 le_rfl) hq hρ₀
  refine ⟨max κ₁ (max κ₂ κ₃), max_lt a1 (max_lt b1 c1), fun κ hκ hκ1 => ?_⟩
  simp only [max_lt_iff] at hκ
  obtain ⟨τ₁, a4, ε₁, a5, H₁⟩ := a3 κ hκ.1 hκ1
  obtain ⟨τ₂, b4, ε₂, b5, H₂⟩ := b3 κ hκ.2.1 hκ1
  obtain ⟨τ₃, c4, ε₃, c5, H₃⟩ := c3 κ hκ.2.2 hκ1
  refine ⟨min τ₁ (min τ₂ τ₃), lt_min a4 (lt_min b4 c4), min ε₁ (min ε₂ ε₃), lt_min a5 (lt_min b5 c5), fun CE gE hl d hd hdε a ha => ?_⟩
  simp only [lt_min_iff] at hdε
  have hal : a.layout = (g.ops F C).layout := (retract_keeps_layout ha).trans hlay
  have one : ∀ {σ : Type} {base : σ → State Ext} {step : σ → Py (σ × List (Msg Ext))} {k : Nat} {st st' : σ} {l : List (Msg Ext)},
      (base st).done = false → (base st').done = true → Runs (fun s => (base s).done) step k st st' l → 1 ≤ k := by
    intro σ base step k st st' l h1 h2 h3
    cases h3 with
    | refl => rw [h1] at h2; cases h2
    | step => omega
  refine ⟨fun sE s hs hL fuel out log hsol => ?_, fun sE s hs hf hmin hini hsq hL fuel out log hsol => ?_,
    fun sE s hs hini hsq hL fuel out log hsol => ?_⟩
  · obtain ⟨st, st', k, l, m1, m2, m3, m4⟩ := solve_from hl hrefl hal hsol
    have hk := one (base := id) (initState_fresh m1).1 m3 m2
    obtain ⟨p, d', rfl, -, n1, n2, n3, -, n4⟩ := H₁ CE gE hl sE s hs hL d hd hdε.1 a ha st st' k l m1 m2
    exact ⟨p.assignments, m4 p.assignments rfl ((retract_keeps_layout n2).trans hlay), k, d', hk, n1, n2, n3,
      fun ht => .inl (n4 m3 (ht.trans (min_le_left _ _)))⟩
  · obtain ⟨st, st', k, l, m1, m2, m3, m4⟩ := solve_from hl hrefl hal hsol
    have hk := one (base := LMState.toState) (initState_fresh (lmInit_ok.1 m1).1).1 m3 m2
    obtain ⟨p, d', rfl, -, n1, n2, n3, -, -, -, n4⟩ := H₂ CE gE hl sE s hs hf hmin hini hsq hL d hd hdε.2.1 a ha st st' k l m1 m2
    exact ⟨p.assignments, m4 p.assignments rfl ((retract_keeps_layout n2).trans hlay), k, d', hk, n1, n2, n3,
      fun ht => n4 m3 (ht.trans ((min_le_right _ _).trans (min_le_left _ _)))⟩
  · obtain ⟨st, st', k, l, m1, m2, m3, m4⟩ := solve_from hl hrefl hal hsol
    have hk := one (base := DoglegState.toState) (initState_fresh (doglegInit_ok.1 m1).1).1 m3 m2
    obtain ⟨p, d', rfl, -, n1, n2, n3, -, -, n4⟩ := H₃ CE gE hl sE s hs hini hsq hL d hd hdε.2.2 a ha st st' k l m1 m2
    exact ⟨p.assignments, m4 p.assignments rfl ((retract_keeps_layout n2).trans hlay), k, d', hk, n1, n2, n3,
      fun ht => .inl (n4 m3 (ht.trans ((min_le_right _ _).trans (min_le_right _ _))))⟩

/-- **C129, CHOLMOD.** With CHOLMOD the three solvers do return near the fit, for all tolerances and every budget: no exception and no
infinity or NaN, within `max(1, max_iterations)` steps. So there is a result, and it is as described. -/
theorem C129_cholmod (hC : ∀ t, C t = (K t).ops.varClass) (fs : List Factor) (hne : fs ≠ [])
    (P : Factor → (Var → List ℝ) → Prop) (hfs : ∀ f ∈ fs, Measures F K f (P f))
    (hnoise : ∀ f ∈ fs, ∀ v ∈ f.vars, NoiseWF f.noise (K v.ty).ops.tangentDim (K v.ty).ops.tangentDim ∧
      NoiseRegular f.noise (K v.ty).ops.tangentDim) (hgauss : ∀ f ∈ fs, NoiseGaussian f.noise)
    (stale : Pattern → ScipyCoo ℝ → ℝ → List ℝ → Py (List ℝ)) (addr : Nat) :
    ∃ g, Graph.make C fs = .ok g ∧
      ∀ vars pose e, (∀ v ∈ vars, (K v.ty).Valid (pose v)) → Holds C fs vars (poseValue K pose) e → e.layout = g.layout →
        (∀ f ∈ fs, P f pose) → (∀ v ∈ vars, Anchored fs v) → ∀ l₀ q ρ₀, 0 ≤ l₀ → q < 1 → 0 < ρ₀ →
        let L : LinSolver ℝ := fun A b l _ => (cholmodSolve stale .empty addr A b l).1
        ∃ κ₀ < 1, ∀ κ, κ₀ < κ → κ < 1 → ∃ τ > 0, ∃ ε > 0, ∀ CE gE, Lifts CE gE C (g.ops F C) →
          ∀ d : List ℝ, d.length = g.localLayout.dim → √(sqNorm d) < ε → ∀ a, e.manifoldRetract C ⟨d, g.localLayout⟩ = .ok a →
          (∀ sE s, LiftsGN sE s → s.linear = L → ∃ o log, ReturnsNear C s.toCriteria g.localLayout e κ τ d o ∧
            ∀ fuel : Nat, max 1 s.maxIterations ≤ fuel → sE.solve CE gE fuel (a.map fin) = .ok (some (o.map fin, log))) ∧
          (∀ sE s, LiftsLM sE s → s.linear = L → 1 ≤ s.lambdaFactor → 0 ≤ s.lambdaMin → s.lambdaInitial = l₀ → s.stepQualityMin = q →
            ∃ o log, ReturnsNear C s.toCriteria g.localLayout e κ τ d o ∧
            ∀ fuel : Nat, max 1 s.maxIterations ≤ fuel → sE.solve CE gE fuel (a.map fin) = .ok (some (o.map fin, log))) ∧
          (∀ sE s, LiftsDogleg sE s → s.linear = L → s.radiusInitial = ρ₀ → s.stepQualityMin = q →
            ∃ o log, ReturnsNear C s.toCriteria g.localLayout e κ τ d o ∧
            ∀ fuel : Nat, max 1 s.maxIterations ≤ fuel → sE.solve CE gE fuel (a.map fin) = .ok (some (o.map fin, log))) := by
  have hwf : ∀ f ∈ fs, FactorWF F C f := fun f hf =>
    (C54_wellformed F C K f (P f) (hfs f hf) fun v hv => ⟨hC _, (hnoise f hf v hv).1⟩).1
  obtain ⟨g, hg, H⟩ := C129_solvers F C K hC fs hne P hfs hnoise hgauss
  obtain ⟨g', hg', hR⟩ := C72_solve_returns F C (lie_goodClasses hC) fs hne hwf
    (fun f hf v hv => by rw [hC]; exact lie_paramDim_pos _)
  obtain rfl : g = g' := Except.ok.inj (hg.symm.trans hg')
  obtain ⟨g', hg', hT⟩ := C72_cholmod F C (lie_goodClasses hC) fs hne hwf stale addr
  obtain rfl : g = g' := Except.ok.inj (hg.symm.trans hg')
  obtain ⟨g', hg', hS⟩ := sane_graph (F := F) (C := C) (lie_goodClasses hC) hwf hne
  obtain rfl : g = g' := Except.ok.inj (hg.symm.trans hg')
  have hchol : ∀ l : ℝ, 0 ≤ l → AllJacobians C (g.ops F C) (Graph.variablesOf fs)
      (DampedAt l (l + 1 / 100000) fun A b l _ => (cholmodSolve stale .empty addr A b l).1) := fun l hl a a' c r A l1 l2 l3 l4 l5 l6 =>
    C93_cholmod stale .empty addr (hS.jacobian a a' c r A l1 l2 l3 l4 l5 l6).1 (fun p hp => by cases hp) hl
  refine ⟨g, hg, fun vars pose e hpose h hlay hP hanch l₀ q ρ₀ hl₀ hq hρ₀ => ?_⟩
  obtain ⟨κ₀, k1, k2⟩ := H vars pose e hpose h hlay hP hanch (fun l => l + 1 / 100000) (fun l hl => by positivity)
    (fun l l' _ hl => by simpa using hl) l₀ q ρ₀ hl₀ hq hρ₀
  refine ⟨κ₀, k1, fun κ hκ hκ1 => ?_⟩
  obtain ⟨τ, hτ, ε, hε, k3⟩ := k2 κ hκ hκ1
  refine ⟨τ, hτ, ε, hε, fun CE gE hl d hd hdε a ha => ?_⟩
  obtain ⟨m1, m2, m3⟩ := k3 CE gE hl d hd hdε a ha
  obtain ⟨n1, n2, n3, -⟩ := hR CE gE hl vars a (isAssignment_retract h.assignment ha)
    (by rw [retract_keeps_layout ha]; exact h.isGlobal) h.sameVars
  have both : ∀ {solve : Nat → Assign Ext → Py (Option (Assign Ext × List (Msg Ext)))} {N : Int} {O : Assign ℝ → Prop},
      ReturnsOnly solve a O → Returns C solve N vars a →
      ∃ o log, O o ∧ ∀ fuel : Nat, max 1 N ≤ fuel → solve fuel (a.map fin) = .ok (some (o.map fin, log)) := by
    rintro solve N O h1 ⟨o, log, -, -, h2⟩
    obtain ⟨o', e1, h3⟩ := h1 _ _ _ (h2 (max 1 N).toNat (Int.self_le_toNat _))
    exact ⟨o', log, h3, fun fuel hf => by rw [h2 fuel hf, e1]⟩
  refine ⟨fun sE s hs hlin => both (m1 sE s hs ?_) (n1 sE s hs ?_), fun sE s hs hlin hf hmin hini hsq =>
    both (m2 sE s hs hf hmin hini hsq fun l hl => ?_) (n2 sE s hs ?_ (by linarith) hmin (by rw [hini]; exact hl₀)),
    fun sE s hs hlin hini hsq => both (m3 sE s hs hini hsq ?_) (n3 sE s hs ?_ ?_ (by rw [hini]; exact hρ₀))⟩ <;> rw [hlin]
  · exact hchol 0 le_rfl
  · exact hT
  · exact hchol l hl
  · exact hT
  · exact hchol 0 le_rfl
  · exact hT
  · exact cholmod_zeroAtZero stale addr

end

namespace PoseEx

/-- The concrete case: the two planar poses of C126, and the three solvers with CHOLMOD and default settings, except that the cost
tolerance is `t`. -/
example (stale : Pattern → ScipyCoo ℝ → ℝ → List ℝ → Py (List ℝ)) (addr : Nat) :
    ∃ g e, Graph.make C [prior, plain] = .ok g ∧ Holds C [prior, plain] [x, y] (poseValue K (pose true)) e ∧
      ∃ κ < 1, ∃ τ > 0, ∃ ε > 0, ∀ d : List ℝ, d.length = g.localLayout.dim → √(sqNorm d) < ε →
        ∀ a, e.manifoldRetract C ⟨d, g.localLayout⟩ = .ok a → ∀ t : ℝ,
        ReturnsOnly (({ GaussNewton.defaults fun A b l _ => (cholmodSolve stale .empty addr A b l).1 with
          costTolerance := t } : GaussNewton ℝ).lift.solve (fun t => (C t).lift) (g.ops F C).lift) a
          (ReturnsNear C { Criteria.defaults with costTolerance := t } g.localLayout e κ τ d) ∧
        ReturnsOnly (({ LevenbergMarquardt.defaults fun A b l _ => (cholmodSolve stale .empty addr A b l).1 with
          costTolerance := t } : LevenbergMarquardt ℝ).lift.solve (fun t => (C t).lift) (g.ops F C).lift) a
          (ReturnsNear C { Criteria.defaults with costTolerance := t } g.localLayout e κ τ d) ∧
        ReturnsOnly (({ Dogleg.defaults fun A b l _ => (cholmodSolve stale .empty addr A b l).1 with
          costTolerance := t } : Dogleg ℝ).lift.solve (fun t => (C t).lift) (g.ops F C).lift) a
          (ReturnsNear C { Criteria.defaults with costTolerance := t } g.localLayout e κ τ d) := by
  obtain ⟨P, e, h1, h2, h3, h4, h5, h6, h7, h8⟩ := fit_setup
  obtain ⟨g, hg, h⟩ := C129_solvers F C K (fun _ => rfl) _ (by simp) P h1 h5 h6
  obtain ⟨g', hg', hs⟩ := sane_graph (F := F) (C := C) (lie_goodClasses (K := K) fun _ => rfl) h7 (by simp)
  rw [hg] at hg'; cases hg'
  obtain ⟨κ₀, k1, k3⟩ := h [x, y] (pose true) e (fun v hv => pose_valid true v (by simp at hv ⊢; tauto)) h3 (h4 g hg) h2 h8
    (fun l => l + 1 / 100000) (fun l hl => by positivity) (fun l l' _ hl => by simpa using hl) (1 / 2000) (1 / 1000) 1 (by norm_num)
    (by norm_num) one_pos
  obtain ⟨κ, hκ, hκ1⟩ := exists_between k1
  obtain ⟨τ, hτ, ε, hε, H⟩ := k3 κ hκ hκ1
  have hchol : ∀ l : ℝ, 0 ≤ l → AllJacobians C (g.ops F C) (Graph.variablesOf [prior, plain])
      (DampedAt l (l + 1 / 100000) fun A b l _ => (cholmodSolve stale .empty addr A b l).1) := fun l hl a a' c r A l1 l2 l3 l4 l5 l6 =>
    C93_cholmod stale .empty addr (hs.jacobian a a' c r A l1 l2 l3 l4 l5 l6).1 (fun p hp => by cases hp) hl
  refine ⟨g, e, hg, h3, κ, hκ1, τ, hτ, ε, hε, fun d hd hdε a ha t => ?_⟩
  obtain ⟨H1, H2, H3⟩ := H _ _ (lifts_lift _ _) d hd hdε a ha
  have hf : (1 : ℝ) ≤ 2 := by norm_num
  have hm : (0 : ℝ) ≤ 1 / 100000 := by norm_num
  exact ⟨H1 _ _ (liftsGN_lift _) (hchol 0 le_rfl), H2 _ _ (liftsLM_lift _) hf hm rfl rfl hchol,
    H3 _ _ (liftsDogleg_lift _) rfl rfl (hchol 0 le_rfl)⟩

/-- The same two poses: Gauss-Newton, Levenberg-Marquardt and dogleg with CHOLMOD and a budget of `N` steps do return. -/
example (stale : Pattern → ScipyCoo ℝ → ℝ → List ℝ → Py (List ℝ)) (addr : Nat) :
    ∃ g e, Graph.make C [prior, plain] = .ok g ∧ Holds C [prior, plain] [x, y] (poseValue K (pose true)) e ∧
      ∃ κ < 1, ∃ τ > 0, ∃ ε > 0, ∀ d : List ℝ, d.length = g.localLayout.dim → √(sqNorm d) < ε →
        ∀ a, e.manifoldRetract C ⟨d, g.localLayout⟩ = .ok a → ∀ N : ℕ, 1 ≤ N →
        (∃ o log, ReturnsNear C { Criteria.defaults with maxIterations := N } g.localLayout e κ τ d o ∧
          ({ GaussNewton.defaults fun A b l _ => (cholmodSolve stale .empty addr A b l).1 with
            maxIterations := N } : GaussNewton ℝ).lift.solve (fun t => (C t).lift) (g.ops F C).lift N (a.map fin) =
            .ok (some (o.map fin, log))) ∧
        (∃ o log, ReturnsNear C { Criteria.defaults with maxIterations := N } g.localLayout e κ τ d o ∧
          ({ LevenbergMarquardt.defaults fun A b l _ => (cholmodSolve stale .empty addr A b l).1 with
            maxIterations := N } : LevenbergMarquardt ℝ).lift.solve (fun t => (C t).lift) (g.ops F C).lift N (a.map fin) =
            .ok (some (o.map fin, log))) ∧
        ∃ o log, ReturnsNear C { Criteria.defaults with maxIterations := N } g.localLayout e κ τ d o ∧
          ({ Dogleg.defaults fun A b l _ => (cholmodSolve stale .empty addr A b l).1 with
            maxIterations := N } : Dogleg ℝ).lift.solve (fun t => (C t).lift) (g.ops F C).lift N (a.map fin) =
            .ok (some (o.map fin, log)) := by
  obtain ⟨P, e, h1, h2, h3, h4, h5, h6, h7, h8⟩ := fit_setup
  obtain ⟨g, hg, h⟩ := C129_cholmod F C K (fun _ => rfl) _ (by simp) P h1 h5 h6 stale addr
  obtain ⟨κ₀, k1, k3⟩ := h [x, y] (pose true) e (fun v hv => pose_valid true v (by simp at hv ⊢; tauto)) h3 (h4 g hg) h2 h8
    (1 / 2000) (1 / 1000) 1 (by norm_num) (by norm_num) one_pos
  obtain ⟨κ, hκ, hκ1⟩ := exists_between k1
  obtain ⟨τ, hτ, ε, hε, H⟩ := k3 κ hκ hκ1
  refine ⟨g, e, hg, h3, κ, hκ1, τ, hτ, ε, hε, fun d hd hdε a ha N hN => ?_⟩
  obtain ⟨H1, H2, H3⟩ := H _ _ (lifts_lift _ _) d hd hdε a ha
  have hf : (1 : ℝ) ≤ 2 := by norm_num
  have hm : (0 : ℝ) ≤ 1 / 100000 := by norm_num
  have hN' : max 1 (N : Int) ≤ N := max_le (by exact_mod_cast hN) le_rfl
  obtain ⟨o1, l1, p1, q1⟩ := H1 _ { GaussNewton.defaults _ with maxIterations := N } (liftsGN_lift _) rfl
  obtain ⟨o2, l2, p2, q2⟩ := H2 _ { LevenbergMarquardt.defaults _ with maxIterations := N } (liftsLM_lift _) rfl hf hm rfl rfl
  obtain ⟨o3, l3, p3, q3⟩ := H3 _ { Dogleg.defaults _ with maxIterations := N } (liftsDogleg_lift _) rfl rfl rfl
  exact ⟨⟨o1, l1, p1, q1 N hN'⟩, ⟨o2, l2, p2, q2 N hN'⟩, o3, l3, p3, q3 N hN'⟩

end PoseEx

end Jaxfg.Props
