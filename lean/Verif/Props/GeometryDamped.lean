/-
Property C128: Levenberg-Marquardt and dogleg near an exact fit of a pose graph (jaxfg/geometry/_factors.py,
jaxfg/solvers/_levenberg_marquardt_solver.py, jaxfg/solvers/_dogleg_solver.py).
-/
import Verif.Spec.NearFit
import Verif.Props.GeometryNewton

namespace Jaxfg.Props
open Spec Filter Topology LieGroup
open Ext (fin)
open Matrix hiding vec

section
variable {F : Nat → FactorClass} {C : Ty → VarClass ℝ} {K : Ty → LieType}

/-- One damped step near an exact fit: how near it leads, how long it is, and that it achieves its share of the predicted decrease. -/
theorem pose_damped_step (hC : ∀ t, C t = (K t).ops.varClass) {fs : List Factor} (hne : fs ≠ [])
    {P : Factor → (Var → List ℝ) → Prop} (hfs : ∀ f ∈ fs, Measures F K f (P f))
    (hnoise : ∀ f ∈ fs, ∀ v ∈ f.vars, NoiseWF f.noise (K v.ty).ops.tangentDim (K v.ty).ops.tangentDim ∧
      NoiseRegular f.noise (K v.ty).ops.tangentDim) (hgauss : ∀ f ∈ fs, NoiseGaussian f.noise) {g : Graph}
    (hg : Graph.make C fs = .ok g) {vars : List Var} {pose : Var → List ℝ} {e : Assign ℝ} (hpose : ∀ v ∈ vars, (K v.ty).Valid (pose v))
    (h : Holds C fs vars (poseValue K pose) e) (hlay : e.layout = g.layout) (hP : ∀ f ∈ fs, P f pose)
    (hanch : ∀ v ∈ vars, Anchored fs v) {μ q : ℝ} (hμ : 0 ≤ μ) (hq : q < 1) :
    ∃ κ₀ < 1, (μ = 0 → κ₀ = 0) ∧ 0 ≤ κ₀ ∧ ∀ κ > κ₀, κ < 1 → ∃ τ > 0, ∃ ε > 0, ∀ d : List ℝ, d.length = g.localLayout.dim →
      √(sqNorm d) < ε → ∀ a, e.manifoldRetract C ⟨d, g.localLayout⟩ = .ok a → ∀ c r A, g.computeCost F C a = .ok (c, r) →
      g.computeWhitenedResidualJacobian F C a r = .ok A → ∀ y, (CooWF A → A.T.matmul (r.map fun t => -t) = .ok y) → ∀ (L : LinSolver ℝ) l ν, 0 ≤ ν →
      AllJacobians C (g.ops F C) (Graph.variablesOf fs) (DampedAt l ν L) → ∀ i x, L A y l i = .ok x →
      CooWF A ∧ x.length = A.shape.2 ∧ (∀ As, A.matmul x = .ok As → predicted As r ≤ c) ∧
      (sqNorm d = 0 → c = 0 ∧ a.manifoldRetract C ⟨x, g.localLayout⟩ = .ok a) ∧
      (ν ≤ μ → √(sqNorm x) ≤ 2 * √(sqNorm d) ∧ (1 - κ) * √(sqNorm d) ≤ √(sqNorm x) ∧ ∃ (d' : List ℝ) (b : Assign ℝ), d'.length = g.localLayout.dim ∧
        e.manifoldRetract C ⟨d', g.localLayout⟩ = .ok b ∧ a.manifoldRetract C ⟨x, g.localLayout⟩ = .ok b ∧
        √(sqNorm d') ≤ κ * √(sqNorm d) ∧ ∀ As c' r', A.matmul x = .ok As → g.computeCost F C b = .ok (c', r') →
          (sqNorm d ≠ 0 → predicted As r < c) ∧ τ * c ≤ c - predicted As r ∧ q * (c - predicted As r) ≤ c - c') := by
  obtain ⟨b, c, r, A, A₀, σ, hσ, hall, hder, hz, hnear, hst, htwo⟩ := pose_near hC hne hfs hnoise hgauss hg hpose h hlay hP hanch
  have hκ1 : μ / (σ + μ) < 1 := by rw [div_lt_one (by linarith)]; linarith
  have hκ0 : 0 ≤ μ / (σ + μ) := by positivity
  refine ⟨μ / (σ + μ), hκ1, fun h0 => by rw [h0, zero_div], hκ0, fun κ hκ hκ1 => ?_⟩
  obtain ⟨τ, hτ, ε, hε, H⟩ := newton_accepts (R := fun d x d' => (b d).manifoldRetract C ⟨List.ofFn x, g.localLayout⟩ = .ok (b d'))
    hder hz hnear hσ hμ hst hκ hκ1 hq htwo
  have hcost : ∀ d, c d = Spec.vec (r d) g.residualDim ⬝ᵥ Spec.vec (r d) g.residualDim := by
    intro d
    obtain ⟨-, -, e3, e4, -⟩ := hall d
    rw [← sqNorm_eq e4]
    unfold Graph.computeCost at e3
    obtain ⟨v, -, e5⟩ := py_bind_eq_ok.1 e3
    obtain ⟨e6, e7⟩ := Prod.mk.inj (Except.ok.inj e5)
    rw [← e7]
    exact e6.symm
  refine ⟨τ, hτ, ε, hε, fun d hd hdε a ha ca ra Aa hca hAa y hy L l ν hν hL i x hx => ?_⟩
  obtain ⟨d, rfl⟩ := exists_ofFn d hd
  rw [nrm_ofFn] at hdε
  obtain ⟨e1, e2, e3, e4, e5, e6, e7, e8⟩ := hall d
  rw [e1] at ha
  cases ha
  rw [e3] at hca
  cases hca
  rw [e5] at hAa
  cases hAa
  obtain ⟨k1, k2, k3⟩ := descent_ok e6 (hy e6)
  obtain ⟨m1, m2⟩ := hL (b d) (b d) (c d) (r d) (A d) e8 e2 e8 e2 e3 e5 _ _ _ k2 hx
  have hpred : ∀ As, (A d).matmul x = .ok As → predicted As (r d) =
      modelCost (cooMatrix (A d) g.residualDim g.localLayout.dim) (Spec.vec (r d) g.residualDim) (Spec.vec x g.localLayout.dim) := by
    intro As hAs
    have := predicted_ok e6 k1 hAs
    rwa [e7] at this
  have hxl := m1
  rw [k3] at m2
  rw [e7] at m1 m2
  obtain ⟨x, rfl⟩ := exists_ofFn x m1
  simp only [vec_ofFn] at m2 hpred
  obtain ⟨n0, n1, n2⟩ := H d hdε ν hν x m2
  have hzero : ∀ v : Fin g.localLayout.dim → ℝ, eucl v = 0 → v = 0 := by
    intro v hv
    have := norm_le_eucl v
    rw [hv] at this
    exact norm_le_zero_iff.1 this
  refine ⟨e6, hxl, fun As hAs => by rw [hpred As hAs, hcost]; exact n0, fun hd0 => ?_, fun hνμ => ?_⟩
  · have hd0' : eucl d = 0 := by rw [← nrm_ofFn, hd0, Real.sqrt_zero]
    have hx0 := hzero x (n1 hd0')
    have hd0'' := hzero d hd0'
    subst hd0''
    have m3 : ((cooMatrix (A 0) g.residualDim g.localLayout.dim)ᵀ * cooMatrix (A 0) g.residualDim g.localLayout.dim +
        (0 : ℝ) • (1 : Matrix _ _ ℝ)) *ᵥ x = descent (cooMatrix (A 0) g.residualDim g.localLayout.dim) (Spec.vec (r 0) g.residualDim) := by
      rw [hx0, hz, descent, neg_zero, mulVec_zero, mulVec_zero]
    obtain ⟨d', p1, p2, -⟩ := (H 0 hdε 0 le_rfl x m3).2.2 hμ
    rw [hd0', mul_zero] at p2
    refine ⟨by rw [hcost, hz, dotProduct_zero], ?_⟩
    rw [p1, hzero d' (le_antisymm p2 (eucl_nonneg _))]
  · obtain ⟨d', p1, p2, p3, p3', p3'', p4, p5⟩ := n2 hνμ
    rw [nrm_ofFn, nrm_ofFn]
    refine ⟨p3, p3', List.ofFn d', b d', by simp, (hall d').1, p1, by rw [nrm_ofFn]; exact p2, fun As c' r' hAs hc' => ?_⟩
    rw [(hall d').2.2.1] at hc'
    cases hc'
    rw [hpred As hAs, hcost, hcost]
    refine ⟨fun hne => p4 (lt_of_le_of_ne (eucl_nonneg d) fun h0 => hne ?_), p3'', p5⟩
    rw [sqNorm_eq (n := g.localLayout.dim) (by simp), vec_ofFn, ← eucl_sq, ← h0]
    norm_num

/-- The cost test does not stop a solver that decreases the cost by its share, nor one at cost zero. -/
theorem stop_reason {t : Criteria ℝ} {p : State ℝ} {c κ δ τ : ℝ} {x y : List ℝ} {l : Layout} {conv : Bool} {e : Assign ℝ} {k : Nat}
    {d₀ d' : List ℝ} (hconv : convergedTest C t p c x l y = .ok conv) (hk : p.iterations = k) (hκ0 : 0 ≤ κ) (hκ1 : κ < 1)
    (hτ : t.costTolerance ≤ τ) (hcost : p.cost = 0 ∨ 0 < p.cost ∧ τ * p.cost ≤ p.cost - c) (h0 : d₀.length = l.dim)
    (h1 : e.manifoldRetract C ⟨d₀, l⟩ = .ok p.assignments) (h2 : √(sqNorm d₀) ≤ δ) (h3 : √(sqNorm d') ≤ κ * √(sqNorm d₀))
    (h4 : (1 - κ) * √(sqNorm d₀) ≤ √(sqNorm x)) (hd : (decide (t.maxIterations - 1 ≤ (p.iterations : Int)) || conv) = true) :
    NearStop C t l e κ δ (k + 1) d' := by
  have hct : costTest t p c = false := by
    unfold costTest
    rw [decide_eq_false_iff_not]
    rintro ⟨n1, n2⟩
    obtain h | ⟨h, h'⟩ := hcost
    · exact n1 h
    · rw [div_lt_iff₀ h] at n2
      have := neg_le_abs (c - p.cost)
      have := mul_le_mul_of_nonneg_right hτ h.le
      linarith
  simp only [Bool.or_eq_true, decide_eq_true_eq] at hd
  obtain hd | rfl := hd
  · left
    rw [hk] at hd
    push_cast
    omega
  unfold convergedTest at hconv
  rw [hct] at hconv
  obtain ⟨b, hb, hconv⟩ := py_bind_eq_ok.1 hconv
  simp only [Bool.false_or, py_pure, Except.ok.injEq, Bool.or_eq_true] at hconv
  right
  obtain rfl | hpar := hconv
  · left
    unfold gradientTest at hb
    obtain ⟨m, -, hb⟩ := py_bind_eq_ok.1 hb
    cases hz : List.zipWith (· - ·) p.assignments.storage m.storage with
    | nil => rw [hz] at hb; cases hb
    | cons z zs =>
      rw [hz] at hb
      have := (of_decide_eq_true (Except.ok.inj hb)).1
      rw [hk] at this
      push_cast
      omega
  · right
    unfold parameterTest at hpar
    have hpar := of_decide_eq_true hpar
    refine ⟨d₀, _, h0, h1, h2, h3.trans ?_⟩
    rw [div_mul_eq_mul_div, mul_div_assoc]
    refine mul_le_mul_of_nonneg_left ?_ hκ0
    rw [le_div_iff₀ (by linarith), mul_comm]
    exact h4.trans hpar.le

/-- Levenberg-Marquardt near an exact fit. -/
theorem lm_near (hC : ∀ t, C t = (K t).ops.varClass) {fs : List Factor} (hne : fs ≠ [])
    {P : Factor → (Var → List ℝ) → Prop} (hfs : ∀ f ∈ fs, Measures F K f (P f))
    (hnoise : ∀ f ∈ fs, ∀ v ∈ f.vars, NoiseWF f.noise (K v.ty).ops.tangentDim (K v.ty).ops.tangentDim ∧
      NoiseRegular f.noise (K v.ty).ops.tangentDim) (hgauss : ∀ f ∈ fs, NoiseGaussian f.noise) {g : Graph}
    (hg : Graph.make C fs = .ok g) {vars : List Var} {pose : Var → List ℝ} {e : Assign ℝ} (hpose : ∀ v ∈ vars, (K v.ty).Valid (pose v))
    (h : Holds C fs vars (poseValue K pose) e) (hlay : e.layout = g.layout) (hP : ∀ f ∈ fs, P f pose)
    (hanch : ∀ v ∈ vars, Anchored fs v) {μ : ℝ → ℝ} (hμ : ∀ l, 0 ≤ l → 0 ≤ μ l) (hmono : ∀ l l', 0 ≤ l → l ≤ l' → μ l ≤ μ l') {l₀ q : ℝ}
    (hl₀ : 0 ≤ l₀) (hq : q < 1) :
    ∃ κ₀ < 1, 0 ≤ κ₀ ∧ ∀ κ, κ₀ < κ → κ < 1 → ∃ τ > 0, ∃ ε > 0,
      ∀ CE gE, Lifts CE gE C (g.ops F C) → ∀ sE s, LiftsLM sE s → 1 ≤ s.lambdaFactor → 0 ≤ s.lambdaMin → s.lambdaInitial = l₀ →
        s.stepQualityMin = q → (∀ l, 0 ≤ l → AllJacobians C (g.ops F C) (Graph.variablesOf fs) (DampedAt l (μ l) s.linear)) →
        ∀ d : List ℝ, d.length = g.localLayout.dim → √(sqNorm d) < ε → ∀ a, e.manifoldRetract C ⟨d, g.localLayout⟩ = .ok a →
        ∀ st st' k log, sE.init gE (a.map fin) = .ok st → Runs (fun s => s.done) (sE.step CE gE) k st st' log →
          ∃ (p : LMState ℝ) (d' : List ℝ), st' = p.map fin ∧ (g.ops F C).computeCost p.assignments = .ok (p.cost, p.residual) ∧
            d'.length = g.localLayout.dim ∧ e.manifoldRetract C ⟨d', g.localLayout⟩ = .ok p.assignments ∧
            √(sqNorm d') ≤ κ ^ k * √(sqNorm d) ∧ 0 ≤ p.lambd ∧ (p.lambd = l₀ / s.lambdaFactor ^ k ∨ sqNorm d' = 0) ∧
            p.iterations = k ∧
            (p.done = true → s.costTolerance ≤ τ → NearStop C s.toCriteria g.localLayout e κ √(sqNorm d) k d' ∨ sqNorm d' = 0) := by
  obtain ⟨κ₀, h1, -, h2, h3⟩ := pose_damped_step hC hne hfs hnoise hgauss hg hpose h hlay hP hanch (hμ l₀ hl₀)
    (max_lt hq (by norm_num : (1 / 4 : ℝ) < 1))
  refine ⟨κ₀, h1, h2, fun κ hκ hκ1 => ?_⟩
  obtain ⟨τ, hτ, ε, hε, H⟩ := h3 κ hκ hκ1
  have hκ0 : 0 ≤ κ := h2.trans hκ.le
  refine ⟨τ / 4, by positivity, ε, hε, fun CE gE hl sE s hs hf hmin hini hsq hL d hd hdε a ha st st' k log hi hr => ?_⟩
  have hf0 : s.lambdaFactor ≠ 0 := by linarith
  obtain ⟨c, r, hc, rfl⟩ := (lmInit_fin hl hs).1 hi
  generalize hst : LMState.map fin _ = st at hr
  induction hr with
  | refl s => exact ⟨_, d, hst.symm, hc, hd, ha, by simp, by simpa [hini] using hl₀, .inl (by simp [hini]), rfl, fun hd => by cases hd⟩
  | @step k _ _ _ _ _ r1 r2 r3 ih =>
    obtain ⟨p, d₁, rfl, hp, hd₁, hpe, hpd, hlp, hlam, hit, -⟩ := ih hst
    obtain ⟨A, ATb, x, b, c, r, As, acc, conv, e1, e2, e3, e4, e5, e6, -, e8, e9, rfl, -⟩ := (lmStep_fin hl hs hf0).1 r3
    have hlt : √(sqNorm d₁) < ε :=
      (hpd.trans (mul_le_of_le_one_left (Real.sqrt_nonneg _) (pow_le_one₀ hκ0 hκ1.le))).trans_lt hdε
    obtain ⟨-, -, -, n1, n2⟩ := H d₁ hd₁ hlt p.assignments hpe p.cost p.residual A hp e1 ATb (fun _ => e2) s.linear p.lambd _ (hμ _ hlp) (hL _ hlp)
      _ x e3
    have hlp' : 0 ≤ (lmNextReal s p b c r acc conv).lambd := by
      show 0 ≤ nextLambda s acc p.lambd
      unfold nextLambda
      split
      · exact div_nonneg hlp (by linarith)
      · exact le_max_of_le_left hmin
    by_cases hz : sqNorm d₁ = 0
    · obtain ⟨-, this⟩ := n1 hz
      have e4' : p.assignments.manifoldRetract C ⟨x, g.localLayout⟩ = .ok b := e4
      rw [e4'] at this
      cases this
      rw [hp] at e5
      cases e5
      refine ⟨_, d₁, rfl, ?_, hd₁, ?_, ?_, hlp', .inr hz, by simp [lmNextReal, hit], fun _ _ => .inr hz⟩
      · simpa [lmNextReal] using hp
      · simpa [lmNextReal] using hpe
      · rw [hz, Real.sqrt_zero]
        exact mul_nonneg (pow_nonneg hκ0 _) (Real.sqrt_nonneg _)
    · obtain hlam | hlam := hlam
      swap
      · exact absurd hlam hz
      have hle : p.lambd ≤ l₀ := by rw [hlam]; exact div_le_self hl₀ (one_le_pow₀ hf)
      obtain ⟨-, hx1, d', b', p1, p2, p3, p4, p5⟩ := n2 (hmono _ _ hlp hle)
      have e4' : p.assignments.manifoldRetract C ⟨x, g.localLayout⟩ = .ok b := e4
      rw [p3] at e4'
      cases e4'
      obtain ⟨p6, p6', p7⟩ := p5 As c r e6 e5
      have hdec := p6 hz
      have hacc : acc = true := by
        rw [e8, hsq]
        exact accepts_share hdec ((mul_le_mul_of_nonneg_right (le_max_left _ _) (by linarith)).trans p7)
      subst hacc
      refine ⟨_, d', rfl, by simpa [lmNextReal] using e5, p1, by simpa [lmNextReal] using p2, ?_, hlp', .inl ?_,
        by simp [lmNextReal, hit], fun hdone htol => .inl ?_⟩
      · rw [pow_succ', mul_assoc]
        exact p4.trans (mul_le_mul_of_nonneg_left hpd hκ0)
      · simp only [lmNextReal, nextLambda, if_true]
        rw [hlam, pow_succ, div_div]
      · have hshare := (mul_le_mul_of_nonneg_right (le_max_right q (1 / 4)) (by linarith : 0 ≤ p.cost - predicted As p.residual)).trans p7
        refine stop_reason (p := p.toState) e9 hit hκ0 hκ1 htol (.inr ⟨?_, ?_⟩) hd₁ hpe
          (hpd.trans (mul_le_of_le_one_left (Real.sqrt_nonneg _) (pow_le_one₀ hκ0 hκ1.le))) p4 hx1
          (by simpa [lmNextReal] using hdone)
        · exact lt_of_le_of_lt (sqNorm_nonneg _) hdec
        · show τ / 4 * p.cost ≤ p.cost - c
          linarith

theorem or_of_or_and {x y z : Bool} (h : (x || (y && z)) = true) : (x || z) = true := by
  cases x <;> cases y <;> simp_all

/-- Dogleg near an exact fit. -/
theorem dogleg_near (hC : ∀ t, C t = (K t).ops.varClass) {fs : List Factor} (hne : fs ≠ [])
    {P : Factor → (Var → List ℝ) → Prop} (hfs : ∀ f ∈ fs, Measures F K f (P f))
    (hnoise : ∀ f ∈ fs, ∀ v ∈ f.vars, NoiseWF f.noise (K v.ty).ops.tangentDim (K v.ty).ops.tangentDim ∧
      NoiseRegular f.noise (K v.ty).ops.tangentDim) (hgauss : ∀ f ∈ fs, NoiseGaussian f.noise) {g : Graph}
    (hg : Graph.make C fs = .ok g) {vars : List Var} {pose : Var → List ℝ} {e : Assign ℝ} (hpose : ∀ v ∈ vars, (K v.ty).Valid (pose v))
    (h : Holds C fs vars (poseValue K pose) e) (hlay : e.layout = g.layout) (hP : ∀ f ∈ fs, P f pose)
    (hanch : ∀ v ∈ vars, Anchored fs v) {μ q ρ₀ : ℝ} (hμ : 0 ≤ μ) (hq : q < 1) (hρ₀ : 0 < ρ₀) :
    ∃ κ₀ < 1, (μ = 0 → κ₀ = 0) ∧ 0 ≤ κ₀ ∧ ∀ κ, κ₀ < κ → κ < 1 → ∃ τ > 0, ∃ ε > 0,
      ∀ CE gE, Lifts CE gE C (g.ops F C) → ∀ sE s, LiftsDogleg sE s → s.radiusInitial = ρ₀ → s.stepQualityMin = q →
        AllJacobians C (g.ops F C) (Graph.variablesOf fs) (DampedAt 0 μ s.linear) →
        ∀ d : List ℝ, d.length = g.localLayout.dim → √(sqNorm d) < ε → ∀ a, e.manifoldRetract C ⟨d, g.localLayout⟩ = .ok a →
        ∀ st st' k log, sE.init gE (a.map fin) = .ok st → Runs (fun s => s.done) (sE.step CE gE) k st st' log →
          ∃ (p : DoglegState ℝ) (d' : List ℝ), st' = p.map fin ∧
            (g.ops F C).computeCost p.assignments = .ok (p.cost, p.residual) ∧
            d'.length = g.localLayout.dim ∧ e.manifoldRetract C ⟨d', g.localLayout⟩ = .ok p.assignments ∧
            √(sqNorm d') ≤ κ ^ k * √(sqNorm d) ∧ ρ₀ ≤ p.radius ∧ p.iterations = k ∧
            (p.done = true → s.costTolerance ≤ τ → NearStop C s.toCriteria g.localLayout e κ √(sqNorm d) k d') := by
  obtain ⟨κ₀, h1, h1', h2, h3⟩ := pose_damped_step hC hne hfs hnoise hgauss hg hpose h hlay hP hanch hμ
    (max_lt hq (by norm_num : (1 / 4 : ℝ) < 1))
  refine ⟨κ₀, h1, h1', h2, fun κ hκ hκ1 => ?_⟩
  obtain ⟨τ, hτ, ε, hε, H⟩ := h3 κ hκ hκ1
  have hκ0 : 0 ≤ κ := h2.trans hκ.le
  refine ⟨τ / 4, by positivity, min ε (ρ₀ / 2), lt_min hε (by positivity), fun CE gE hl sE s hs hini hsq hL d hd hdε a ha st st' k log hi hr => ?_⟩
  have hdε1 := hdε.trans_le (min_le_left _ _)
  have hdε2 := hdε.trans_le (min_le_right _ _)
  obtain ⟨c, r, hc, rfl⟩ := (doglegInit_fin hl hs).1 hi
  generalize hst : DoglegState.map fin _ = st at hr
  induction hr with
  | refl s => exact ⟨_, d, hst.symm, hc, hd, ha, by simp, by simp [hini], rfl, fun hd => by cases hd⟩
  | @step k _ _ _ _ _ r1 r2 r3 ih =>
    obtain ⟨p, d₁, rfl, hp, hd₁, hpe, hpd, hrp, hit, -⟩ := ih hst
    have hdd : √(sqNorm d₁) ≤ √(sqNorm d) := hpd.trans (mul_le_of_le_one_left (Real.sqrt_nonneg _) (pow_le_one₀ hκ0 hκ1.le))
    have hrq : 0 < p.radius := hρ₀.trans_le hrp
    have key := fun A ATb x e1 e2 e3 => H d₁ hd₁ (hdd.trans_lt hdε1) p.assignments hpe p.cost p.residual A hp e1 ATb
      (fun _ => e2) s.linear 0 μ hμ hL p.iterations x e3
    -- the Gauss-Newton step is inside the trust region
    have hgn : ∀ A ATb gn, (g.ops F C).jacobian p.assignments p.residual = .ok A → A.T.matmul (p.residual.map fun x => -x) = .ok ATb →
        s.linear A ATb 0 p.iterations = .ok gn → doglegStep (A.map fin) (ATb.map fin) (gn.map fin) (fin p.radius) = .ok (gn.map fin) := by
      intro A ATb gn e1 e2 e3
      obtain ⟨n1, n2, -, -, n5⟩ := key A ATb gn e1 e2 e3
      refine (doglegStep_fin n1 e2 n2 hrq).1 ?_
      have := (n5 le_rfl).1
      show √(sqNorm gn) ≤ _
      linarith
    obtain ⟨A, ATb, gn, x, b, c, r, As, y, conv, e1, e2, e3, e4, e5, e6, e7, -, rfl, e9, rfl, -⟩ := (doglegSolverStep_fin hl hs (by
      intro A ATb gn dE h1 h2 h3 h4
      rw [hgn A ATb gn h1 h2 h3] at h4
      exact ⟨gn, (Except.ok.inj h4).symm⟩)).1 r3
    rw [hgn A ATb gn e1 e2 e3] at e4
    obtain rfl : gn = x := List.map_injective_iff.2 fin_injective (Except.ok.inj e4)
    obtain ⟨-, -, n3, n4, n5⟩ := key A ATb gn e1 e2 e3
    obtain ⟨-, hx1, d', b', p1, p2, p3, p4, p5⟩ := n5 le_rfl
    have e5' : p.assignments.manifoldRetract C ⟨gn, g.localLayout⟩ = .ok b := e5
    rw [p3] at e5'
    cases e5'
    obtain ⟨p6, p6', p7⟩ := p5 As c r e7 e6
    have hm4 : 1 / 4 ≤ max q (1 / 4) := le_max_right _ _
    have hmq : q ≤ max q (1 / 4) := le_max_left _ _
    have hle := n3 As e7
    have hdist : √(sqNorm d') ≤ κ ^ (k + 1) * √(sqNorm d) := by
      rw [pow_succ', mul_assoc]
      exact p4.trans (mul_le_mul_of_nonneg_left hpd hκ0)
    have hshare := (mul_le_mul_of_nonneg_right hm4 (by linarith : 0 ≤ p.cost - predicted As p.residual)).trans p7
    have hstop : s.costTolerance ≤ τ / 4 → (decide (s.maxIterations - 1 ≤ (p.iterations : Int)) || conv) = true →
        (p.cost = 0 ∨ 0 < p.cost) → NearStop C s.toCriteria g.localLayout e κ √(sqNorm d) (k + 1) d' := fun htol hdone hpos =>
      stop_reason (p := p.toState) e9 hit hκ0 hκ1 htol (hpos.imp_right fun hpos => ⟨hpos, by
        show τ / 4 * p.cost ≤ p.cost - c
        linarith⟩) hd₁ hpe hdd p4 hx1 hdone
    by_cases hz : sqNorm d₁ = 0
    · obtain ⟨hc0, this⟩ := n4 hz
      rw [p3] at this
      cases this
      rw [hp] at e6
      obtain ⟨e61, e62⟩ := Prod.mk.inj (Except.ok.inj e6)
      have hpc : predicted As p.residual = c := by
        refine le_antisymm (by linarith) ?_
        rw [e61] at p7 hle
        nlinarith
      refine ⟨_, d', rfl, ?_, p1, by simpa [doglegNextReal] using p2, hdist, ?_, by simp [doglegNextReal, hit], fun hdone htol => ?_⟩
      · have ha' : ∀ y acc, (doglegNextReal s p gn p.assignments c r y acc conv).assignments = p.assignments := by simp [doglegNextReal]
        have hc' : ∀ y acc, (doglegNextReal s p gn p.assignments c r y acc conv).cost = c := by simp [doglegNextReal, e61]
        have hr' : ∀ y acc, (doglegNextReal s p gn p.assignments c r y acc conv).residual = r := by simp [doglegNextReal]
        rw [ha', hc', hr', hp, e61, e62]
      · show _ ≤ nextRadius _ _ _
        rw [hpc, e61, sub_self, fin_div_zero_zero]
        exact hrp
      · exact hstop htol (or_of_or_and hdone) (.inl hc0)
    · have hneg : predicted As p.residual - p.cost < 0 := by linarith [p6 hz]
      have hquo : max q (1 / 4) ≤ (c - p.cost) / (predicted As p.residual - p.cost) := by
        rw [le_div_iff_of_neg hneg]; linarith
      have hacc : Scal.le (fin s.stepQualityMin) (fin (c - p.cost) / fin (predicted As p.residual - p.cost)) = true :=
        accept_fin.2 (.inl ⟨hneg.ne, by rw [hsq]; exact hmq.trans hquo⟩)
      rw [hacc]
      refine ⟨_, d', rfl, by simpa [doglegNextReal] using e6, p1, by simpa [doglegNextReal] using p2, hdist, ?_, by simp [doglegNextReal, hit], fun hdone htol => ?_⟩
      · show _ ≤ nextRadius _ _ _
        unfold nextRadius
        rw [fin_div hneg.ne, if_neg (by rw [fin_lt, not_lt]; exact hm4.trans hquo)]
        split
        · exact hrp.trans (le_max_left _ _)
        · exact hrp
      · exact hstop htol (or_of_or_and hdone) (.inr (lt_of_le_of_lt (sqNorm_nonneg _) (p6 hz)))

variable (F C K)

/-- **C128**, Levenberg-Marquardt. Let a pose graph of prior and between factors over the four groups, with Gaussian noise models that are
blind in no direction, have poses `e` that satisfy all measurements, every pose being tied to the world by a chain of measurements that
ends in a prior. Let the linear solver, called with damping `l`, add `μ l` to the diagonal, where `μ` is increasing. For every initial
damping and every `step_quality_min` below one there is a rate below one such that for every larger `κ < 1`, Levenberg-Marquardt started
sufficiently near `e`, at `e` retracted by `d`, is after `k` steps at `e` retracted by some `d'` with `|d'| ≤ κᵏ |d|`. Unless `e` is
reached, all steps are accepted: the damping is divided by `lambda_factor` every time. -/
theorem C128_levenberg_marquardt (hC : ∀ t, C t = (K t).ops.varClass) (fs : List Factor) (hne : fs ≠ [])
    (P : Factor → (Var → List ℝ) → Prop) (hfs : ∀ f ∈ fs, Measures F K f (P f))
    (hnoise : ∀ f ∈ fs, ∀ v ∈ f.vars, NoiseWF f.noise (K v.ty).ops.tangentDim (K v.ty).ops.tangentDim ∧
      NoiseRegular f.noise (K v.ty).ops.tangentDim) (hgauss : ∀ f ∈ fs, NoiseGaussian f.noise) :
    ∃ g, Graph.make C fs = .ok g ∧
      ∀ vars pose e, (∀ v ∈ vars, (K v.ty).Valid (pose v)) → Holds C fs vars (poseValue K pose) e → e.layout = g.layout →
        (∀ f ∈ fs, P f pose) → (∀ v ∈ vars, Anchored fs v) → ∀ (μ : ℝ → ℝ), (∀ l, 0 ≤ l → 0 ≤ μ l) →
        (∀ l l', 0 ≤ l → l ≤ l' → μ l ≤ μ l') → ∀ l₀ q, 0 ≤ l₀ → q < 1 →
        ∃ κ₀ < 1, ∀ κ, κ₀ < κ → κ < 1 → ∃ ε > 0,
          ∀ CE gE, Lifts CE gE C (g.ops F C) → ∀ sE s, LiftsLM sE s → 1 ≤ s.lambdaFactor → 0 ≤ s.lambdaMin → s.lambdaInitial = l₀ →
            s.stepQualityMin = q → (∀ l, 0 ≤ l → AllJacobians C (g.ops F C) (Graph.variablesOf fs) (DampedAt l (μ l) s.linear)) →
            ∀ d : List ℝ, d.length = g.localLayout.dim → √(sqNorm d) < ε → ∀ a, e.manifoldRetract C ⟨d, g.localLayout⟩ = .ok a →
            ∀ st st' k log, sE.init gE (a.map fin) = .ok st → Runs (fun s => s.done) (sE.step CE gE) k st st' log →
              ∃ d' b, d'.length = g.localLayout.dim ∧ e.manifoldRetract C ⟨d', g.localLayout⟩ = .ok b ∧
                st'.assignments = b.map fin ∧ √(sqNorm d') ≤ κ ^ k * √(sqNorm d) ∧
                (st'.lambd = fin (l₀ / s.lambdaFactor ^ k) ∨ sqNorm d' = 0) := by
  have hwf' : ∀ f ∈ fs, FactorWF F C f := fun f hf =>
    (C54_wellformed F C K f (P f) (hfs f hf) fun v hv => ⟨hC _, (hnoise f hf v hv).1⟩).1
  obtain ⟨g, hg, -⟩ := graph_ok (F := F) hwf' hne
  refine ⟨g, hg, fun vars pose e hpose h hlay hP hanch μ hμ hmono l₀ q hl₀ hq => ?_⟩
  obtain ⟨κ₀, h1, -, h3⟩ := lm_near hC hne hfs hnoise hgauss hg hpose h hlay hP hanch hμ hmono hl₀ hq
  refine ⟨κ₀, h1, fun κ hκ hκ1 => ?_⟩
  obtain ⟨τ, -, ε, hε, H⟩ := h3 κ hκ hκ1
  refine ⟨ε, hε, fun CE gE hl sE s hs hf hmin hini hsq hL d hd hdε a ha st st' k log hi hr => ?_⟩
  obtain ⟨p, d', rfl, -, k2, k3, k4, -, k5, -⟩ := H CE gE hl sE s hs hf hmin hini hsq hL d hd hdε a ha st st' k log hi hr
  exact ⟨d', _, k2, k3, rfl, k4, k5.imp_left fun k6 => by rw [← k6]; rfl⟩

/-- **C128**, dogleg. In the same situation, with a linear solver that, called without damping, adds `μ` to the diagonal, and for every
positive initial radius: started sufficiently near `e`, all steps are Gauss-Newton steps, the radius never shrinks, and the length of the
delta after `k` steps is at most `κᵏ |d|`. -/
theorem C128_dogleg (hC : ∀ t, C t = (K t).ops.varClass) (fs : List Factor) (hne : fs ≠ [])
    (P : Factor → (Var → List ℝ) → Prop) (hfs : ∀ f ∈ fs, Measures F K f (P f))
    (hnoise : ∀ f ∈ fs, ∀ v ∈ f.vars, NoiseWF f.noise (K v.ty).ops.tangentDim (K v.ty).ops.tangentDim ∧
      NoiseRegular f.noise (K v.ty).ops.tangentDim) (hgauss : ∀ f ∈ fs, NoiseGaussian f.noise) :
    ∃ g, Graph.make C fs = .ok g ∧
      ∀ vars pose e, (∀ v ∈ vars, (K v.ty).Valid (pose v)) → Holds C fs vars (poseValue K pose) e → e.layout = g.layout →
        (∀ f ∈ fs, P f pose) → (∀ v ∈ vars, Anchored fs v) → ∀ μ q ρ₀, 0 ≤ μ → q < 1 → 0 < ρ₀ →
        ∃ κ₀ < 1, (μ = 0 → κ₀ = 0) ∧ ∀ κ, κ₀ < κ → κ < 1 → ∃ ε > 0,
          ∀ CE gE, Lifts CE gE C (g.ops F C) → ∀ sE s, LiftsDogleg sE s → s.radiusInitial = ρ₀ → s.stepQualityMin = q →
            AllJacobians C (g.ops F C) (Graph.variablesOf fs) (DampedAt 0 μ s.linear) →
            ∀ d : List ℝ, d.length = g.localLayout.dim → √(sqNorm d) < ε → ∀ a, e.manifoldRetract C ⟨d, g.localLayout⟩ = .ok a →
            ∀ st st' k log, sE.init gE (a.map fin) = .ok st → Runs (fun s => s.done) (sE.step CE gE) k st st' log →
              ∃ d' b ρ, d'.length = g.localLayout.dim ∧ e.manifoldRetract C ⟨d', g.localLayout⟩ = .ok b ∧
                st'.assignments = b.map fin ∧ √(sqNorm d') ≤ κ ^ k * √(sqNorm d) ∧ st'.radius = fin ρ ∧ ρ₀ ≤ ρ := by
  have hwf' : ∀ f ∈ fs, FactorWF F C f := fun f hf =>
    (C54_wellformed F C K f (P f) (hfs f hf) fun v hv => ⟨hC _, (hnoise f hf v hv).1⟩).1
  obtain ⟨g, hg, -⟩ := graph_ok (F := F) hwf' hne
  refine ⟨g, hg, fun vars pose e hpose h hlay hP hanch μ q ρ₀ hμ hq hρ₀ => ?_⟩
  obtain ⟨κ₀, h1, h2, -, h3⟩ := dogleg_near hC hne hfs hnoise hgauss hg hpose h hlay hP hanch hμ hq hρ₀
  refine ⟨κ₀, h1, h2, fun κ hκ hκ1 => ?_⟩
  obtain ⟨τ, -, ε, hε, H⟩ := h3 κ hκ hκ1
  refine ⟨ε, hε, fun CE gE hl sE s hs hini hsq hL d hd hdε a ha st st' k log hi hr => ?_⟩
  obtain ⟨p, d', rfl, -, k2, k3, k4, k5, -⟩ := H CE gE hl sE s hs hini hsq hL d hd hdε a ha st st' k log hi hr
  exact ⟨d', _, p.radius, k2, k3, rfl, k4, rfl, k5⟩

end

namespace PoseEx

/-- The concrete case: the two planar poses of C126, and Levenberg-Marquardt with CHOLMOD and default settings. -/
example (stale : Pattern → ScipyCoo ℝ → ℝ → List ℝ → Py (List ℝ)) (addr : Nat) :
    ∃ g e, Graph.make C [prior, plain] = .ok g ∧ Holds C [prior, plain] [x, y] (poseValue K (pose true)) e ∧ ∃ κ < 1, ∃ ε > 0,
      ∀ d : List ℝ, d.length = g.localLayout.dim → √(sqNorm d) < ε → ∀ a, e.manifoldRetract C ⟨d, g.localLayout⟩ = .ok a →
        ∀ st st' k log, (LevenbergMarquardt.defaults fun A b l _ => (cholmodSolve stale .empty addr A b l).1).lift.init
            (g.ops F C).lift (a.map fin) = .ok st →
          Runs (fun s => s.done) ((LevenbergMarquardt.defaults fun A b l _ => (cholmodSolve stale .empty addr A b l).1).lift.step
            (fun t => (C t).lift) (g.ops F C).lift) k st st' log →
          ∃ d' b, d'.length = g.localLayout.dim ∧ e.manifoldRetract C ⟨d', g.localLayout⟩ = .ok b ∧ st'.assignments = b.map fin ∧
            √(sqNorm d') ≤ κ ^ k * √(sqNorm d) ∧ (st'.lambd = fin (1 / 2000 / 2 ^ k) ∨ sqNorm d' = 0) := by
  obtain ⟨P, e, h1, h2, h3, h4, h5, h6, h7, h8⟩ := fit_setup
  obtain ⟨g, hg, h⟩ := C128_levenberg_marquardt F C K (fun _ => rfl) _ (by simp) P h1 h5 h6
  obtain ⟨g', hg', hs⟩ := sane_graph (F := F) (C := C) (lie_goodClasses (K := K) fun _ => rfl) h7 (by simp)
  rw [hg] at hg'; cases hg'
  obtain ⟨κ₀, k1, k3⟩ := h [x, y] (pose true) e (fun v hv => pose_valid true v (by simp at hv ⊢; tauto)) h3 (h4 g hg) h2 h8
    (fun l => l + 1 / 100000) (fun l hl => by positivity) (fun l l' _ hl => by simpa using hl) (1 / 2000) (1 / 1000) (by norm_num)
    (by norm_num)
  obtain ⟨κ, hκ, hκ1⟩ := exists_between k1
  obtain ⟨ε, hε, H⟩ := k3 κ hκ hκ1
  refine ⟨g, e, hg, h3, κ, hκ1, ε, hε, fun d hd hdε a ha st st' k log hi hr => ?_⟩
  obtain ⟨S, hS⟩ : ∃ S, S = LevenbergMarquardt.defaults (fun A b l (_ : Nat) => (cholmodSolve stale .empty addr A b l).1) := ⟨_, rfl⟩
  rw [← hS] at hi hr
  have hf : S.lambdaFactor = 2 := by rw [hS]; rfl
  have hmin : S.lambdaMin = 1 / 100000 := by rw [hS]; rfl
  have := H _ _ (lifts_lift _ _) _ S (liftsLM_lift S) (by rw [hf]; norm_num) (by rw [hmin]; norm_num) (by rw [hS]; rfl) (by rw [hS]; rfl)
    (fun l hl a a' c r A l1 l2 l3 l4 l5 l6 => by
      rw [hS]
      exact C93_cholmod stale .empty addr (hs.jacobian a a' c r A l1 l2 l3 l4 l5 l6).1 (fun p hp => by cases hp) hl)
    d hd hdε a ha st st' k log hi hr
  rwa [hf] at this

/-- The same with dogleg. -/
example (stale : Pattern → ScipyCoo ℝ → ℝ → List ℝ → Py (List ℝ)) (addr : Nat) :
    ∃ g e, Graph.make C [prior, plain] = .ok g ∧ Holds C [prior, plain] [x, y] (poseValue K (pose true)) e ∧ ∃ κ < 1, ∃ ε > 0,
      ∀ d : List ℝ, d.length = g.localLayout.dim → √(sqNorm d) < ε → ∀ a, e.manifoldRetract C ⟨d, g.localLayout⟩ = .ok a →
        ∀ st st' k log, (Dogleg.defaults fun A b l _ => (cholmodSolve stale .empty addr A b l).1).lift.init
            (g.ops F C).lift (a.map fin) = .ok st →
          Runs (fun s => s.done) ((Dogleg.defaults fun A b l _ => (cholmodSolve stale .empty addr A b l).1).lift.step
            (fun t => (C t).lift) (g.ops F C).lift) k st st' log →
          ∃ d' b ρ, d'.length = g.localLayout.dim ∧ e.manifoldRetract C ⟨d', g.localLayout⟩ = .ok b ∧ st'.assignments = b.map fin ∧
            √(sqNorm d') ≤ κ ^ k * √(sqNorm d) ∧ st'.radius = fin ρ ∧ 1 ≤ ρ := by
  obtain ⟨P, e, h1, h2, h3, h4, h5, h6, h7, h8⟩ := fit_setup
  obtain ⟨g, hg, h⟩ := C128_dogleg F C K (fun _ => rfl) _ (by simp) P h1 h5 h6
  obtain ⟨g', hg', hs⟩ := sane_graph (F := F) (C := C) (lie_goodClasses (K := K) fun _ => rfl) h7 (by simp)
  rw [hg] at hg'; cases hg'
  obtain ⟨κ₀, k1, -, k3⟩ := h [x, y] (pose true) e (fun v hv => pose_valid true v (by simp at hv ⊢; tauto)) h3 (h4 g hg) h2 h8
    (0 + 1 / 100000) (1 / 1000) 1 (by norm_num) (by norm_num) one_pos
  obtain ⟨κ, hκ, hκ1⟩ := exists_between k1
  obtain ⟨ε, hε, H⟩ := k3 κ hκ hκ1
  refine ⟨g, e, hg, h3, κ, hκ1, ε, hε, fun d hd hdε a ha st st' k log hi hr => ?_⟩
  obtain ⟨S, hS⟩ : ∃ S, S = Dogleg.defaults (fun A b l (_ : Nat) => (cholmodSolve stale .empty addr A b l).1) := ⟨_, rfl⟩
  rw [← hS] at hi hr
  refine H _ _ (lifts_lift _ _) _ S (liftsDogleg_lift S) (by rw [hS]; rfl) (by rw [hS]; rfl)
    (fun a a' c r A l1 l2 l3 l4 l5 l6 => ?_) d hd hdε a ha st st' k log hi hr
  rw [hS]
  exact C93_cholmod stale .empty addr (hs.jacobian a a' c r A l1 l2 l3 l4 l5 l6).1 (fun p hp => by cases hp) le_rfl

end PoseEx

end Jaxfg.Props
