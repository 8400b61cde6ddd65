/- C103: how accurate the results of `solve` are on linear problems. -/
import Verif.Lemmas.Accuracy
import Verif.Props.LinearRate
import Verif.Props.Progress
import Verif.Props.Reuse

namespace Jaxfg.Props
open Spec
open Ext (fin)
open Matrix hiding vec

section
variable {F : Nat → FactorClass} {C : Ty → VarClass ℝ}

theorem Determines.perm {fs : List Factor} {vs ws : List Var} {σ : ℝ} (h : vs.Perm ws) (hD : Determines F C fs vs σ) :
    Determines F C fs ws σ := by
  intro val val' w w' hv hw
  rw [← sqDist_perm h]
  exact hD val val' w w' (fun v hv' => hv v (h.mem_iff.1 hv')) hw

/-- **C103, the optimum.** A linear problem whose measurements determine the variables has an optimum, and only one. -/
theorem C103_optimum (hC : GoodClasses C) (fs : List Factor) (hne : fs ≠ []) (hfs : ∀ f ∈ fs, FactorWF F C f)
    (hgauss : ∀ f ∈ fs, NoiseGaussian f.noise) (haff : ∀ f ∈ fs, AffineFactor F C f) (vars : List Var) (hn : vars.Nodup)
    (hvars : ∀ v, v ∈ vars ↔ ∃ f ∈ fs, v ∈ f.vars) (hE : UsesDefaultRetraction C vars) (σ : ℝ) (hσ : 0 < σ)
    (hD : Determines F C fs vars σ) :
    ∃ m c, IsOptimum F C fs vars m c ∧ ∀ m' c', IsOptimum F C fs vars m' c' → c' = c ∧ ∀ v ∈ vars, m' v = m v := by
  obtain ⟨g, hg, hT⟩ := total_graph (F := F) hC hfs hne
  obtain ⟨g', hg', hG⟩ := graph_ok (F := F) hfs hne
  rw [hg] at hg'; cases hg'
  have hs := variablesOf_spec fs
  have hv : ∀ v, v ∈ vars ↔ v ∈ Graph.variablesOf fs := fun v => by rw [hvars, hs.2]
  have hperm : vars.Perm (Graph.variablesOf fs) := (List.perm_ext_iff_of_nodup hn hs.1).2 hv
  have hE' : UsesDefaultRetraction C (Graph.variablesOf fs) := fun v hv' => hE v ((hv v).2 hv')
  have haffg := affine_graph hC hfs hne hgauss haff hg
  have hstiff := determines_stiff hC hfs hne hgauss haff hE' (Determines.perm hperm hD) hg
  have conv : ∀ m, (∀ v ∈ vars, IsValueOf (C v.ty) (m v)) → ∃ e, Stores C (Graph.variablesOf fs) m e ∧ e.layout = g.layout := by
    intro m hm
    have hm' : ∀ v ∈ Graph.variablesOf fs, IsValueOf (C v.ty) (m v) := fun v hv' => hm v ((hv v).2 hv')
    exact ⟨_, stores_exists (C := C) hs.1 hm' (fun v hv => by
      obtain ⟨-, h2, h3⟩ := hm' v hv
      rw [flatten_length h3, h2]
      exact (flatten_length (hC v.ty).1).symm), by rw [hG.layout]⟩
  have conv' : ∀ u, IsAssignmentOf C (Graph.variablesOf fs) u → u.layout = g.layout →
      ∃ val, Stores C (Graph.variablesOf fs) val u := by
    intro u hu hul
    have hfl : u.layout.localFlag = false := by rw [hul, hG.layout]; rfl
    obtain ⟨f, hf⟩ := exists_rep hu
    rw [hfl] at hf
    exact ⟨_, stores_of_holds (fs := fs) hC ⟨hu, hfl, hs.2, fun v hv => hf.getValue_ok hv⟩⟩
  obtain ⟨a, ha, hal⟩ := conv (fun v => (C v.ty).default) fun v _ => ⟨rfl, rfl, (hC v.ty).1⟩
  obtain ⟨b, c, r, b1, b2, b3, b4⟩ := optimum_exists hT haffg hE' ha.1.isAssignment hal
  obtain ⟨m, hm⟩ := conv' b b1 b2
  have hcost : ∀ {val e}, Stores C (Graph.variablesOf fs) val e → ∃ c r, g.computeCost F C e = .ok (c, r) ∧ HasCost F fs val c :=
    fun h => hasCost_of_holds hC hfs hne hG (h.holds hs.2)
  obtain ⟨c1, r1, k1, k2⟩ := hcost hm
  have b3 : g.computeCost F C b = .ok (c, r) := b3
  rw [b3] at k1; cases k1
  have hopt : IsOptimum F C fs vars m c := by
    refine ⟨fun v hv' => hm.2 v ((hv v).1 hv'), k2, fun m' c' hm' hc' => ?_⟩
    obtain ⟨e, e1, e2⟩ := conv m' hm'
    obtain ⟨c1, r1, k1, k3⟩ := hcost e1
    rw [HasCost.unique hc' k3]
    exact b4 _ _ _ e1.1.isAssignment e2 k1
  refine ⟨m, c, hopt, ?_⟩
  rintro m' c' ⟨hm', hc', hmin⟩
  have hcc : c' = c := le_antisymm (hmin _ _ hopt.1 k2) (hopt.2.2 _ _ hm' hc')
  refine ⟨hcc, fun v hv' => ?_⟩
  obtain ⟨e, e1, e2⟩ := conv m' hm'
  obtain ⟨c1, r1, k1, k3⟩ := hcost e1
  rw [HasCost.unique k3 hc', hcc] at k1
  obtain ⟨A, hA, hAl⟩ := hT.jacobian b b c r b1 b2 b1 b2 b3
  have := optimum_growth hT.sane haffg hE' hstiff b1 b2 e1.1.isAssignment e2 b3 k1 hA hAl.symm (fun u hu hul => hT.cost u hu hul) b4
  rw [sqDist_storage e1 hm, sub_self, sqDist] at this
  have hnn : ∀ x ∈ (Graph.variablesOf fs).map fun v => sqNorm (List.zipWith (· - ·) (m' v).flatten (m v).flatten), 0 ≤ x := by
    intro x hx
    obtain ⟨u, -, rfl⟩ := List.mem_map.1 hx
    exact sqNorm_nonneg _
  have hzero : sqNorm (List.zipWith (· - ·) (m' v).flatten (m v).flatten) = 0 := by
    refine le_antisymm ?_ (sqNorm_nonneg _)
    have h1 := List.single_le_sum hnn _ (List.mem_map.2 ⟨v, (hv v).1 hv', rfl⟩)
    nlinarith
  have hlen : (m' v).flatten.length = (m v).flatten.length := by
    rw [e1.1.len v ((hv v).1 hv'), hm.1.len v ((hv v).1 hv')]
  have hfl : (m' v).flatten = (m v).flatten := by
    rw [sqNorm_eq_zero] at hzero
    apply List.ext_getElem hlen
    intro i h1 h2
    have : (List.zipWith (· - ·) (m' v).flatten (m v).flatten)[i]'(by simp [h1, h2]) = 0 := by
      rw [List.getElem_of_eq hzero]; simp
    rw [List.getElem_zipWith] at this
    linarith
  rw [← unravel_flatten (hm' v hv'), ← unravel_flatten (hopt.1 v hv'), hfl]

/-! ### What `solve` leaves of the excess -/

/-- Whatever `solve` returns from `a` exceeds every cost by at most `θ` times as much as `a` does. -/
def Excess (C : Ty → VarClass ℝ) (g : GraphOps ℝ) (ws : List Var) (a : Assign ℝ) (θ : ℝ)
    (solve : Nat → Assign Ext → Py (Option (Assign Ext × List (Msg Ext)))) : Prop :=
  ∀ fuel out log b₀ c₀ r₀, solve fuel (a.map fin) = .ok (some (out, log)) → a.updateStorageLayout C g.layout = .ok b₀ →
    IsAssignmentOf C ws b₀ → b₀.layout = g.layout → g.computeCost b₀ = .ok (c₀, r₀) →
    ∃ (b : Assign ℝ) (c : ℝ) (r : List ℝ), IsAssignmentOf C ws b ∧ b.layout = g.layout ∧
      (b.updateStorageLayout C a.layout).map (Assign.map fin) = .ok out ∧ g.computeCost b = .ok (c, r) ∧
      ∀ e c' r', IsAssignmentOf C ws e → e.layout = g.layout → g.computeCost e = .ok (c', r') → c - c' ≤ θ * (c₀ - c')

/-- More fuel does not change what a loop returns. -/
theorem whileLoop_more {S σ : Type} {done : σ → Bool} {step : σ → Py (σ × List (Msg S))} (m : Nat) :
    ∀ {fuel : Nat} {s : σ} {x : σ × List (Msg S)}, whileLoop done step fuel s = .ok (some x) → whileLoop done step (fuel + m) s = .ok (some x) := by
  intro fuel
  induction fuel with
  | zero =>
    intro s x h
    cases hd : done s with
    | true =>
      rw [whileLoop_done hd] at h ⊢
      exact h
    | false => simp [whileLoop, hd] at h
  | succ f ih =>
    intro s x h
    cases hd : done s with
    | true =>
      rw [whileLoop_done hd] at h ⊢
      exact h
    | false =>
      rw [Nat.add_right_comm]
      unfold whileLoop at h ⊢
      rw [if_neg (by simp [hd])] at h ⊢
      simp only [py_bind_eq_ok] at h ⊢
      obtain ⟨⟨s', l⟩, h1, r, h2, h3⟩ := h
      cases r with
      | none => simp at h3
      | some y => exact ⟨_, h1, _, ih h2, h3⟩

section
variable {g : GraphOps ℝ} {ws : List Var} {CE : Ty → VarClass Ext} {gE : GraphOps Ext}

/-- Fewer steps give the weaker bound. -/
theorem sharpen_excess (hT : TotalGraph C g ws) (haff : AffineGraph C g ws) (hE : UsesDefaultRetraction C ws) {b₀ : Assign ℝ}
    {c₀ c θ θ' : ℝ} {r₀ : List ℝ} (i1 : IsAssignmentOf C ws b₀) (i2 : b₀.layout = g.layout) (i3 : g.computeCost b₀ = .ok (c₀, r₀))
    (t1 : θ' ≤ θ) (t2 : θ ≤ 1)
    (H : ∀ e c' r', IsAssignmentOf C ws e → e.layout = g.layout → g.computeCost e = .ok (c', r') → c - c' ≤ θ' * (c₀ - c')) :
    ∀ e c' r', IsAssignmentOf C ws e → e.layout = g.layout → g.computeCost e = .ok (c', r') → c - c' ≤ θ * (c₀ - c') := by
  intro e c' r' f1 f2 f3
  obtain ⟨e', cm, rm, m1, m2, m3, m4⟩ := optimum_exists hT haff hE i1 i2
  have n1 := H e' cm rm m1 m2 m3
  have n2 := m4 _ _ _ f1 f2 f3
  have n3 := m4 _ _ _ i1 i2 i3
  nlinarith [mul_nonneg (sub_nonneg.2 t1) (sub_nonneg.2 n3), mul_nonneg (sub_nonneg.2 t2) (sub_nonneg.2 n2)]

theorem shrink_bound {σ μ : ℝ} (hσ : 0 < σ) (hμ : 0 ≤ μ) : 0 ≤ (μ / (σ + μ)) ^ 2 ∧ (μ / (σ + μ)) ^ 2 ≤ 1 :=
  ⟨sq_nonneg _, pow_le_one₀ (by positivity) (by rw [div_le_one (by linarith)]; linarith)⟩

variable (hl : Lifts CE gE C g) (hT : TotalGraph C g ws) (haff : AffineGraph C g ws) (hE : UsesDefaultRetraction C ws) {σ : ℝ}
  (hσ : 0 < σ) {μ : ℝ → ℝ} (hμ : ∀ l, 0 ≤ l → 0 ≤ μ l) {a : Assign ℝ}
include hl hT haff hE hσ hμ

theorem excess_gauss_newton {sE : GaussNewton Ext} {s : GaussNewton ℝ} (hs : LiftsGN sE s)
    (hL : AllJacobians C g ws (Contracts σ μ s.linear)) : Excess C g ws a ((μ 0 / (σ + μ 0)) ^ 2) (sE.solve CE gE) := by
  intro fuel out log b₀ c₀ r₀ hsol hb₀ i1 i2 hcost
  obtain ⟨b0, st, st', l, h1, h2, h3, h4, -⟩ := baseSolve_some.1 hsol
  rw [hl.layout, hl.updateStorageLayout] at h1
  obtain ⟨b1, hb1, rfl⟩ := py_map_eq_ok.1 h1
  rw [hb₀] at hb1; cases hb1
  obtain ⟨k, -, hr, hd⟩ := runs_of_whileLoop h3
  cases k with
  | zero =>
    cases hr
    obtain ⟨c, r, -, rfl⟩ := (initState_fin hl).1 h2
    cases hd
  | succ k =>
    obtain ⟨b, c, r, e1, e2, e3, e4⟩ := rate_gauss_newton hl hT.sane haff hE hL hs i1 i2 hcost h2 hr
    obtain ⟨c1, r1, q1, rfl⟩ := (initState_fin hl).1 h2
    obtain ⟨q, rfl, hq⟩ := gn_runs_fin hl hs (GoodState.start i1 i2 q1 _ _) hr
    have hqb : q.assignments = b := assign_map_fin e1
    refine ⟨b, c, r, hqb ▸ hq.assignment, hqb ▸ hq.layout, ?_, e3, ?_⟩
    · have e1' : (id (State.map fin q)).assignments = b.map fin := e1
      rw [e1', hl.updateStorageLayout] at h4
      exact h4
    · have sh := shrink_bound hσ (hμ 0 le_rfl)
      exact sharpen_excess hT haff hE i1 i2 hcost (by rw [pow_succ]; exact mul_le_of_le_one_left sh.1 (pow_le_one₀ sh.1 sh.2)) sh.2 e4

omit hσ hμ in
/-- The fixed-iteration solver takes all its steps. It does not convert the storage layout. -/
theorem excess_fixed_iteration {sE : FixedIteration Ext} {L : LinSolver ℝ} (hs : LiftsSolver sE.linear L)
    (hL : AllJacobians C g ws (Contracts σ μ L)) (hlay : a.layout = g.layout) {n : Nat} (hn1 : 1 ≤ n) (hn : sE.iterations = n) :
    Excess C g ws a (((μ 0 / (σ + μ 0)) ^ 2) ^ n) (sE.solve CE gE) := by
  intro fuel out log b₀ c₀ r₀ hsol hb₀ i1 i2 hcost
  have hsame : ∀ b : Assign ℝ, b.layout = a.layout → b.updateStorageLayout C a.layout = .ok b := by
    intro b hb
    unfold Assign.updateStorageLayout
    rw [hb, if_pos (by rw [hlay, ← i2, i1.2.1]; exact layoutEq_refl C i1.1)]
    rfl
  rw [← hlay, hsame a rfl] at hb₀
  cases hb₀
  obtain ⟨st, st', l, h1, h2, h3, h4⟩ := fixedSolve_some.1 hsol
  obtain ⟨c, r, hc, rfl⟩ := (initState_fin hl).1 h1
  rw [hcost] at hc; cases hc
  have hloop : forLoop (sE.step CE gE) n (State.map fin ⟨0, a, c₀, r₀, false⟩) = .ok (st', l) := by
    cases hu : sE.unroll with
    | true =>
      rw [hu, if_pos rfl, hn] at h2
      obtain ⟨p, hp1, hp2⟩ := py_map_eq_ok.1 h2
      cases hp2
      exact hp1
    | false =>
      rw [hu, if_neg (by simp)] at h2
      obtain ⟨m, rfl⟩ : ∃ m, n = m + 1 := ⟨n - 1, by omega⟩
      have h2 := whileLoop_more (m + 1) h2
      rw [whileLoop_eq_forLoop sE m (fuel + (m + 1)) _ rfl (by rw [hn]; show ((0 : Nat) : Int) + _ = _; push_cast; ring) (by omega)] at h2
      obtain ⟨p, hp1, hp2⟩ := py_map_eq_ok.1 h2
      cases hp2
      exact hp1
  have hr := runs_of_forLoop.1 hloop
  suffices H : ∃ q : State ℝ, st' = q.map fin ∧ GoodState C g ws q ∧ g.computeCost q.assignments = .ok (q.cost, q.residual) ∧
      ∀ e c' r', IsAssignmentOf C ws e → e.layout = g.layout → g.computeCost e = .ok (c', r') →
        q.cost - c' ≤ ((μ 0 / (σ + μ 0)) ^ 2) ^ n * (c₀ - c') by
    obtain ⟨q, rfl, hq, q2, q3⟩ := H
    refine ⟨q.assignments, q.cost, q.residual, hq.assignment, hq.layout, ?_, q2, q3⟩
    rw [hsame _ (hq.layout.trans hlay.symm), h3]
    rfl
  clear hloop h2 h3 h4 hsol hn hn1
  generalize hst : State.map fin ⟨0, a, c₀, r₀, false⟩ = st at hr
  induction hr with
  | refl s => exact ⟨_, hst.symm, GoodState.start i1 i2 hcost _ _, hcost, fun e c' r' _ _ _ => by simp⟩
  | step h1 h2 h3 ih =>
    obtain ⟨q, rfl, hq, hcur, hgap⟩ := ih hst
    obtain ⟨A, ATr, d, b, c, r, hA, hT', hx, hb, hc, rfl, -⟩ := (fixedStep_fin hl hs).1 h3
    refine ⟨_, rfl, hq.next hb hc true rfl rfl rfl, hc, fun e c' r' he hle hc' => ?_⟩
    have hT'' : A.T.matmul (q.residual.map fun x => -x) = .ok (ATr.map fun x => -x) :=
      matmul_neg (cooWF_T (hq.jac hT.sane hA).1) hT'
    have := step_contracts hT.sane haff hE hL hq hcur hA hT'' le_rfl hx hb hc he hle hc'
    refine this.trans ?_
    rw [pow_succ' (_ ^ 2), mul_assoc]
    exact mul_le_mul_of_nonneg_left (hgap e c' r' he hle hc') (sq_nonneg _)

theorem excess_levenberg_marquardt {sE : LevenbergMarquardt Ext} {s : LevenbergMarquardt ℝ} (hs : LiftsLM sE s)
    (hL : AllJacobians C g ws (Contracts σ μ s.linear)) (p0 : s.stepQualityMin ≤ 1) (p1 : 0 ≤ s.lambdaInitial) (p2 : 1 ≤ s.lambdaFactor)
    (p3 : 0 ≤ s.lambdaMin) : Excess C g ws a ((μ s.lambdaInitial / (σ + μ s.lambdaInitial)) ^ 2) (sE.solve CE gE) := by
  intro fuel out log b₀ c₀ r₀ hsol hb₀ i1 i2 hcost
  obtain ⟨b0, st, st', l, h1, h2, h3, h4, -⟩ := baseSolve_some.1 hsol
  rw [hl.layout, hl.updateStorageLayout] at h1
  obtain ⟨b1, hb1, rfl⟩ := py_map_eq_ok.1 h1
  rw [hb₀] at hb1; cases hb1
  obtain ⟨k, -, hr, hd⟩ := runs_of_whileLoop h3
  cases k with
  | zero =>
    cases hr
    obtain ⟨c, r, -, rfl⟩ := (lmInit_fin hl hs).1 h2
    cases hd
  | succ k =>
    obtain ⟨b, c, r, e1, e2, e3, -, e4⟩ := rate_levenberg_marquardt hl hT.sane haff hE hσ hμ hs hL p0 p1 p2 p3 i1 i2 hcost h2 hr
    obtain ⟨c1, r1, q1, rfl⟩ := (lmInit_fin hl hs).1 h2
    obtain ⟨q, rfl, hq⟩ := lm_runs_fin hl hs (by linarith) (GoodState.start i1 i2 q1 _ _) hr
    have hqb : q.assignments = b := assign_map_fin e1
    refine ⟨b, c, r, hqb ▸ hq.assignment, hqb ▸ hq.layout, ?_, e3, ?_⟩
    · have e1' : (LMState.map fin q).toState.assignments = b.map fin := e1
      rw [e1', hl.updateStorageLayout] at h4
      exact h4
    · have hi : ∀ i : Nat, 0 ≤ μ (s.lambdaInitial / s.lambdaFactor ^ i) := fun i =>
        hμ _ (div_nonneg p1 (pow_nonneg (by linarith) i))
      have sh := shrink_bound hσ (hμ _ p1)
      refine sharpen_excess hT haff hE i1 i2 hcost ?_ sh.2 e4
      rw [Finset.prod_range_succ', pow_zero, div_one]
      exact mul_le_of_le_one_left sh.1
        (Finset.prod_le_one (fun i _ => (shrink_bound hσ (hi _)).1) fun i _ => (shrink_bound hσ (hi _)).2)

theorem excess_dogleg {sE : Dogleg Ext} {s : Dogleg ℝ} (hs : LiftsDogleg sE s) (hz : ZeroAtZero s.linear)
    (hL : AllJacobians C g ws (Contracts σ μ s.linear)) (p0 : s.stepQualityMin ≤ 1) (p1 : 0 < s.radiusInitial)
    (hle : ∀ b₀ c₀ r₀, a.updateStorageLayout C g.layout = .ok b₀ → g.computeCost b₀ = .ok (c₀, r₀) → c₀ ≤ σ * s.radiusInitial ^ 2) :
    Excess C g ws a ((μ 0 / (σ + μ 0)) ^ 2) (sE.solve CE gE) := by
  intro fuel out log b₀ c₀ r₀ hsol hb₀ i1 i2 hcost
  obtain ⟨b0, st, st', l, h1, h2, h3, h4, -⟩ := baseSolve_some.1 hsol
  rw [hl.layout, hl.updateStorageLayout] at h1
  obtain ⟨b1, hb1, rfl⟩ := py_map_eq_ok.1 h1
  rw [hb₀] at hb1; cases hb1
  obtain ⟨k, -, hr, hd⟩ := runs_of_whileLoop h3
  cases k with
  | zero =>
    cases hr
    obtain ⟨c, r, -, rfl⟩ := (doglegInit_fin hl hs).1 h2
    cases hd
  | succ k =>
    obtain ⟨b, c, r, e1, e2, e3, e4⟩ := rate_dogleg hl hT.sane haff hE hσ hμ hs hL p0 p1 i1 i2 hcost (K := 0) (k := k + 1)
      (by rw [pow_zero, one_mul]; exact hle _ _ _ hb₀ hcost) h2 (by rw [zero_add]; exact hr)
    obtain ⟨c1, r1, q1, rfl⟩ := (doglegInit_fin hl hs).1 h2
    obtain ⟨q, rfl, hq, -⟩ := dogleg_runs_fin hl hT.sane hs hz (GoodState.start i1 i2 q1 _ _) p1 hr
    have hqb : q.assignments = b := assign_map_fin e1
    refine ⟨b, c, r, hqb ▸ hq.assignment, hqb ▸ hq.layout, ?_, e3, ?_⟩
    · have e1' : (DoglegState.map fin q).toState.assignments = b.map fin := e1
      rw [e1', hl.updateStorageLayout] at h4
      exact h4
    · have sh := shrink_bound hσ (hμ 0 le_rfl)
      exact sharpen_excess hT haff hE i1 i2 hcost (by rw [pow_succ]; exact mul_le_of_le_one_left sh.1 (pow_le_one₀ sh.1 sh.2)) sh.2 e4

end

/-- **C103, `solve`.** Linear factors with Gaussian noise that determine the variables up to `σ`, CHOLMOD, any initial values in any
storage order: `solve` returns, and one step already brings the excess of the cost over the optimum down to the square of `μ / (σ + μ)`
times the initial one, where `μ` is the damping of the first step. For Gauss-Newton that is CHOLMOD's own `10⁻⁵`; Levenberg-Marquardt
adds the initial `lambda`; for Dogleg, if the initial radius is large enough, it is `10⁻⁵` again. The distance of the returned values
from the optimum is bounded as well. The fixed-iteration solver with `n` iterations has the `n`-th power. (`C103_ordering_test`: a problem of this form.) -/
theorem C103_solve (hC : GoodClasses C) (fs : List Factor) (hne : fs ≠ []) (hfs : ∀ f ∈ fs, FactorWF F C f)
    (hpos : ∀ f ∈ fs, ∀ v ∈ f.vars, 0 < (C v.ty).paramDim)
    (hgauss : ∀ f ∈ fs, NoiseGaussian f.noise) (haff : ∀ f ∈ fs, AffineFactor F C f) (vars : List Var) (hn : vars.Nodup)
    (hvars : ∀ v, v ∈ vars ↔ ∃ f ∈ fs, v ∈ f.vars) (hE : UsesDefaultRetraction C vars) (σ : ℝ) (hσ : 0 < σ)
    (hD : Determines F C fs vars σ) (stale : Pattern → ScipyCoo ℝ → ℝ → List ℝ → Py (List ℝ)) (addr : Nat) :
    ∃ g, Graph.make C fs = .ok g ∧ ∀ CE gE, Lifts CE gE C (g.ops F C) → ∀ val a, Holds C fs vars val a →
      let L : LinSolver ℝ := fun A b l _ => (cholmodSolve stale .empty addr A b l).1
      (∀ sE s, LiftsGN sE s → s.linear = L →
        SolvesWithin F C fs vars σ ((1 / 100000 / (σ + 1 / 100000)) ^ 2) val a s.maxIterations (sE.solve CE gE)) ∧
      (∀ sE s, LiftsLM sE s → s.linear = L → s.stepQualityMin ≤ 1 → 0 ≤ s.lambdaInitial → 1 ≤ s.lambdaFactor → 0 ≤ s.lambdaMin →
        SolvesWithin F C fs vars σ (((s.lambdaInitial + 1 / 100000) / (σ + (s.lambdaInitial + 1 / 100000))) ^ 2) val a s.maxIterations
          (sE.solve CE gE)) ∧
      (∀ sE s c₀, LiftsDogleg sE s → s.linear = L → s.stepQualityMin ≤ 1 → 0 < s.radiusInitial → HasCost F fs val c₀ →
        c₀ ≤ σ * s.radiusInitial ^ 2 →
        SolvesWithin F C fs vars σ ((1 / 100000 / (σ + 1 / 100000)) ^ 2) val a s.maxIterations (sE.solve CE gE)) ∧
      (∀ (sE : FixedIteration Ext) (n : Nat), LiftsSolver sE.linear L → a.layout = g.layout → 1 ≤ n → sE.iterations = n →
        SolvesWithin F C fs vars σ (((1 / 100000 / (σ + 1 / 100000)) ^ 2) ^ n) val a sE.iterations (sE.solve CE gE)) := by
  obtain ⟨g, hg, hS⟩ := sane_graph (F := F) hC hfs hne
  obtain ⟨g', hg', hG⟩ := graph_ok (F := F) hfs hne
  rw [hg] at hg'; cases hg'
  obtain ⟨g', hg', hret⟩ := C72_solve_returns F C hC fs hne hfs hpos
  rw [hg] at hg'; cases hg'
  obtain ⟨g', hg', htot⟩ := C72_cholmod F C hC fs hne hfs stale addr
  rw [hg] at hg'; cases hg'
  have hs := variablesOf_spec fs
  have hv : ∀ v, v ∈ vars ↔ v ∈ Graph.variablesOf fs := fun v => by rw [hvars, hs.2]
  have hp : ∀ v ∈ vars, 0 < (C v.ty).paramDim := fun v hv => by
    obtain ⟨f, hf, hv⟩ := (hvars v).1 hv; exact hpos f hf v hv
  have hperm : vars.Perm (Graph.variablesOf fs) := (List.perm_ext_iff_of_nodup hn hs.1).2 hv
  have hE' : UsesDefaultRetraction C (Graph.variablesOf fs) := fun v hv' => hE v ((hv v).2 hv')
  have hD' := Determines.perm hperm hD
  have haffg := affine_graph hC hfs hne hgauss haff hg
  have hstiff := determines_stiff hC hfs hne hgauss haff hE' hD' hg
  have hμ : ∀ l : ℝ, 0 ≤ l → 0 ≤ (fun l : ℝ => l + 1 / 100000) l := fun l hl => by simp only; linarith
  have hL : AllJacobians C (g.ops F C) (Graph.variablesOf fs)
      (Contracts σ (fun l => l + 1 / 100000) fun A b l _ => (cholmodSolve stale .empty addr A b l).1) :=
    fun a a' c r A h1 h2 h3 h4 h5 h6 => contracts_of_stiff hσ hμ (hstiff a a' c r A h1 h2 h3 h4 h5 h6)
      (C70_cholmod stale .empty addr (hS.jacobian a a' c r A h1 h2 h3 h4 h5 h6).1 (fun p hp => by cases hp))
  refine ⟨g, hg, fun CE gE hl val a ha => ?_⟩
  obtain ⟨hr1, hr2, hr3, hr4⟩ := hret CE gE hl vars a ha.assignment ha.isGlobal hvars
  obtain ⟨g', hg', hT⟩ := total_graph (F := F) hC hfs hne
  rw [hg] at hg'; cases hg'
  refine ⟨fun sE s hsE hlin => ?_, fun sE s hsE hlin p0 p1 p2 p3 => ?_, fun sE s c₀' hsE hlin p0 p1 hc₀' hle => ?_,
    fun sE n hsE hlay hn1 hn => ?_⟩
  · rw [← hlin] at hL htot
    have := excess_gauss_newton (a := a) hl hT haffg hE' hσ hμ hsE hL
    simp only [zero_add] at this
    exact solves_within hC hfs hne hpos hgauss haff hE' hD' hg ha (hr1 sE s hsE htot) this
  · rw [← hlin] at hL htot
    exact solves_within hC hfs hne hpos hgauss haff hE' hD' hg ha (hr2 sE s hsE htot (by linarith) p3 p1)
      (excess_levenberg_marquardt hl hT haffg hE' hσ hμ hsE hL p0 p1 p2 p3)
  · rw [← hlin] at hL htot
    have hz : ZeroAtZero s.linear := by rw [hlin]; exact cholmod_zeroAtZero stale addr
    have := excess_dogleg (a := a) hl hT haffg hE' hσ hμ hsE hz hL p0 p1 fun b₀ c₀ r₀ hb₀ hcost => by
      obtain ⟨b', u1, u2, u3⟩ := (stores_of_holds hC ha).update hs.1 hv hp
      rw [← hG.layout] at u1
      obtain rfl : b' = b₀ := Except.ok.inj (u1.symm.trans hb₀)
      obtain ⟨c2, r2, l1, l2⟩ := hasCost_of_holds hC hfs hne hG (u3.holds hs.2)
      obtain ⟨rfl, -⟩ := Prod.mk.inj (Except.ok.inj (l1.symm.trans hcost))
      rw [HasCost.unique l2 hc₀']
      exact hle
    simp only [zero_add] at this
    exact solves_within hC hfs hne hpos hgauss haff hE' hD' hg ha (hr3 sE s hsE htot hz p1) this
  · have := excess_fixed_iteration (a := a) hl hT haffg hE' hsE hL hlay hn1 hn
    simp only [zero_add] at this
    exact solves_within hC hfs hne hpos hgauss haff hE' hD' hg ha (hr4 sE _ hsE htot hlay) this

end

/-! ### The test of orders -/

theorem ordering_value {t : Ty} {x : Value ℝ} (h : IsValueOf (orderingClasses t) x) : ∃ y, x = ⟨0, [⟨[], [y]⟩]⟩ := by
  obtain ⟨td, ls⟩ := x
  obtain ⟨h1, h2, h3⟩ := h
  simp only [orderingClasses, VarClass.euclidean] at h1 h2
  subst h1
  match ls, h2, h3 with
  | [⟨sh, data⟩], h2, h3 =>
    simp only [List.map_cons, List.map_nil, List.cons.injEq, and_true] at h2
    subst h2
    have h3 : data.length = 1 := by simpa [WellShaped] using h3
    obtain ⟨y, rfl⟩ := List.length_eq_one_iff.1 h3
    exact ⟨y, rfl⟩

theorem ordering_retract (t : Ty) (x y : ℝ) : (orderingClasses t).retract ⟨0, [⟨[], [x]⟩]⟩ [y] = ⟨0, [⟨[], [x + y]⟩]⟩ := by
  simp [orderingClasses, VarClass.euclidean, unravel, Value.flatten, splitLeaves]

theorem ordering_whiten (x : ℝ) : (Noise.diagonalFromCovariance ⟨[1], [1]⟩).whiten [x] = .ok [x] := by
  simp [Noise.diagonalFromCovariance, Noise.whiten]

theorem orderingPrior_whitened (v : Var) (p : ℝ) (val : Var → Value ℝ) :
    whitenedAt orderingFactorClasses val (orderingPrior v p) = .ok [(val v).flatten.getD 0 0 - p] := by
  unfold whitenedAt
  exact ordering_whiten _

theorem orderingPair_whitened (u v : Var) (p : ℝ) (val : Var → Value ℝ) :
    whitenedAt orderingFactorClasses val (orderingPair u v p) = .ok [(val u).flatten.getD 0 0 + (val v).flatten.getD 0 0 - p] := by
  unfold whitenedAt
  exact ordering_whiten _

theorem orderingFactors_affine (n : Nat) (p₁ p₂ q₁ q₂ : ℝ) :
    ∀ f ∈ orderingFactors n p₁ p₂ q₁ q₂, AffineFactor orderingFactorClasses orderingClasses f := by
  have one : ∀ {v : Var} {d : List ℝ}, d.length = (orderingClasses v.ty).localDim → ∃ y, d = [y] := fun {v d} h => by
    rw [ordering_localDim] at h
    exact List.length_eq_one_iff.1 h
  have mul : ∀ (v : Var) (y : ℝ), arrMat ⟨[1, 1], [1]⟩ 1 (orderingClasses v.ty).localDim *ᵥ Spec.vec [y] (orderingClasses v.ty).localDim =
      Spec.vec [y] 1 := by
    intro v y
    rw [ordering_localDim]
    funext i
    have : i = 0 := Subsingleton.elim _ _
    subst this
    simp [mulVec, dotProduct, arrMat, Spec.vec]
  have prior : ∀ v p, AffineFactor orderingFactorClasses orderingClasses (orderingPrior v p) := by
    intro v p vals δs hv hδ
    have hd : rdim (orderingPrior v p) = 1 := noiseDim_eq ordering_noise
    rw [hd]
    have hvs : (orderingPrior v p).vars = [v] := rfl
    rw [hvs] at hv hδ ⊢
    obtain ⟨x, xs, hx, hxs, rfl⟩ := List.forall₂_cons_left_iff.1 hv
    obtain ⟨d, ds, hd1, hds, rfl⟩ := List.forall₂_cons_left_iff.1 hδ
    cases List.forall₂_nil_left_iff.1 hxs
    cases List.forall₂_nil_left_iff.1 hds
    obtain ⟨x, rfl⟩ := ordering_value hx
    obtain ⟨y, rfl⟩ := one hd1
    simp only [List.zip_cons_cons, List.zip_nil_right, List.zipWith_cons_cons, List.zipWith_nil_right, ordering_retract]
    show Spec.vec [x + y - p] 1 = Spec.vec [x - p] 1 + (arrMat ⟨[1, 1], [1]⟩ 1 _ *ᵥ Spec.vec [y] _ + 0)
    rw [mul, add_zero]
    funext i
    have : i = 0 := Subsingleton.elim _ _
    subst this
    simp only [Spec.vec, Pi.add_apply, Fin.val_zero, List.getD_cons_zero]
    ring
  have pair : ∀ u v p, AffineFactor orderingFactorClasses orderingClasses (orderingPair u v p) := by
    intro u v p vals δs hv hδ
    have hd : rdim (orderingPair u v p) = 1 := noiseDim_eq ordering_noise
    rw [hd]
    have hvs : (orderingPair u v p).vars = [u, v] := rfl
    rw [hvs] at hv hδ ⊢
    obtain ⟨x, xs, hx, hxs, rfl⟩ := List.forall₂_cons_left_iff.1 hv
    obtain ⟨x', xs, hx', hxs2, rfl⟩ := List.forall₂_cons_left_iff.1 hxs
    obtain ⟨d, ds, hd1, hds, rfl⟩ := List.forall₂_cons_left_iff.1 hδ
    obtain ⟨d', ds, hd2, hds2, rfl⟩ := List.forall₂_cons_left_iff.1 hds
    cases List.forall₂_nil_left_iff.1 hxs2
    cases List.forall₂_nil_left_iff.1 hds2
    obtain ⟨x, rfl⟩ := ordering_value hx
    obtain ⟨x', rfl⟩ := ordering_value hx'
    obtain ⟨y, rfl⟩ := one hd1
    obtain ⟨y', rfl⟩ := one hd2
    simp only [List.zip_cons_cons, List.zip_nil_right, List.zipWith_cons_cons, List.zipWith_nil_right, ordering_retract]
    show Spec.vec [x + y + (x' + y') - p] 1 = Spec.vec [x + x' - p] 1 +
      (arrMat ⟨[1, 1], [1]⟩ 1 _ *ᵥ Spec.vec [y] _ + (arrMat ⟨[1, 1], [1]⟩ 1 _ *ᵥ Spec.vec [y'] _ + 0))
    rw [mul, mul, add_zero]
    funext i
    have : i = 0 := Subsingleton.elim _ _
    subst this
    simp only [Spec.vec, Pi.add_apply, Fin.val_zero, List.getD_cons_zero]
    ring
  intro f hf
  simp only [orderingFactors, List.mem_cons, List.not_mem_nil, or_false] at hf
  rcases hf with rfl | rfl | rfl | rfl
  · exact prior _ _
  · exact prior _ _
  · exact pair _ _ _
  · exact pair _ _ _

theorem orderingFactors_gaussian (n : Nat) (p₁ p₂ q₁ q₂ : ℝ) : ∀ f ∈ orderingFactors n p₁ p₂ q₁ q₂, NoiseGaussian f.noise := by
  intro f hf
  simp only [orderingFactors, List.mem_cons, List.not_mem_nil, or_false] at hf
  rcases hf with rfl | rfl | rfl | rfl <;> trivial

/-- The cost of the test. -/
theorem orderingFactors_cost (n : Nat) (p₁ p₂ q₁ q₂ x y z : ℝ) {val : Var → Value ℝ} (hx : val ⟨0, n⟩ = ⟨0, [⟨[], [x]⟩]⟩)
    (hy : val ⟨0, n + 1⟩ = ⟨0, [⟨[], [y]⟩]⟩) (hz : val ⟨1, n + 2⟩ = ⟨0, [⟨[], [z]⟩]⟩) :
    HasCost orderingFactorClasses (orderingFactors n p₁ p₂ q₁ q₂) val
      ((x - p₁) ^ 2 + (y - p₂) ^ 2 + (x + z - q₁) ^ 2 + (y + z - q₂) ^ 2) := by
  refine ⟨fun f => match whitenedAt orderingFactorClasses val f with | .ok w => w | .error _ => [], ?_, ?_⟩
  · intro f hf
    simp only [orderingFactors, List.mem_cons, List.not_mem_nil, or_false] at hf
    rcases hf with rfl | rfl | rfl | rfl <;> simp only [orderingPrior_whitened, orderingPair_whitened]
  · simp only [orderingFactors, List.map_cons, List.map_nil, orderingPrior_whitened, orderingPair_whitened, hx, hy, hz]
    simp [sqNorm, Value.flatten]
    ring

theorem orderingFactors_determine (n : Nat) (p₁ p₂ q₁ q₂ : ℝ) :
    Determines orderingFactorClasses orderingClasses (orderingFactors n p₁ p₂ q₁ q₂) (orderingVariables n) (1 / 2) := by
  intro val val' w w' hv hw
  obtain ⟨⟨x, hx⟩, x', hx'⟩ := (hv ⟨0, n⟩ (by simp [orderingVariables])).imp ordering_value ordering_value
  obtain ⟨⟨y, hy⟩, y', hy'⟩ := (hv ⟨0, n + 1⟩ (by simp [orderingVariables])).imp ordering_value ordering_value
  obtain ⟨⟨z, hz⟩, z', hz'⟩ := (hv ⟨1, n + 2⟩ (by simp [orderingVariables])).imp ordering_value ordering_value
  have w1 := hw (orderingPrior ⟨0, n⟩ p₁) (by simp [orderingFactors])
  have w2 := hw (orderingPrior ⟨0, n + 1⟩ p₂) (by simp [orderingFactors])
  have w3 := hw (orderingPair ⟨0, n⟩ ⟨1, n + 2⟩ q₁) (by simp [orderingFactors])
  have w4 := hw (orderingPair ⟨0, n + 1⟩ ⟨1, n + 2⟩ q₂) (by simp [orderingFactors])
  rw [orderingPrior_whitened, orderingPrior_whitened, hx, hx'] at w1
  rw [orderingPrior_whitened, orderingPrior_whitened, hy, hy'] at w2
  rw [orderingPair_whitened, orderingPair_whitened, hx, hx', hz, hz'] at w3
  rw [orderingPair_whitened, orderingPair_whitened, hy, hy', hz, hz'] at w4
  simp only [orderingFactors, orderingVariables, sqDist, List.map_cons, List.map_nil, hx, hx', hy, hy', hz, hz', ← Except.ok.inj w1.1,
    ← Except.ok.inj w1.2, ← Except.ok.inj w2.1, ← Except.ok.inj w2.2, ← Except.ok.inj w3.1, ← Except.ok.inj w3.2,
    ← Except.ok.inj w4.1, ← Except.ok.inj w4.2]
  simp [sqNorm, Value.flatten]
  nlinarith [sq_nonneg (3 * (x - x') + 2 * (z - z')), sq_nonneg (3 * (y - y') + 2 * (z - z')), sq_nonneg (z - z')]

/-- **C103, the test of orders.** With any measurements, any orders of the factors and the variables, and any rounds before, the test
finds the least-squares solution with a relative error of `4·10⁻¹⁰` (in the cost). -/
theorem C103_ordering_test (n : Nat) (p₁ p₂ q₁ q₂ : ℝ) (stale : Pattern → ScipyCoo ℝ → ℝ → List ℝ → Py (List ℝ))
    (hst : ReusesAnalyses stale) (solver fuel : Nat) (hfuel : 100 ≤ fuel) :
    ∃ x y z : ℝ, (let δ := p₁ - p₂ - q₁ + q₂
        (x - (p₁ - δ / 4)) ^ 2 + (y - (p₂ + δ / 4)) ^ 2 + (z - (q₁ - p₁ + δ / 2)) ^ 2 ≤
          8 / 10 ^ 10 * ((1 - p₁) ^ 2 + (1 - p₂) ^ 2 + (2 - q₁) ^ 2 + (2 - q₂) ^ 2 - δ ^ 2 / 4)) ∧
      ∀ rounds : List (List Factor × List Var),
      (∀ r ∈ rounds, (orderingFactors n p₁ p₂ q₁ q₂).Perm r.1 ∧ (orderingVariables n).Perm r.2) →
      ∃ results, orderingLoop stale solver fuel rounds .initial = .ok results ∧
        List.Forall₂ (fun r a => ∃ o : Assign ℝ, a = some (o.map fin) ∧ IsAssignmentOf orderingClasses r.2 o ∧
          o.getValue orderingClasses ⟨0, n⟩ = .ok ⟨0, [⟨[], [x]⟩]⟩ ∧ o.getValue orderingClasses ⟨0, n + 1⟩ = .ok ⟨0, [⟨[], [y]⟩]⟩ ∧
          o.getValue orderingClasses ⟨1, n + 2⟩ = .ok ⟨0, [⟨[], [z]⟩]⟩) rounds results := by
  obtain ⟨val, hval⟩ := C89_ordering_test n p₁ p₂ q₁ q₂ stale hst solver fuel hfuel
  set fs := orderingFactors n p₁ p₂ q₁ q₂ with hfs
  -- the first round, in a new process
  obtain ⟨g, a, hg, ha, hc, hh⟩ := ordering_start n p₁ p₂ q₁ q₂ solver (List.Perm.refl _) (List.Perm.refl _)
  set c : SolveCall := ⟨solver, g, a.layout, a.storage.length⟩
  obtain ⟨g', hg', hsol⟩ := C103_solve ordering_good fs hc.ne hc.wf (fun f _ v _ => by rw [ordering_paramDim]; omega)
    (orderingFactors_gaussian _ _ _ _ _) (orderingFactors_affine _ _ _ _ _) (orderingVariables n) (by simp [orderingVariables])
    (orderingVariables_mem n p₁ p₂ q₁ q₂) (fun v _ => rfl) (1 / 2) (by norm_num) (orderingFactors_determine _ _ _ _ _) stale 0
  rw [hg] at hg'; cases hg'
  obtain ⟨gn, -, -, -⟩ := hsol (fun t => (orderingClasses t).lift) _ (lifts_lift _ _) _ a hh
  obtain ⟨o, log, val', c₀, c₁, o1, o2, o3, o4, o5, o6, o7⟩ := gn _ (orderingSolver _) (liftsGN_lift _) rfl
  have hround : orderingLoop stale solver fuel [(fs, orderingVariables n)] .initial = .ok [some (o.map fin)] := by
    obtain ⟨-, f⟩ := C89_fresh (F := orderingFactorClasses) (C := orderingClasses) stale hst [] hc (fun d hd => by cases hd)
    obtain ⟨gn', -⟩ := f fun t => (orderingClasses t).lift
    have e := congrFun (congrFun (gn' (orderingSolver (((Process.after stale []).solve stale c).1)).lift) fuel) (a.map fin)
    have e2 : GaussNewton.solve (fun t => (orderingClasses t).lift) (g.ops orderingFactorClasses orderingClasses).lift
        { Criteria.defaults.map Ext.fin with verbose := false, linear := LinSolver.lift (Process.initial.solve stale c).1 } fuel (a.map fin) =
        .ok (some (o.map fin, log)) := by
      rw [← o5 fuel (by simp only [orderingSolver, Criteria.defaults]; omega)]
      exact e
    unfold orderingLoop orderingRound
    have hg : Graph.make orderingClasses fs = .ok g := hg
    simp only [hg, ha, py_bind_ok]
    rw [e2]
    rfl
  obtain ⟨results, k1, k2⟩ := hval [(fs, orderingVariables n)] (fun r hr => by
    rw [List.mem_singleton.1 hr]; exact ⟨List.Perm.refl _, List.Perm.refl _⟩)
  rw [hround] at k1
  cases k1
  obtain ⟨o', e1, h1⟩ := (List.forall₂_cons.1 k2).1
  have hoo : o = o' := assign_map_fin (Option.some.inj e1)
  subst hoo
  have hvv : ∀ v ∈ orderingVariables n, val v = val' v := fun v hv => by
    have := h1.values v hv
    rw [o2.values v hv] at this
    exact (Except.ok.inj this).symm
  have hst' := stores_of_holds ordering_good o2
  have m1 : (⟨0, n⟩ : Var) ∈ orderingVariables n := by simp [orderingVariables]
  have m2 : (⟨0, n + 1⟩ : Var) ∈ orderingVariables n := by simp [orderingVariables]
  have m3 : (⟨1, n + 2⟩ : Var) ∈ orderingVariables n := by simp [orderingVariables]
  obtain ⟨x, hx⟩ := ordering_value (hst'.2 _ m1)
  obtain ⟨y, hy⟩ := ordering_value (hst'.2 _ m2)
  obtain ⟨z, hz⟩ := ordering_value (hst'.2 _ m3)
  refine ⟨x, y, z, ?_, ?_⟩
  · intro δ
    let num : Var → ℝ := fun v => if v = ⟨0, n⟩ then p₁ - δ / 4 else if v = ⟨0, n + 1⟩ then p₂ + δ / 4 else q₁ - p₁ + δ / 2
    let m : Var → Value ℝ := fun v => ⟨0, [⟨[], [num v]⟩]⟩
    have n1 : m ⟨0, n⟩ = ⟨0, [⟨[], [p₁ - δ / 4]⟩]⟩ := by simp [m, num]
    have n2 : m ⟨0, n + 1⟩ = ⟨0, [⟨[], [p₂ + δ / 4]⟩]⟩ := by simp [m, num]
    have n3 : m ⟨1, n + 2⟩ = ⟨0, [⟨[], [q₁ - p₁ + δ / 2]⟩]⟩ := by simp [m, num]
    have hm : ∀ v ∈ orderingVariables n, IsValueOf (orderingClasses v.ty) (m v) := fun v _ => by
      simp [IsValueOf, orderingClasses, VarClass.euclidean, m, WellShaped]
    have hcm := orderingFactors_cost n p₁ p₂ q₁ q₂ _ _ _ n1 n2 n3
    have hopt : IsOptimum orderingFactorClasses orderingClasses fs (orderingVariables n) m (δ ^ 2 / 4) := by
      refine ⟨hm, ?_, fun m' c' hm' hc' => ?_⟩
      · convert hcm using 1
        simp only [δ]; ring
      · obtain ⟨x', hx'⟩ := ordering_value (hm' _ m1)
        obtain ⟨y', hy'⟩ := ordering_value (hm' _ m2)
        obtain ⟨z', hz'⟩ := ordering_value (hm' _ m3)
        rw [HasCost.unique hc' (orderingFactors_cost n p₁ p₂ q₁ q₂ _ _ _ hx' hy' hz')]
        have : δ = (x' + z' - q₁) - (x' - p₁) + (y' - p₂) - (y' + z' - q₂) := by simp only [δ]; ring
        rw [this]
        nlinarith [sq_nonneg (x' + z' - q₁ + (x' - p₁)), sq_nonneg (x' + z' - q₁ - (y' - p₂)), sq_nonneg (x' + z' - q₁ + (y' + z' - q₂)),
          sq_nonneg (x' - p₁ + (y' - p₂)), sq_nonneg (x' - p₁ - (y' + z' - q₂)), sq_nonneg (y' - p₂ + (y' + z' - q₂))]
    have l1 := o7 m _ hopt
    have l2 := o6 m _ hm hopt.2.1
    have l3 : c₀ = (1 - p₁) ^ 2 + (1 - p₂) ^ 2 + (2 - q₁) ^ 2 + (2 - q₂) ^ 2 := by
      rw [HasCost.unique o3 (orderingFactors_cost n p₁ p₂ q₁ q₂ 1 1 1 rfl rfl rfl)]
      ring
    have l4 : δ ^ 2 / 4 ≤ c₀ := hopt.2.2 (fun v => (orderingClasses v.ty).default) c₀
      (fun v _ => ⟨rfl, rfl, ordering_wellShaped _⟩) o3
    have l5 : sqDist (orderingVariables n) val' m =
        (x - (p₁ - δ / 4)) ^ 2 + (y - (p₂ + δ / 4)) ^ 2 + (z - (q₁ - p₁ + δ / 2)) ^ 2 := by
      simp only [sqDist, orderingVariables, List.map_cons, List.map_nil, hx, hy, hz, n1, n2, n3]
      simp [sqNorm, Value.flatten]
      ring
    rw [← l5, ← l3]
    have l6 : (1 / 100000 / (1 / 2 + 1 / 100000) : ℝ) ^ 2 ≤ 4 / 10 ^ 10 := by norm_num
    nlinarith [mul_le_mul_of_nonneg_right l6 (sub_nonneg.2 l4)]
  · intro rounds hr
    obtain ⟨results, j1, j2⟩ := hval rounds hr
    refine ⟨results, j1, ?_⟩
    rw [List.forall₂_iff_get] at j2 ⊢
    refine ⟨j2.1, fun i i1 i2 => ?_⟩
    obtain ⟨o', e1, h'⟩ := j2.2 i i1 i2
    have hmem : ∀ v ∈ orderingVariables n, v ∈ (rounds.get ⟨i, i1⟩).2 := fun v hv => (hr _ (List.get_mem _ _)).2.mem_iff.1 hv
    refine ⟨o', e1, h'.assignment, ?_, ?_, ?_⟩
    · rw [h'.values _ (hmem _ m1), hvv _ m1, hx]
    · rw [h'.values _ (hmem _ m2), hvv _ m2, hy]
    · rw [h'.values _ (hmem _ m3), hvv _ m3, hz]

end Jaxfg.Props
