/-
Property C70: how fast the solvers converge on linear problems. See Verif.Props.SolverReal for the setting.
-/
import Verif.Lemmas.LinearRate
import Verif.Props.SolverSpecial
import Verif.Props.SolverReal
import Verif.Props.SolverWitness

namespace Jaxfg.Props
open Ext (fin)
open Spec Matrix

section
variable {CE : Ty → VarClass Ext} {gE : GraphOps Ext} {C : Ty → VarClass ℝ} {g : GraphOps ℝ} {ws : List Var}

/-- What a damped step from a state with current residual does to the cost, compared with all other assignments. -/
theorem step_contracts (hg : SaneGraph C g ws) (haff : AffineGraph C g ws) (hE : UsesDefaultRetraction C ws) {σ : ℝ} {μ : ℝ → ℝ}
    {L : LinSolver ℝ} (hL : AllJacobians C g ws (Contracts σ μ L)) {p : State ℝ} (hp : GoodState C g ws p)
    (hcur : g.computeCost p.assignments = .ok (p.cost, p.residual)) {A : Coo ℝ} (hA : g.jacobian p.assignments p.residual = .ok A)
    {ATb : List ℝ} (hT : A.T.matmul (p.residual.map fun x => -x) = .ok ATb) {l : ℝ} (hl : 0 ≤ l) {i : Nat} {d : List ℝ}
    (hd : L A ATb l i = .ok d) {b : Assign ℝ} (hb : p.assignments.manifoldRetract C ⟨d, g.localLayout⟩ = .ok b) {c : ℝ} {r : List ℝ}
    (hc : g.computeCost b = .ok (c, r)) {e : Assign ℝ} (he : IsAssignmentOf C ws e) (hle : e.layout = g.layout) {c' : ℝ} {r' : List ℝ}
    (hc' : g.computeCost e = .ok (c', r')) : c - c' ≤ (μ l / (σ + μ l)) ^ 2 * (p.cost - c') := by
  obtain ⟨hwf, hdim⟩ := hp.jac hg hA
  obtain ⟨hrl, hbl, hbv⟩ := descent_ok hwf hT
  obtain ⟨hdl, -, hcon, -⟩ := hp.all hL hA ATb l i d _ hbl hl hd hbv
  obtain ⟨y, hy1, hy2⟩ := retract_reaches hg hE hp.assignment hp.layout he hle
  have k1 := affine_cost hg haff hp.assignment hp.layout hcur hA hrl (hdl.trans hdim) hb hc
  have k2 := affine_cost hg haff hp.assignment hp.layout hcur hA hrl hy1 hy2 hc'
  have k3 : p.cost = modelCost (cooMatrix A A.shape.1 A.shape.2) (Spec.vec p.residual A.shape.1) 0 := by
    rw [modelCost_zero, hg.cost _ _ _ hcur, sqNorm_eq hrl]
  rw [k1, k2, k3]
  exact hcon _

/-- At a point with zero gradient: the cost is least, and a zero step changes neither cost nor residual. -/
theorem rest_stays (hg : SaneGraph C g ws) (haff : AffineGraph C g ws) (hE : UsesDefaultRetraction C ws) {p : State ℝ}
    (hp : GoodState C g ws p) (hcur : g.computeCost p.assignments = .ok (p.cost, p.residual)) {A : Coo ℝ}
    (hA : g.jacobian p.assignments p.residual = .ok A) (hrl : p.residual.length = A.shape.1)
    (h0 : descent (cooMatrix A A.shape.1 A.shape.2) (Spec.vec p.residual A.shape.1) = 0) {d : List ℝ} (hdl : d.length = A.shape.2)
    (hd0 : Spec.vec d A.shape.2 = 0) {b : Assign ℝ} (hb : p.assignments.manifoldRetract C ⟨d, g.localLayout⟩ = .ok b) {c : ℝ}
    {r : List ℝ} (hc : g.computeCost b = .ok (c, r)) : c = p.cost ∧ r = p.residual ∧
      ∀ e c' r', IsAssignmentOf C ws e → e.layout = g.layout → g.computeCost e = .ok (c', r') → p.cost ≤ c' := by
  obtain ⟨hwf, hdim⟩ := hp.jac hg hA
  have hcd := affine_cost hg haff hp.assignment hp.layout hcur hA hrl (hdl.trans hdim) hb hc
  have hcost : p.cost = Spec.vec p.residual A.shape.1 ⬝ᵥ Spec.vec p.residual A.shape.1 := by
    rw [hg.cost _ _ _ hcur, sqNorm_eq hrl]
  have hce : c = p.cost := by rw [hcd, hd0, modelCost_zero, hcost]
  refine ⟨hce, ?_, ?_⟩
  · obtain ⟨y, y1, y2, y3⟩ := haff _ _ _ _ _ _ _ _ hp.assignment hp.layout hcur hA (hdl.trans hdim) hb hc
    obtain ⟨-, y4, y5⟩ := matmul_vec hwf y1
    rw [hd0, mulVec_zero] at y5
    apply List.ext_getElem y2
    intro i i1 i2
    have e := y3 i
    have e0 : y.getD i 0 = 0 := congrFun y5 ⟨i, by omega⟩
    rw [e0, zero_add] at e
    rwa [List.getD_eq_getElem _ _ i1, List.getD_eq_getElem _ _ i2] at e
  · intro e c' r' he hle hc'
    obtain ⟨y, hy1, hy2⟩ := retract_reaches hg hE hp.assignment hp.layout he hle
    rw [affine_cost hg haff hp.assignment hp.layout hcur hA hrl hy1 hy2 hc', ← hce, hcd, hd0]
    apply normal_minimizes
    rw [mulVec_zero, h0]

/-- Gauss-Newton on linear problems, from what one step does. -/
theorem rate_gauss_newton (h : Lifts CE gE C g) (hg : SaneGraph C g ws) (haff : AffineGraph C g ws) (hE : UsesDefaultRetraction C ws)
    {σ : ℝ} {μ : ℝ → ℝ} {sE : GaussNewton Ext} {s : GaussNewton ℝ} (hL : AllJacobians C g ws (Contracts σ μ s.linear)) (hs : LiftsGN sE s) {a : Assign ℝ}
    (ha : IsAssignmentOf C ws a) (hl : a.layout = g.layout) {c₀ : ℝ} {r₀ : List ℝ} (hc₀ : g.computeCost a = .ok (c₀, r₀))
    {st st' : State Ext} {k : Nat} {log : List (Msg Ext)}
    (hi : initState gE (a.map fin) = .ok st) (hr : Runs (fun s => s.done) (sE.step CE gE) k st st' log) :
    ∃ (b : Assign ℝ) (c : ℝ) (r : List ℝ), st'.assignments = b.map fin ∧ st'.cost = fin c ∧ g.computeCost b = .ok (c, r) ∧
      ∀ e c' r', IsAssignmentOf C ws e → e.layout = g.layout → g.computeCost e = .ok (c', r') →
        c - c' ≤ ((μ 0 / (σ + μ 0)) ^ 2) ^ k * (c₀ - c') := by
  obtain ⟨c, r, hc, rfl⟩ := (initState_fin h).1 hi
  rw [hc₀] at hc; cases hc
  suffices H : ∃ q : State ℝ, st' = q.map fin ∧ GoodState C g ws q ∧ g.computeCost q.assignments = .ok (q.cost, q.residual) ∧
      ∀ e c' r', IsAssignmentOf C ws e → e.layout = g.layout → g.computeCost e = .ok (c', r') →
        q.cost - c' ≤ ((μ 0 / (σ + μ 0)) ^ 2) ^ k * (c₀ - c') by
    obtain ⟨q, rfl, -, h2, h3⟩ := H
    exact ⟨_, _, _, rfl, rfl, h2, h3⟩
  generalize hst : State.map fin ⟨0, a, c₀, r₀, false⟩ = st at hr
  induction hr with
  | refl s => exact ⟨_, hst.symm, GoodState.start ha hl hc₀ _ _, hc₀, fun e c' r' _ _ _ => by simp⟩
  | step h1 h2 h3 ih =>
    obtain ⟨q, rfl, hq, hcur, hgap⟩ := ih hst
    obtain ⟨A, ATr, d, b, c, r, conv, hA, hT, hx, hb, hc, -, rfl, -⟩ := (gnStep_fin h hs).1 h3
    refine ⟨_, rfl, hq.next hb hc true rfl rfl rfl, hc, fun e c' r' he hle hc' => ?_⟩
    have hT' : A.T.matmul (q.residual.map fun x => -x) = .ok (ATr.map fun x => -x) :=
      matmul_neg (cooWF_T (hq.jac hg hA).1) hT
    have := step_contracts hg haff hE hL hq hcur hA hT' le_rfl hx hb hc he hle hc'
    refine this.trans ?_
    rw [pow_succ' (_ ^ 2), mul_assoc]
    exact mul_le_mul_of_nonneg_left (hgap e c' r' he hle hc') (sq_nonneg _)

/-- Levenberg-Marquardt on linear problems, from what one step does. -/
theorem rate_levenberg_marquardt (h : Lifts CE gE C g) (hg : SaneGraph C g ws) (haff : AffineGraph C g ws)
    (hE : UsesDefaultRetraction C ws) {σ : ℝ} (hσ : 0 < σ) {μ : ℝ → ℝ}
    (hμ : ∀ l, 0 ≤ l → 0 ≤ μ l) {sE : LevenbergMarquardt Ext} {s : LevenbergMarquardt ℝ} (hs : LiftsLM sE s)
    (hL : AllJacobians C g ws (Contracts σ μ s.linear)) (hq : s.stepQualityMin ≤ 1) (p1 : 0 ≤ s.lambdaInitial) (p2 : 1 ≤ s.lambdaFactor)
    (p3 : 0 ≤ s.lambdaMin) {a : Assign ℝ}
    (ha : IsAssignmentOf C ws a) (hl : a.layout = g.layout) {c₀ : ℝ} {r₀ : List ℝ} (hc₀ : g.computeCost a = .ok (c₀, r₀))
    {st st' : LMState Ext} {k : Nat} {log : List (Msg Ext)}
    (hi : sE.init gE (a.map fin) = .ok st) (hr : Runs (fun s => s.done) (sE.step CE gE) k st st' log) :
    ∃ (b : Assign ℝ) (c : ℝ) (r : List ℝ), st'.assignments = b.map fin ∧ st'.cost = fin c ∧ g.computeCost b = .ok (c, r) ∧
      (st'.lambd = fin (s.lambdaInitial / s.lambdaFactor ^ k) ∨
        ∀ e c' r', IsAssignmentOf C ws e → e.layout = g.layout → g.computeCost e = .ok (c', r') → c ≤ c') ∧
      ∀ e c' r', IsAssignmentOf C ws e → e.layout = g.layout → g.computeCost e = .ok (c', r') →
        c - c' ≤ (∏ i ∈ Finset.range k, (μ (s.lambdaInitial / s.lambdaFactor ^ i) / (σ + μ (s.lambdaInitial / s.lambdaFactor ^ i))) ^ 2) *
          (c₀ - c') := by
  have hf : s.lambdaFactor ≠ 0 := by linarith
  obtain ⟨c, r, hc, rfl⟩ := (lmInit_fin h hs).1 hi
  rw [hc₀] at hc; cases hc
  suffices H : ∃ q : LMState ℝ, st' = q.map fin ∧ GoodState C g ws q.toState ∧
      g.computeCost q.assignments = .ok (q.cost, q.residual) ∧ 0 ≤ q.lambd ∧
      (q.lambd = s.lambdaInitial / s.lambdaFactor ^ k ∨
        ∀ e c' r', IsAssignmentOf C ws e → e.layout = g.layout → g.computeCost e = .ok (c', r') → q.cost ≤ c') ∧
      ∀ e c' r', IsAssignmentOf C ws e → e.layout = g.layout → g.computeCost e = .ok (c', r') →
        q.cost - c' ≤ (∏ i ∈ Finset.range k, (μ (s.lambdaInitial / s.lambdaFactor ^ i) /
          (σ + μ (s.lambdaInitial / s.lambdaFactor ^ i))) ^ 2) * (c₀ - c') by
    obtain ⟨q, rfl, -, h2, -, h3, h4⟩ := H
    exact ⟨_, _, _, rfl, rfl, h2, h3.imp (fun h3 => congrArg fin h3) id, h4⟩
  generalize hst : LMState.map fin ⟨⟨0, a, c₀, r₀, false⟩, s.lambdaInitial⟩ = st at hr
  induction hr with
  | refl s => exact ⟨_, hst.symm, GoodState.start ha hl hc₀ _ _, hc₀, p1, .inl (by simp), fun e c' r' _ _ _ => by simp⟩
  | @step k _ _ _ _ _ h1 h2 h3 ih =>
    obtain ⟨q, rfl, hq', hcur, hlam, hsched, hgap⟩ := ih hst
    obtain ⟨A, ATb, d, b, c, r, As, acc, conv, hA, hT, hx, hb, hc, hAs, hAl, hacc, -, rfl, -⟩ := (lmStep_fin h hs hf).1 h3
    have hcon := fun {e c' r'} he hle hc' => step_contracts (e := e) (c' := c') (r' := r') hg haff hE hL hq' hcur hA hT hlam hx hb hc he hle hc'
    obtain ⟨hwf, hdim⟩ := hq'.jac hg hA
    obtain ⟨hrl, hbl, hbv⟩ := descent_ok hwf hT
    obtain ⟨hdl, hsd, -⟩ := hq'.all hL hA ATb _ _ d _ hbl hlam hx hbv
    obtain ⟨k1, k2⟩ := SolvesDamped.descends hsd
    have hpred := predicted_ok hwf hrl hAs
    have hcd := affine_cost hg haff hq'.assignment hq'.layout hcur hA hrl (hdl.trans hdim) hb hc
    have hcost : q.cost = Spec.vec q.residual A.shape.1 ⬝ᵥ Spec.vec q.residual A.shape.1 := by
      rw [hg.cost _ _ _ hcur, sqNorm_eq hrl]
    rw [hpred, ← hcd] at hacc
    have hnn : 0 ≤ ∏ i ∈ Finset.range k, (μ (s.lambdaInitial / s.lambdaFactor ^ i) / (σ + μ (s.lambdaInitial / s.lambdaFactor ^ i))) ^ 2 :=
      Finset.prod_nonneg fun i _ => sq_nonneg _
    by_cases h0 : descent (cooMatrix A A.shape.1 A.shape.2) (Spec.vec q.residual A.shape.1) = 0
    · -- nothing left to gain: the step is zero and counts as rejected
      obtain ⟨hce, hr', hmin⟩ := rest_stays hg haff hE hq' hcur hA hrl h0 hdl (k1 h0) hb hc
      have hrej : acc = false := by
        rw [hacc, hce, sub_self, ← Bool.not_eq_true, accept_fin]
        simp
      subst hrej hr'
      refine ⟨_, rfl, hq'.next hb hc false rfl rfl rfl, ?_, ?_, .inr hmin, fun e c' r' he hle hc' => ?_⟩
      · exact hcur
      · exact le_max_of_le_left p3
      · have g1 : q.cost - c' ≤ 0 := sub_nonpos.2 (hmin e c' r' he hle hc')
        rcases le_total c' c₀ with g2 | g2
        · exact g1.trans (mul_nonneg (Finset.prod_nonneg fun i _ => sq_nonneg _) (sub_nonneg.2 g2))
        · refine (hgap e c' r' he hle hc').trans (mul_le_mul_of_nonpos_right ?_ (sub_nonpos.2 g2))
          rw [Finset.prod_range_succ]
          have hm := hμ (s.lambdaInitial / s.lambdaFactor ^ k) (by positivity)
          apply mul_le_of_le_one_right hnn
          apply pow_le_one₀ (by positivity)
          rw [div_le_one (by linarith)]; linarith
    · have hlt : c < q.cost := by rw [hcd, hcost]; exact k2 h0
      have hac : acc = true := by
        rw [hacc, accept_fin]
        left
        have : c - q.cost ≠ 0 := by linarith
        exact ⟨this, by rw [div_self this]; exact hq⟩
      subst hac
      have hb1 := isAssignment_retract hq'.assignment hb
      have hb2 := (manifoldRetract_shape hb).1.trans hq'.layout
      have hlam' : q.lambd = s.lambdaInitial / s.lambdaFactor ^ k := by
        rcases hsched with hl | hl
        · exact hl
        · exact absurd (hl b c r hb1 hb2 hc) (not_le.2 hlt)
      refine ⟨_, rfl, hq'.next hb hc true rfl rfl rfl, hc, ?_, .inl ?_, fun e c' r' he hle hc' => ?_⟩
      · exact div_nonneg hlam (by linarith)
      · show q.lambd / s.lambdaFactor = _
        rw [hlam', pow_succ, div_div]
      · refine (hcon he hle hc').trans ?_
        rw [Finset.prod_range_succ, mul_comm (∏ i ∈ Finset.range k, _), mul_assoc, hlam']
        exact mul_le_mul_of_nonneg_left (hgap e c' r' he hle hc') (sq_nonneg _)

/-- Dogleg on linear problems, from what one step does. -/
theorem rate_dogleg (h : Lifts CE gE C g) (hg : SaneGraph C g ws) (haff : AffineGraph C g ws)
    (hE : UsesDefaultRetraction C ws) {σ : ℝ} (hσ : 0 < σ) {μ : ℝ → ℝ}
    (hμ : ∀ l, 0 ≤ l → 0 ≤ μ l) {sE : Dogleg Ext} {s : Dogleg ℝ} (hs : LiftsDogleg sE s)
    (hL : AllJacobians C g ws (Contracts σ μ s.linear)) (hq : s.stepQualityMin ≤ 1) (hρ : 0 < s.radiusInitial) {a : Assign ℝ}
    (ha : IsAssignmentOf C ws a) (hl : a.layout = g.layout) {c₀ : ℝ} {r₀ : List ℝ} (hc₀ : g.computeCost a = .ok (c₀, r₀))
    {K k : Nat} (hK : c₀ ≤ σ * (3 ^ K * s.radiusInitial) ^ 2) {st st' : DoglegState Ext} {log : List (Msg Ext)}
    (hi : sE.init gE (a.map fin) = .ok st) (hr : Runs (fun s => s.done) (sE.step CE gE) (K + k) st st' log) :
    ∃ (b : Assign ℝ) (c : ℝ) (r : List ℝ), st'.assignments = b.map fin ∧ st'.cost = fin c ∧ g.computeCost b = .ok (c, r) ∧
      ∀ e c' r', IsAssignmentOf C ws e → e.layout = g.layout → g.computeCost e = .ok (c', r') →
        c - c' ≤ ((μ 0 / (σ + μ 0)) ^ 2) ^ k * (c₀ - c') := by
  obtain ⟨c, r, hc, rfl⟩ := (doglegInit_fin h hs).1 hi
  rw [hc₀] at hc; cases hc
  have hm0 := hμ 0 le_rfl
  have hθ0 : 0 ≤ (μ 0 / (σ + μ 0)) ^ 2 := sq_nonneg _
  have hθ1 : (μ 0 / (σ + μ 0)) ^ 2 ≤ 1 := by
    apply pow_le_one₀ (by positivity)
    rw [div_le_one (by linarith)]; linarith
  obtain ⟨θ, hθ⟩ : ∃ θ, θ = (μ 0 / (σ + μ 0)) ^ 2 := ⟨_, rfl⟩
  rw [← hθ] at hθ0 hθ1 ⊢
  suffices H : ∀ j, Runs (fun s => s.done) (sE.step CE gE) j (DoglegState.map fin ⟨⟨0, a, c₀, r₀, false⟩, s.radiusInitial⟩) st' log →
      ∃ q : DoglegState ℝ, st' = q.map fin ∧ GoodState C g ws q.toState ∧
      g.computeCost q.assignments = .ok (q.cost, q.residual) ∧ 0 < q.radius ∧ q.cost ≤ c₀ ∧
      ((∀ e c' r', IsAssignmentOf C ws e → e.layout = g.layout → g.computeCost e = .ok (c', r') → q.cost ≤ c') ∨
        ∃ i, i ≤ j ∧ i ≤ K ∧ 3 ^ i * s.radiusInitial ≤ q.radius ∧
          ∀ e c' r', IsAssignmentOf C ws e → e.layout = g.layout → g.computeCost e = .ok (c', r') →
            q.cost - c' ≤ θ ^ (j - i) * (c₀ - c')) by
    obtain ⟨q, rfl, -, h2, -, h3, h4⟩ := H _ hr
    refine ⟨_, _, _, rfl, rfl, h2, fun e c' r' he hle hc' => ?_⟩
    have hk1 : θ ^ k ≤ 1 := pow_le_one₀ hθ0 hθ1
    have hk0 : 0 ≤ θ ^ k := pow_nonneg hθ0 k
    rcases le_total c' c₀ with g2 | g2
    · rcases h4 with h4 | ⟨i, i1, i2, -, h4⟩
      · exact (sub_nonpos.2 (h4 e c' r' he hle hc')).trans (mul_nonneg hk0 (sub_nonneg.2 g2))
      · refine (h4 e c' r' he hle hc').trans (mul_le_mul_of_nonneg_right ?_ (sub_nonneg.2 g2))
        exact pow_le_pow_of_le_one hθ0 hθ1 (by omega)
    · show q.cost - c' ≤ _
      nlinarith
  clear hr
  intro j hr
  generalize hst : DoglegState.map fin ⟨⟨0, a, c₀, r₀, false⟩, s.radiusInitial⟩ = st at hr
  induction hr with
  | refl s' => exact ⟨_, hst.symm, GoodState.start ha hl hc₀ _ _, hc₀, hρ, le_rfl, .inr ⟨0, le_rfl, by omega, by simp, fun e c' r' _ _ _ => by simp⟩⟩
  | @step j _ _ _ _ _ h1 h2 h3 ih =>
    obtain ⟨q, rfl, hq', hcur, hrad, hle0, hinv⟩ := ih hst
    have hfit : ∀ A ATb gn, g.jacobian q.assignments q.residual = .ok A → A.T.matmul (q.residual.map fun x => -x) = .ok ATb →
        s.linear A ATb 0 q.iterations = .ok gn → gn.length = A.shape.2 ∧
        SolvesDamped (cooMatrix A A.shape.1 A.shape.2) (Spec.vec q.residual A.shape.1) (Spec.vec gn A.shape.2) ∧
        σ * (Spec.vec gn A.shape.2 ⬝ᵥ Spec.vec gn A.shape.2) ≤ Spec.vec q.residual A.shape.1 ⬝ᵥ Spec.vec q.residual A.shape.1 := by
      intro A ATb gn h1 h2 h3
      obtain ⟨hwf, hdim⟩ := hq'.jac hg h1
      obtain ⟨hrl, hbl, hbv⟩ := descent_ok hwf h2
      obtain ⟨hdl, hsd, -, hno⟩ := hq'.all hL h1 ATb 0 _ gn _ hbl le_rfl h3 hbv
      exact ⟨hdl, hsd, hno⟩
    have hzero : ∀ {n : Nat} {gn : List ℝ}, gn.length = n → Spec.vec gn n = 0 → nrm gn ≤ q.radius := by
      intro n gn hn h0
      rw [nrm_eq hn, h0]
      simp [hrad.le]
    have hfin : ∀ A ATb gn dE, g.jacobian q.assignments q.residual = .ok A → A.T.matmul (q.residual.map fun x => -x) = .ok ATb →
        s.linear A ATb 0 q.iterations = .ok gn → doglegStep (A.map fin) (ATb.map fin) (gn.map fin) (fin q.radius) = .ok dE →
        ∃ d : List ℝ, dE = d.map fin := by
      intro A ATb gn dE h1 h2 h3 h4
      obtain ⟨hlen, hsd, -⟩ := hfit A ATb gn h1 h2 h3
      have : √(sqNorm gn) ≤ q.radius ∨ descent (cooMatrix A A.shape.1 A.shape.2) (Spec.vec q.residual A.shape.1) ≠ 0 := by
        by_cases h0 : descent (cooMatrix A A.shape.1 A.shape.2) (Spec.vec q.residual A.shape.1) = 0
        · exact .inl (hzero hlen ((SolvesDamped.descends hsd).1 h0))
        · exact .inr h0
      obtain ⟨d, e1, -⟩ := C46_step (hq'.jac hg h1).1 h2 hlen hrad this
      rw [e1] at h4
      exact ⟨d, (Except.ok.inj h4).symm⟩
    obtain ⟨A, ATb, gn, d, b, c, r, As, Q, conv, hA, hT, hx, hd, hb, hc, hAs, hAl, hQ, -, rfl, -⟩ :=
      (doglegSolverStep_fin h hs hfin).1 h3
    obtain ⟨hlen, hsd, b1⟩ := hfit A ATb gn hA hT hx
    obtain ⟨hwf, hdim⟩ := hq'.jac hg hA
    obtain ⟨hrl, hbl, hbv⟩ := descent_ok hwf hT
    obtain ⟨f1, f2⟩ := doglegStep_fin hwf hT hlen hrad
    have hcost : q.cost = Spec.vec q.residual A.shape.1 ⬝ᵥ Spec.vec q.residual A.shape.1 := by
      rw [hg.cost _ _ _ hcur, sqNorm_eq hrl]
    by_cases h0 : descent (cooMatrix A A.shape.1 A.shape.2) (Spec.vec q.residual A.shape.1) = 0
    · have hv := (SolvesDamped.descends hsd).1 h0
      rw [f1 (hzero hlen hv)] at hd
      have hd' : gn = d := List.map_injective_iff.2 fin_injective (Except.ok.inj hd)
      subst hd'
      obtain ⟨hce, hr', hmin⟩ := rest_stays hg haff hE hq' hcur hA hrl h0 hlen hv hb hc
      have hrej : Scal.le (fin s.stepQualityMin) Q = false := by
        rw [hQ, predicted_ok hwf hrl hAs, hv, modelCost_zero, ← hcost, hce, sub_self, ← Bool.not_eq_true, accept_fin]
        simp
      rw [hrej]
      subst hr'
      exact ⟨_, rfl, hq'.next hb hc false rfl rfl rfl, hcur, nextRadius_pos hrad, hle0, .inl hmin⟩
    · have hdl : d.length = A.shape.2 := (matmul_vec hwf hAs).1
      have hcd := affine_cost hg haff hq'.assignment hq'.layout hcur hA hrl (hdl.trans hdim) hb hc
      have hlt : c < q.cost := by
        rw [hcd, hcost]
        by_cases hn : nrm gn ≤ q.radius
        · rw [f1 hn] at hd
          rw [← List.map_injective_iff.2 fin_injective (Except.ok.inj hd)]
          exact (SolvesDamped.descends hsd).2 h0
        · obtain ⟨d', e1, e2, -, e4⟩ := f2 (not_le.1 hn) h0
          rw [e1] at hd
          rw [← List.map_injective_iff.2 fin_injective (Except.ok.inj hd)]
          exact path_descends hsd h0 e4
      have hQ1 : Q = fin 1 := by
        rw [hQ, predicted_ok hwf hrl hAs, ← hcd, fin_div (by linarith), div_self (by linarith)]
      have hac : Scal.le (fin s.stepQualityMin) Q = true := by
        rw [hQ1, fin_le]; exact hq
      have hrd : nextRadius Q q.radius d = max q.radius (3 * nrm d) := by
        rw [hQ1]; unfold nextRadius
        rw [if_neg (by rw [fin_lt]; norm_num), if_pos ((fin_lt _ _).2 (by norm_num))]
      rw [hac]
      refine ⟨_, rfl, hq'.next hb hc true rfl rfl rfl, hc, nextRadius_pos hrad, hlt.le.trans hle0, .inr ?_⟩
      show ∃ i, i ≤ j + 1 ∧ i ≤ K ∧ 3 ^ i * s.radiusInitial ≤ nextRadius Q q.radius d ∧ ∀ e c' r', _ → _ → _ →
        c - c' ≤ θ ^ (j + 1 - i) * (c₀ - c')
      rw [hrd]
      have hb1 := isAssignment_retract hq'.assignment hb
      have hb2 := (manifoldRetract_shape hb).1.trans hq'.layout
      obtain ⟨i, i1, i2, i3, i4⟩ := hinv.resolve_left fun hmin => absurd (hmin b c r hb1 hb2 hc) (not_le.2 hlt)
      by_cases hn : nrm gn ≤ q.radius
      · rw [f1 hn] at hd
        have hd' : gn = d := List.map_injective_iff.2 fin_injective (Except.ok.inj hd)
        subst hd'
        refine ⟨i, by omega, i2, i3.trans (le_max_left _ _), fun e c' r' he hle hc' => ?_⟩
        refine (step_contracts hg haff hE hL hq' hcur hA hT le_rfl hx hb hc he hle hc').trans ?_
        rw [← hθ, show j + 1 - i = (j - i) + 1 by omega, pow_succ', mul_assoc]
        exact mul_le_mul_of_nonneg_left (i4 e c' r' he hle hc') hθ0
      · obtain ⟨d', e1, e2, e3, -⟩ := f2 (not_le.1 hn) h0
        rw [e1] at hd
        have hd' : d' = d := List.map_injective_iff.2 fin_injective (Except.ok.inj hd)
        subst hd'
        refine ⟨i + 1, by omega, ?_, ?_, fun e c' r' he hle hc' => ?_⟩
        · by_contra hik
          obtain rfl : i = K := by omega
          rw [← hcost] at b1
          have b2 : q.radius ^ 2 < Spec.vec gn A.shape.2 ⬝ᵥ Spec.vec gn A.shape.2 := by
            have := not_le.1 hn
            rw [nrm_eq hlen] at this
            exact (Real.lt_sqrt hrad.le).1 this
          have b3 : (3 ^ i * s.radiusInitial) ^ 2 ≤ q.radius ^ 2 := pow_le_pow_left₀ (by positivity) i3 2
          nlinarith
        · rw [e3]
          refine le_trans ?_ (le_max_right _ _)
          rw [pow_succ]; linarith
        · rw [show j + 1 - (i + 1) = j - i by omega]
          linarith [i4 e c' r' he hle hc']

/-- **C70**, Gauss-Newton. For variables with the default retraction, an affine residual and Jacobians with no eigenvalue of `AᵀA` below
`σ > 0`; let the linear solver, called without damping, add at most `μ 0`. After `k` steps the excess of the cost over the cost of any
assignments is at most `(μ 0 / (σ + μ 0))²ᵏ` times the initial excess. With `μ 0 = 0` one step reaches the minimum. -/
theorem C70_gauss_newton (h : Lifts CE gE C g) (hg : SaneGraph C g ws) (haff : AffineGraph C g ws) (hE : UsesDefaultRetraction C ws)
    {σ : ℝ} (hσ : 0 < σ) (hS : AllJacobians C g ws (StiffAtLeast σ)) {μ : ℝ → ℝ} (hμ : ∀ l, 0 ≤ l → 0 ≤ μ l)
    {sE : GaussNewton Ext} {s : GaussNewton ℝ} (hs : LiftsGN sE s) (hL : AllJacobians C g ws (DampedUpTo μ s.linear)) {a : Assign ℝ}
    (ha : IsAssignmentOf C ws a) (hl : a.layout = g.layout) {c₀ : ℝ} {r₀ : List ℝ} (hc₀ : g.computeCost a = .ok (c₀, r₀))
    {st st' : State Ext} {k : Nat} {log : List (Msg Ext)}
    (hi : initState gE (a.map fin) = .ok st) (hr : Runs (fun s => s.done) (sE.step CE gE) k st st' log) :
    ∃ (b : Assign ℝ) (c : ℝ) (r : List ℝ), st'.assignments = b.map fin ∧ st'.cost = fin c ∧ g.computeCost b = .ok (c, r) ∧
      ∀ e c' r', IsAssignmentOf C ws e → e.layout = g.layout → g.computeCost e = .ok (c', r') →
        c - c' ≤ ((μ 0 / (σ + μ 0)) ^ 2) ^ k * (c₀ - c') :=
  rate_gauss_newton h hg haff hE (fun a a' c r A h1 h2 h3 h4 h5 h6 => contracts_of_stiff hσ hμ (hS a a' c r A h1 h2 h3 h4 h5 h6)
    (hL a a' c r A h1 h2 h3 h4 h5 h6)) hs ha hl hc₀ hi hr

/-- **C70**, Levenberg-Marquardt, for the same problems. Every step is accepted and divides the damping by the factor, until the cost
is least. The `i`-th step multiplies the excess by at most `(μᵢ / (σ + μᵢ))²`, where `μᵢ = μ (lambda_initial / lambda_factorⁱ)`. -/
theorem C70_levenberg_marquardt (h : Lifts CE gE C g) (hg : SaneGraph C g ws) (haff : AffineGraph C g ws)
    (hE : UsesDefaultRetraction C ws) {σ : ℝ} (hσ : 0 < σ) (hS : AllJacobians C g ws (StiffAtLeast σ)) {μ : ℝ → ℝ}
    (hμ : ∀ l, 0 ≤ l → 0 ≤ μ l) {sE : LevenbergMarquardt Ext} {s : LevenbergMarquardt ℝ} (hs : LiftsLM sE s)
    (hL : AllJacobians C g ws (DampedUpTo μ s.linear)) (hq : s.stepQualityMin ≤ 1) (p1 : 0 ≤ s.lambdaInitial) (p2 : 1 ≤ s.lambdaFactor)
    (p3 : 0 ≤ s.lambdaMin) {a : Assign ℝ}
    (ha : IsAssignmentOf C ws a) (hl : a.layout = g.layout) {c₀ : ℝ} {r₀ : List ℝ} (hc₀ : g.computeCost a = .ok (c₀, r₀))
    {st st' : LMState Ext} {k : Nat} {log : List (Msg Ext)}
    (hi : sE.init gE (a.map fin) = .ok st) (hr : Runs (fun s => s.done) (sE.step CE gE) k st st' log) :
    ∃ (b : Assign ℝ) (c : ℝ) (r : List ℝ), st'.assignments = b.map fin ∧ st'.cost = fin c ∧ g.computeCost b = .ok (c, r) ∧
      (st'.lambd = fin (s.lambdaInitial / s.lambdaFactor ^ k) ∨
        ∀ e c' r', IsAssignmentOf C ws e → e.layout = g.layout → g.computeCost e = .ok (c', r') → c ≤ c') ∧
      ∀ e c' r', IsAssignmentOf C ws e → e.layout = g.layout → g.computeCost e = .ok (c', r') →
        c - c' ≤ (∏ i ∈ Finset.range k, (μ (s.lambdaInitial / s.lambdaFactor ^ i) / (σ + μ (s.lambdaInitial / s.lambdaFactor ^ i))) ^ 2) *
          (c₀ - c') :=
  rate_levenberg_marquardt h hg haff hE hσ hμ hs (fun a a' c r A h1 h2 h3 h4 h5 h6 => contracts_of_stiff hσ hμ (hS a a' c r A h1 h2 h3 h4 h5 h6)
    (hL a a' c r A h1 h2 h3 h4 h5 h6)) hq p1 p2 p3 ha hl hc₀ hi hr

/-- **C70**, dogleg, for the same problems. Every step is accepted until the cost is least, and a step that ends on the boundary of the
region triples the radius; no step does so once `σ radius²` exceeds the initial cost. If that holds after tripling `K` times, then
after `K + k` steps the excess is at most `(μ 0 / (σ + μ 0))²ᵏ` times the initial excess. With `μ 0 = 0` and `k = 1` the minimum is
reached. -/
theorem C70_dogleg (h : Lifts CE gE C g) (hg : SaneGraph C g ws) (haff : AffineGraph C g ws)
    (hE : UsesDefaultRetraction C ws) {σ : ℝ} (hσ : 0 < σ) (hS : AllJacobians C g ws (StiffAtLeast σ)) {μ : ℝ → ℝ}
    (hμ : ∀ l, 0 ≤ l → 0 ≤ μ l) {sE : Dogleg Ext} {s : Dogleg ℝ} (hs : LiftsDogleg sE s)
    (hL : AllJacobians C g ws (DampedUpTo μ s.linear)) (hq : s.stepQualityMin ≤ 1) (hρ : 0 < s.radiusInitial) {a : Assign ℝ}
    (ha : IsAssignmentOf C ws a) (hl : a.layout = g.layout) {c₀ : ℝ} {r₀ : List ℝ} (hc₀ : g.computeCost a = .ok (c₀, r₀))
    {K k : Nat} (hK : c₀ ≤ σ * (3 ^ K * s.radiusInitial) ^ 2) {st st' : DoglegState Ext} {log : List (Msg Ext)}
    (hi : sE.init gE (a.map fin) = .ok st) (hr : Runs (fun s => s.done) (sE.step CE gE) (K + k) st st' log) :
    ∃ (b : Assign ℝ) (c : ℝ) (r : List ℝ), st'.assignments = b.map fin ∧ st'.cost = fin c ∧ g.computeCost b = .ok (c, r) ∧
      ∀ e c' r', IsAssignmentOf C ws e → e.layout = g.layout → g.computeCost e = .ok (c', r') →
        c - c' ≤ ((μ 0 / (σ + μ 0)) ^ 2) ^ k * (c₀ - c') :=
  rate_dogleg h hg haff hE hσ hμ hs (fun a a' c r A h1 h2 h3 h4 h5 h6 => contracts_of_stiff hσ hμ (hS a a' c r A h1 h2 h3 h4 h5 h6)
    (hL a a' c r A h1 h2 h3 h4 h5 h6)) hq hρ ha hl hc₀ hK hi hr

end

/-! ### The linear solvers of the library -/

/-- `CholmodSolver` with a cached analysis for this sparsity pattern, or none, adds `(lambd + 10⁻⁵) I`. -/
theorem C70_cholmod (stale : Pattern → ScipyCoo ℝ → ℝ → List ℝ → Py (List ℝ)) (cache : CholmodCache) (addr : Nat) {A : Coo ℝ}
    (hA : CooWF A) (hcache : ∀ p, cache.get? addr = some p → p = ((A.shape.2, A.shape.1), (A.cols.zip A.rows).toFinset)) :
    DampedUpTo (fun l => l + 1 / 100000) (fun A b l _ => (cholmodSolve stale cache addr A b l).1) A := by
  intro b l i x hb hl hx
  obtain ⟨hpd, x', h1, h2, h3, -⟩ := C35_cholmod stale cache addr A hA b hb l hl hcache
  have hx : (cholmodSolve stale cache addr A b l).1 = .ok x := hx
  rw [h1] at hx
  cases Except.ok.inj hx
  refine ⟨h2, (l + 1 / 100000) • (1 : Matrix _ _ ℝ), Matrix.PosSemidef.one.smul (by positivity), fun v => ?_, h3⟩
  rw [smul_mulVec, one_mulVec, dotProduct_smul, smul_eq_mul]

/-- Conjugate gradients with tolerance zero add `lambd` times the diagonal of `AᵀA`. -/
theorem C70_conjugate_gradient {A : Coo ℝ} (hA : CooWF A) (hnd : (A.rows.zip A.cols).Nodup) {σ κ : ℝ} (hσ : 0 < σ)
    (hS : StiffAtLeast σ A) (hκ : ∀ j, ((cooMatrix A A.shape.1 A.shape.2)ᵀ * cooMatrix A A.shape.1 A.shape.2) j j ≤ κ) :
    DampedUpTo (fun l => l * κ) (fun A b l _ => cgSolve A b l 0) A := by
  intro b l i x hb hl hx
  have hrank : ∀ v, cooMatrix A A.shape.1 A.shape.2 *ᵥ v = 0 → v = 0 := by
    intro v hv
    have h1 := hS v
    rw [hv, dotProduct_zero] at h1
    have h2 : v ⬝ᵥ v = 0 := by nlinarith [dot_self_nonneg v]
    exact dotProduct_self_eq_zero.1 h2
  obtain ⟨x', h1, h2, h3⟩ := C36_exact A hA hnd b hb l hl hrank
  have hx : cgSolve A b l 0 = .ok x := hx
  rw [h1] at hx
  cases Except.ok.inj hx
  have hG : ((cooMatrix A A.shape.1 A.shape.2)ᵀ * cooMatrix A A.shape.1 A.shape.2).PosSemidef := by
    have := posSemidef_conjTranspose_mul_self (cooMatrix A A.shape.1 A.shape.2)
    rwa [conjTranspose_eq_transpose_of_trivial] at this
  refine ⟨h2, _, Matrix.PosSemidef.smul (Matrix.PosSemidef.diagonal fun j => hG.diag_nonneg) hl, fun v => ?_, h3⟩
  rw [smul_mulVec, dotProduct_smul, smul_eq_mul, mul_assoc]
  refine mul_le_mul_of_nonneg_left ?_ hl
  rw [dotProduct, dotProduct, Finset.mul_sum]
  refine Finset.sum_le_sum fun j _ => ?_
  rw [mulVec_diagonal]
  nlinarith [hκ j, mul_self_nonneg (v j)]

/-! ### Example -/

namespace Poly1
open Jaxfg.Poly

/-- The residual `p + q x` with `q ≠ 0`: no eigenvalue of `AᵀA` is below `q²`. -/
theorem stiff (p q : ℝ) : AllJacobians Ex.C ((g p q 0).ops F Ex.C) [Ex.x] (StiffAtLeast (q ^ 2)) := by
  intro a a' c r A h1 h2 h3 h4 h5 h6
  obtain ⟨v, rfl⟩ := at_of h1 h2
  obtain ⟨v', rfl⟩ := at_of h3 h4
  rw [Jaxfg.Poly.cost_eq] at h5
  obtain ⟨-, rfl⟩ := Prod.mk.inj (Except.ok.inj h5)
  rw [Jaxfg.Poly.jac_eq] at h6
  cases Except.ok.inj h6
  intro y
  have hm : cooMatrix (⟨[q + 2 * 0 * v], [0], [0], (1, 1)⟩ : Coo ℝ) 1 1 0 0 = q := by simp [cooMatrix, entries]
  have hM : (cooMatrix (⟨[q + 2 * 0 * v], [0], [0], (1, 1)⟩ : Coo ℝ) 1 1 *ᵥ y) 0 = q * y 0 := by
    show ∑ j : Fin 1, _ * _ = _
    rw [Fin.sum_univ_one, hm]
  show q ^ 2 * (∑ i : Fin 1, y i * y i) ≤ ∑ i : Fin 1, _ * _
  rw [Fin.sum_univ_one, Fin.sum_univ_one, hM]
  exact le_of_eq (by ring)

/-- `C70` for the residual `p + q x`, the three solvers with CHOLMOD and default settings (for dogleg: `|p + q v| ≤ |q|`, so that the
first step is inside the radius). The least cost is zero. -/
example (stale : Pattern → ScipyCoo ℝ → ℝ → List ℝ → Py (List ℝ)) (addr : Nat) (p q : ℝ) (hq : q ≠ 0) (v : ℝ) (k : Nat) :
    (∀ st st' log, initState (gE p q 0) ((at_ v).map fin) = .ok st →
      Runs (fun s => s.done) ((GaussNewton.defaults (chol stale addr)).lift.step CE (gE p q 0)) k st st' log →
      ∃ c, st'.cost = fin c ∧ c ≤ (((1 / 100000) / (q ^ 2 + 1 / 100000)) ^ 2) ^ k * (p + q * v) ^ 2) ∧
    (∀ st st' log, (LevenbergMarquardt.defaults (chol stale addr)).lift.init (gE p q 0) ((at_ v).map fin) = .ok st →
      Runs (fun s => s.done) ((LevenbergMarquardt.defaults (chol stale addr)).lift.step CE (gE p q 0)) k st st' log →
      ∃ c, st'.cost = fin c ∧ c ≤ (∏ i ∈ Finset.range k, ((1 / 2000 / 2 ^ i + 1 / 100000) / (q ^ 2 + (1 / 2000 / 2 ^ i + 1 / 100000))) ^ 2) *
        (p + q * v) ^ 2) ∧
    ((p + q * v) ^ 2 ≤ q ^ 2 → ∀ st st' log, (Dogleg.defaults (chol stale addr)).lift.init (gE p q 0) ((at_ v).map fin) = .ok st →
      Runs (fun s => s.done) ((Dogleg.defaults (chol stale addr)).lift.step CE (gE p q 0)) k st st' log →
      ∃ c, st'.cost = fin c ∧ c ≤ (((1 / 100000) / (q ^ 2 + 1 / 100000)) ^ 2) ^ k * (p + q * v) ^ 2) := by
  have hσ : 0 < q ^ 2 := by positivity
  have hL : AllJacobians Ex.C ((g p q 0).ops F Ex.C) [Ex.x] (DampedUpTo (fun l => l + 1 / 100000) (chol stale addr)) := by
    intro a a' c r A h1 h2 h3 h4 h5 h6
    exact C70_cholmod stale .empty addr ((Jaxfg.Poly.sane p q 0).jacobian a a' c r A h1 h2 h3 h4 h5 h6).1 (fun p hp => by cases hp)
  have hμ : ∀ l : ℝ, 0 ≤ l → 0 ≤ (fun l => l + 1 / 100000) l := fun l hl => by show 0 ≤ l + 1 / 100000; positivity
  have h0 := Jaxfg.Poly.cost_eq p q 0 v
  have hmin := Jaxfg.Poly.cost_eq p q 0 (-p / q)
  have e1 : (p + q * (-p / q) + 0 * (-p / q) ^ 2) ^ 2 = 0 := by field_simp; ring
  have e2 : (p + q * v + 0 * v ^ 2) ^ 2 = (p + q * v) ^ 2 := by ring
  rw [e1] at hmin
  rw [e2] at h0
  refine ⟨fun st st' log hi hr => ?_, fun st st' log hi hr => ?_, fun hle st st' log hi hr => ?_⟩
  · obtain ⟨b, c, r, -, h2, -, h4⟩ := C70_gauss_newton (lifts p q 0) (Jaxfg.Poly.sane p q 0) (affine p q) (fun v _ => rfl) hσ (stiff p q)
      hμ (liftsGN_lift (GaussNewton.defaults (chol stale addr))) hL (Jaxfg.Poly.at_assignment v) rfl h0 hi hr
    have := h4 _ _ _ (Jaxfg.Poly.at_assignment (-p / q)) rfl hmin
    exact ⟨c, h2, by simpa using this⟩
  · obtain ⟨b, c, r, -, h2, -, -, h4⟩ := C70_levenberg_marquardt (lifts p q 0) (Jaxfg.Poly.sane p q 0) (affine p q) (fun v _ => rfl) hσ
      (stiff p q) hμ (liftsLM_lift (LevenbergMarquardt.defaults (chol stale addr))) hL (by show (1 / 1000 : ℝ) ≤ 1; norm_num)
      (by show (0 : ℝ) ≤ 1 / 2000; norm_num) (by show (1 : ℝ) ≤ 2; norm_num) (by show (0 : ℝ) ≤ 1 / 100000; norm_num)
      (Jaxfg.Poly.at_assignment v) rfl h0 hi hr
    have := h4 _ _ _ (Jaxfg.Poly.at_assignment (-p / q)) rfl hmin
    rw [sub_zero, sub_zero] at this
    exact ⟨c, h2, this⟩
  · obtain ⟨b, c, r, -, h2, -, h4⟩ := C70_dogleg (lifts p q 0) (Jaxfg.Poly.sane p q 0) (affine p q) (fun v _ => rfl) hσ (stiff p q)
      hμ (liftsDogleg_lift (Dogleg.defaults (chol stale addr))) hL (by show (1 / 1000 : ℝ) ≤ 1; norm_num)
      (by show (0 : ℝ) < 1; norm_num) (Jaxfg.Poly.at_assignment v) rfl h0 (K := 0) (k := k)
      (by show _ ≤ q ^ 2 * (3 ^ 0 * (1 : ℝ)) ^ 2; simpa using hle) hi (by rw [Nat.zero_add]; exact hr)
    have := h4 _ _ _ (Jaxfg.Poly.at_assignment (-p / q)) rfl hmin
    exact ⟨c, h2, by simpa using this⟩

end Poly1

end Jaxfg.Props
