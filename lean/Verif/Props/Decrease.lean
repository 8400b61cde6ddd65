/-
C86: how much an accepted step of the damped solvers lowers the cost, and how many steps they can make while the gradient is large.
The Jacobians have `AᵀA ≤ κ`, and the linear solver adds a damping of at most `μ lambd`.
-/
import Verif.Lemmas.Decrease
import Verif.Props.SolverReal
import Verif.Props.LinearRate
import Verif.Props.SolverWitness

namespace Jaxfg.Props
open Ext (fin)
open Spec Matrix

section
variable {CE : Ty → VarClass Ext} {gE : GraphOps Ext} {C : Ty → VarClass ℝ} {g : GraphOps ℝ} {ws : List Var}

/-- `b` is the direction of steepest descent that a step from `p` uses: `-Aᵀ r` for the Jacobian at the assignments and the recorded
residual. Where the residual is that of the assignments, it is minus half the gradient of the cost. -/
def IsDescent (g : GraphOps ℝ) (p : State ℝ) (b : List ℝ) : Prop :=
  ∃ A, g.jacobian p.assignments p.residual = .ok A ∧ A.T.matmul (p.residual.map fun x => -x) = .ok b

/-- **C86**, one Levenberg-Marquardt step from a state whose residual is current: it is rejected, or it lowers the cost by at least
`step_quality_min |b|² / (κ + μ lambd)`. -/
theorem C86_levenberg_marquardt_step (h : Lifts CE gE C g) (hg : SaneGraph C g ws) (hz : ZeroRetract C)
    {sE : LevenbergMarquardt Ext} {s : LevenbergMarquardt ℝ} (hs : LiftsLM sE s) (hf : s.lambdaFactor ≠ 0) (hq : 0 < s.stepQualityMin)
    (hL : AllJacobians C g ws (SolvesRegular s.linear)) {μ : ℝ → ℝ} (hD : AllJacobians C g ws (DampedUpTo μ s.linear)) {κ : ℝ}
    (hκ : AllJacobians C g ws (SoftAtMost κ)) {p : LMState ℝ} (hp : GoodState C g ws p.toState)
    (hl : 0 ≤ p.lambd) (hcur : g.computeCost p.assignments = .ok (p.cost, p.residual)) {st' : LMState Ext} {log : List (Msg Ext)}
    (hstep : sE.step CE gE (p.map fin) = .ok (st', log)) :
    ∃ (q : LMState ℝ) (b : List ℝ), st' = q.map fin ∧ IsDescent g p.toState b ∧
      ((q.assignments = p.assignments ∧ q.cost = p.cost) ∨
       (q.cost < p.cost ∧ s.stepQualityMin * sqNorm b ≤ (κ + μ p.lambd) * (p.cost - q.cost) ∧
        g.computeCost q.assignments = .ok (q.cost, q.residual) ∧ q.lambd = p.lambd / s.lambdaFactor)) := by
  obtain ⟨A, ATb, d, b, c, r, As, acc, conv, h1, h2, h3, h4, h5, h6, h7, h8, -, rfl, -⟩ := (lmStep_fin h hs hf).1 hstep
  refine ⟨_, ATb, rfl, ⟨A, h1, h2⟩, ?_⟩
  obtain ⟨hwf, hdim⟩ := hp.jac hg h1
  obtain ⟨hrl, hbl, hbv⟩ := descent_ok hwf h2
  obtain ⟨hdl, D, hD1, hD2, hD3⟩ := hp.all hL h1 ATb p.lambd _ d hbl hl h3
  obtain ⟨-, E, hE1, hE2, hE3⟩ := hp.all hD h1 ATb p.lambd _ d hbl hl h3
  rw [hbv] at hD3 hE3
  obtain ⟨k1, k2⟩ := SolvesDamped.descends ⟨D, hD1, hD2, hD3⟩
  have hcost : p.cost = Spec.vec p.residual A.shape.1 ⬝ᵥ Spec.vec p.residual A.shape.1 := by
    rw [hg.cost _ _ _ hcur, sqNorm_eq hrl]
  have hpred := predicted_ok hwf hrl h6
  cases hacc : acc with
  | false => left; simp [lmNextReal]
  | true =>
    right
    have ha := h8.symm.trans hacc
    have h0 : descent (cooMatrix A A.shape.1 A.shape.2) (Spec.vec p.residual A.shape.1) ≠ 0 := by
      intro h0
      have := hg.zero_stays hz hp.assignment hp.layout ((mem_zero_vec hdl).2 (k1 h0)) (hdl.trans hdim)
      rw [h4] at this
      cases Except.ok.inj this
      rw [hcur] at h5
      exact absurd (accepted_lowers hq ha (.inr (Prod.mk.inj (Except.ok.inj h5)).1.symm))
        (by rw [(Prod.mk.inj (Except.ok.inj h5)).1]; exact lt_irrefl _)
    have hlt : predicted As p.residual < p.cost := by rw [hpred, hcost]; exact k2 h0
    have hshare := accepted_share ha hlt
    have hdec := damped_decrease hE1 (hp.all hκ h1) hE2 hE3
    rw [← hcost, ← hpred, ← hbv, ← sqNorm_eq hbl] at hdec
    have hbpos : 0 < sqNorm ATb := by rw [sqNorm_eq hbl, hbv]; exact dot_self_pos h0
    have hκμ : 0 < κ + μ p.lambd := by
      by_contra hn
      have := mul_nonpos_of_nonpos_of_nonneg (not_lt.1 hn) (sub_nonneg.2 hlt.le)
      linarith only [this, hdec, hbpos]
    refine ⟨?_, ?_, ?_, ?_⟩
    · have : c < p.cost := accepted_lowers hq ha (.inl hlt)
      simpa [lmNextReal] using this
    · have e1 := mul_le_mul_of_nonneg_left hdec hq.le
      have e2 := mul_le_mul_of_nonneg_left hshare hκμ.le
      have : s.stepQualityMin * sqNorm ATb ≤ (κ + μ p.lambd) * (p.cost - c) := by nlinarith only [e1, e2]
      simpa [lmNextReal] using this
    · simpa [lmNextReal] using h5
    · simp [lmNextReal, nextLambda]

/-- **C86**, one dogleg step from a state whose residual is current: it is rejected, or it lowers the cost by at least
`step_quality_min` times the lesser of `|b|² / (κ + μ 0)` and `radius |b|`. -/
theorem C86_dogleg_step (h : Lifts CE gE C g) (hg : SaneGraph C g ws) (hz : ZeroRetract C)
    {sE : Dogleg Ext} {s : Dogleg ℝ} (hs : LiftsDogleg sE s) (hq : 0 < s.stepQualityMin)
    (hL : AllJacobians C g ws (SolvesRegular s.linear)) {μ : ℝ → ℝ} (hμ : 0 ≤ μ 0) (hD : AllJacobians C g ws (DampedUpTo μ s.linear))
    {κ : ℝ} (hκ : AllJacobians C g ws (SoftAtMost κ)) {p : DoglegState ℝ} (hp : GoodState C g ws p.toState)
    (hρ : 0 < p.radius) (hcur : g.computeCost p.assignments = .ok (p.cost, p.residual)) {st' : DoglegState Ext} {log : List (Msg Ext)}
    (hstep : sE.step CE gE (p.map fin) = .ok (st', log)) :
    ∃ (q : DoglegState ℝ) (b : List ℝ), st' = q.map fin ∧ IsDescent g p.toState b ∧
      ((q.assignments = p.assignments ∧ q.cost = p.cost) ∨
       (q.cost < p.cost ∧
        (s.stepQualityMin * sqNorm b ≤ (κ + μ 0) * (p.cost - q.cost) ∨
          s.stepQualityMin * (p.radius * √(sqNorm b)) ≤ p.cost - q.cost) ∧
        g.computeCost q.assignments = .ok (q.cost, q.residual))) := by
  have hfit : ∀ A ATb gn, g.jacobian p.assignments p.residual = .ok A → A.T.matmul (p.residual.map fun x => -x) = .ok ATb →
      s.linear A ATb 0 p.iterations = .ok gn → CooWF A ∧ gn.length = A.shape.2 ∧ A.shape.2 = g.localLayout.dim ∧
      SolvesDamped (cooMatrix A A.shape.1 A.shape.2) (Spec.vec p.residual A.shape.1) (Spec.vec gn A.shape.2) := by
    intro A ATb gn h1 h2 h3
    obtain ⟨hwf, hdim⟩ := hp.jac hg h1
    obtain ⟨hrl, hbl, hbv⟩ := descent_ok hwf h2
    obtain ⟨hdl, D, hD1, hD2, hD3⟩ := hp.all hL h1 ATb 0 _ gn hbl le_rfl h3
    rw [hbv] at hD3
    exact ⟨hwf, hdl, hdim, D, hD1, hD2, hD3⟩
  have hzero : ∀ {n : Nat} {gn : List ℝ}, gn.length = n → Spec.vec gn n = 0 → nrm gn ≤ p.radius := by
    intro n gn hn h0
    rw [nrm_eq hn, h0]
    simp [hρ.le]
  have hfin : ∀ A ATb gn dE, g.jacobian p.assignments p.residual = .ok A → A.T.matmul (p.residual.map fun x => -x) = .ok ATb →
      s.linear A ATb 0 p.iterations = .ok gn → doglegStep (A.map fin) (ATb.map fin) (gn.map fin) (fin p.radius) = .ok dE →
      ∃ d : List ℝ, dE = d.map fin := by
    intro A ATb gn dE h1 h2 h3 h4
    obtain ⟨hwf, hlen, -, hsd⟩ := hfit A ATb gn h1 h2 h3
    have : √(sqNorm gn) ≤ p.radius ∨ descent (cooMatrix A A.shape.1 A.shape.2) (Spec.vec p.residual A.shape.1) ≠ 0 := by
      by_cases h0 : descent (cooMatrix A A.shape.1 A.shape.2) (Spec.vec p.residual A.shape.1) = 0
      · exact .inl (hzero hlen ((SolvesDamped.descends hsd).1 h0))
      · exact .inr h0
    obtain ⟨d, e1, -⟩ := C46_step hwf h2 hlen hρ this
    rw [e1] at h4
    exact ⟨d, (Except.ok.inj h4).symm⟩
  obtain ⟨A, ATb, gn, d, b, c, r, As, q, conv, h1, h2, h3, h4, h5, h6, h7, h8, h9, -, rfl, -⟩ := (doglegSolverStep_fin h hs hfin).1 hstep
  refine ⟨_, ATb, rfl, ⟨A, h1, h2⟩, ?_⟩
  obtain ⟨hwf, hlen, hdim, hsd⟩ := hfit A ATb gn h1 h2 h3
  obtain ⟨hrl, hbl, hbv⟩ := descent_ok hwf h2
  obtain ⟨-, E, hE1, hE2, hE3⟩ := hp.all hD h1 ATb 0 _ gn hbl le_rfl h3
  rw [hbv] at hE3
  have hM := hp.all hκ h1
  have hcost : p.cost = Spec.vec p.residual A.shape.1 ⬝ᵥ Spec.vec p.residual A.shape.1 := by
    rw [hg.cost _ _ _ hcur, sqNorm_eq hrl]
  have hpred := predicted_ok hwf hrl h7
  obtain ⟨f1, f2⟩ := doglegStep_fin hwf h2 hlen hρ
  cases hacc : Scal.le (fin s.stepQualityMin) q with
  | false => left; simp [doglegNextReal]
  | true =>
    right
    have ha := hacc
    rw [h9] at ha
    have h0 : descent (cooMatrix A A.shape.1 A.shape.2) (Spec.vec p.residual A.shape.1) ≠ 0 := by
      intro h0
      have hv := (SolvesDamped.descends hsd).1 h0
      rw [f1 (hzero hlen hv)] at h4
      have hd : gn = d := List.map_injective_iff.2 fin_injective (Except.ok.inj h4)
      rw [← hd] at h5
      have := hg.zero_stays hz hp.assignment hp.layout ((mem_zero_vec hlen).2 hv) (hlen.trans hdim)
      rw [h5] at this
      cases Except.ok.inj this
      rw [hcur] at h6
      exact absurd (accepted_lowers hq ha (.inr (Prod.mk.inj (Except.ok.inj h6)).1.symm))
        (by rw [(Prod.mk.inj (Except.ok.inj h6)).1]; exact lt_irrefl _)
    have hbpos : 0 < sqNorm ATb := by rw [sqNorm_eq hbl, hbv]; exact dot_self_pos h0
    have hdec : sqNorm ATb ≤ (κ + μ 0) * (p.cost - predicted As p.residual) ∨
        p.radius * √(sqNorm ATb) ≤ p.cost - predicted As p.residual := by
      rw [hpred, hcost, sqNorm_eq hbl, hbv]
      by_cases hn : nrm gn ≤ p.radius
      · rw [f1 hn] at h4
        have hd : gn = d := List.map_injective_iff.2 fin_injective (Except.ok.inj h4)
        rw [← hd]
        exact .inl (damped_decrease hE1 hM hE2 hE3)
      · obtain ⟨d', e1, e2, e3, e4⟩ := f2 (not_le.1 hn) h0
        rw [e1] at h4
        have hd : d' = d := List.map_injective_iff.2 fin_injective (Except.ok.inj h4)
        rw [nrm_eq e2] at e3
        rw [← hd, ← e3]
        exact dogleg_decrease hE1 hμ hM hE2 hE3 h0 e4
    have hlt : predicted As p.residual < p.cost := by
      rw [hpred, hcost]
      by_cases hn : nrm gn ≤ p.radius
      · rw [f1 hn] at h4
        have hd : gn = d := List.map_injective_iff.2 fin_injective (Except.ok.inj h4)
        rw [← hd]; exact (SolvesDamped.descends hsd).2 h0
      · obtain ⟨d', e1, e2, -, e4⟩ := f2 (not_le.1 hn) h0
        rw [e1] at h4
        have hd : d' = d := List.map_injective_iff.2 fin_injective (Except.ok.inj h4)
        rw [← hd]
        exact path_descends hsd h0 e4
    have hshare := accepted_share ha hlt
    refine ⟨?_, ?_, ?_⟩
    · have : c < p.cost := accepted_lowers hq ha (.inl hlt)
      simpa [doglegNextReal] using this
    · have key : s.stepQualityMin * sqNorm ATb ≤ (κ + μ 0) * (p.cost - c) ∨
          s.stepQualityMin * (p.radius * √(sqNorm ATb)) ≤ p.cost - c := by
        rcases hdec with hdec | hdec
        · left
          have hκμ : 0 < κ + μ 0 := by
            by_contra hn
            have := mul_nonpos_of_nonpos_of_nonneg (not_lt.1 hn) (sub_nonneg.2 hlt.le)
            linarith only [this, hdec, hbpos]
          have e1 := mul_le_mul_of_nonneg_left hdec hq.le
          have e2 := mul_le_mul_of_nonneg_left hshare hκμ.le
          nlinarith only [e1, e2]
        · right
          exact (mul_le_mul_of_nonneg_left hdec hq.le).trans hshare
      simpa [doglegNextReal] using key
    · simpa [doglegNextReal] using h6

/-- **C86**, Levenberg-Marquardt. If the first `k` steps are all accepted and all start where the gradient `|b|` is `ε` or more, then
`k step_quality_min ε² ≤ (κ + μ) c₀`, where `c₀` is the initial cost and `μ` bounds the damping up to `lambda_initial`: the number of
such steps is bounded, and along any longer execution a step is rejected or a gradient is below `ε`. -/
theorem C86_levenberg_marquardt (h : Lifts CE gE C g) (hg : SaneGraph C g ws) (hz : ZeroRetract C)
    {sE : LevenbergMarquardt Ext} {s : LevenbergMarquardt ℝ} (hs : LiftsLM sE s) (hf : 1 ≤ s.lambdaFactor) (hq : 0 < s.stepQualityMin)
    (hl0 : 0 ≤ s.lambdaInitial) (hL : AllJacobians C g ws (SolvesRegular s.linear)) {μ : ℝ → ℝ}
    (hD : AllJacobians C g ws (DampedUpTo μ s.linear)) {μ₀ : ℝ} (hμ : ∀ l, 0 ≤ l → l ≤ s.lambdaInitial → μ l ≤ μ₀) {κ : ℝ}
    (hκ0 : 0 ≤ κ + μ₀) (hκ : AllJacobians C g ws (SoftAtMost κ)) {a : Assign ℝ} (ha : IsAssignmentOf C ws a) (hl : a.layout = g.layout)
    {c₀ : ℝ} {r₀ : List ℝ} (hc₀ : g.computeCost a = .ok (c₀, r₀)) {st st' : LMState Ext} {k : Nat} {log : List (Msg Ext)}
    (hi : sE.init gE (a.map fin) = .ok st) (hr : Runs (fun s => s.done) (sE.step CE gE) k st st' log)
    (hacc : ∀ j < k, ∀ u l u' l', Runs (fun s => s.done) (sE.step CE gE) j st u l → sE.step CE gE u = .ok (u', l') →
      u'.assignments ≠ u.assignments)
    {ε : ℝ} (hε : 0 ≤ ε)
    (hbig : ∀ j < k, ∀ (p : LMState ℝ) l b, Runs (fun s => s.done) (sE.step CE gE) j st (p.map fin) l → IsDescent g p.toState b →
      ε ≤ √(sqNorm b)) :
    k * (s.stepQualityMin * ε ^ 2) ≤ (κ + μ₀) * c₀ := by
  obtain ⟨c, r, hc, hst⟩ := (lmInit_fin h hs).1 hi
  rw [hc₀] at hc; cases hc
  suffices H : ∃ q : LMState ℝ, st' = q.map fin ∧ GoodState C g ws q.toState ∧ g.computeCost q.assignments = .ok (q.cost, q.residual) ∧
      0 ≤ q.lambd ∧ q.lambd ≤ s.lambdaInitial ∧ k * (s.stepQualityMin * ε ^ 2) ≤ (κ + μ₀) * (c₀ - q.cost) by
    obtain ⟨q, -, -, hc', -, -, hfinal⟩ := H
    have hq0 : 0 ≤ q.cost := by rw [hg.cost _ _ _ hc']; exact sqNorm_nonneg _
    have := mul_nonneg hκ0 hq0
    linarith
  clear hi
  symm at hst
  induction hr with
  | refl s' => exact ⟨_, hst.symm, GoodState.start ha hl hc₀ _ _, hc₀, hl0, le_rfl, by simp⟩
  | @step j s0 t u log l h1 h2 h3 ih =>
    obtain ⟨q, rfl, hq', hcur, hlam, hlam', hinv⟩ := ih (fun i hi => hacc i (by omega)) (fun i hi => hbig i (by omega)) hst
    have hk' := hacc j (by omega) _ _ _ _ h1 h3
    obtain ⟨q2, b, rfl, hb, hcase⟩ := C86_levenberg_marquardt_step h hg hz hs (by linarith) hq hL hD hκ hq' hlam hcur h3
    have hbb := hbig j (by omega) _ _ _ h1 hb
    rcases hcase with ⟨e1, -⟩ | ⟨e1, e2, e3, e4⟩
    · exact absurd (congrArg (Assign.map fin) e1) hk'
    · have hgood : GoodState C g ws q2.toState := (lm_runs_fin h hs (by linarith) hq' (.step (.refl _) h2 h3)).elim fun w hw => by
        rw [lmState_map_inj hw.1]; exact hw.2
      refine ⟨q2, rfl, hgood, e3, ?_, ?_, ?_⟩
      · rw [e4]; exact div_nonneg hlam (by linarith)
      · rw [e4]; exact (div_le_self hlam hf).trans hlam'
      · have hb2 : ε ^ 2 ≤ sqNorm b := by
          have := pow_le_pow_left₀ hε hbb 2
          rwa [Real.sq_sqrt (sqNorm_nonneg _)] at this
        have g1 := mul_le_mul_of_nonneg_left hb2 hq.le
        have g2 : (κ + μ q.lambd) * (q.cost - q2.cost) ≤ (κ + μ₀) * (q.cost - q2.cost) :=
          mul_le_mul_of_nonneg_right (by linarith [hμ _ hlam hlam']) (by linarith)
        push_cast
        linarith

/-- **C86**, dogleg. If the first `k` steps are all accepted, all start where the gradient `|b|` is `ε` or more, and the radius is
never below `ρ` there, then `k step_quality_min min (ε² / (κ + μ 0)) (ρ ε) ≤ c₀`. -/
theorem C86_dogleg (h : Lifts CE gE C g) (hg : SaneGraph C g ws) (hz : ZeroRetract C)
    {sE : Dogleg Ext} {s : Dogleg ℝ} (hs : LiftsDogleg sE s) (hq : 0 < s.stepQualityMin) (hρ0 : 0 < s.radiusInitial)
    (hL0 : ZeroAtZero s.linear) (hL : AllJacobians C g ws (SolvesRegular s.linear)) {μ : ℝ → ℝ} (hμ : 0 ≤ μ 0)
    (hD : AllJacobians C g ws (DampedUpTo μ s.linear)) {κ : ℝ} (hκ0 : 0 < κ + μ 0) (hκ : AllJacobians C g ws (SoftAtMost κ))
    {a : Assign ℝ} (ha : IsAssignmentOf C ws a) (hl : a.layout = g.layout)
    {c₀ : ℝ} {r₀ : List ℝ} (hc₀ : g.computeCost a = .ok (c₀, r₀)) {st st' : DoglegState Ext} {k : Nat} {log : List (Msg Ext)}
    (hi : sE.init gE (a.map fin) = .ok st) (hr : Runs (fun s => s.done) (sE.step CE gE) k st st' log)
    (hacc : ∀ j < k, ∀ u l u' l', Runs (fun s => s.done) (sE.step CE gE) j st u l → sE.step CE gE u = .ok (u', l') →
      u'.assignments ≠ u.assignments)
    {ε ρ : ℝ} (hε : 0 ≤ ε)
    (hbig : ∀ j < k, ∀ (p : DoglegState ℝ) l b, Runs (fun s => s.done) (sE.step CE gE) j st (p.map fin) l → IsDescent g p.toState b →
      ε ≤ √(sqNorm b) ∧ ρ ≤ p.radius) :
    k * (s.stepQualityMin * min (ε ^ 2 / (κ + μ 0)) (ρ * ε)) ≤ c₀ := by
  obtain ⟨c, r, hc, hst⟩ := (doglegInit_fin h hs).1 hi
  rw [hc₀] at hc; cases hc
  suffices H : ∃ q : DoglegState ℝ, st' = q.map fin ∧ GoodState C g ws q.toState ∧
      g.computeCost q.assignments = .ok (q.cost, q.residual) ∧ 0 < q.radius ∧
      k * (s.stepQualityMin * min (ε ^ 2 / (κ + μ 0)) (ρ * ε)) ≤ c₀ - q.cost by
    obtain ⟨q, -, -, hc', -, hfinal⟩ := H
    have hq0 : 0 ≤ q.cost := by rw [hg.cost _ _ _ hc']; exact sqNorm_nonneg _
    linarith
  clear hi
  symm at hst
  induction hr with
  | refl s' => exact ⟨_, hst.symm, GoodState.start ha hl hc₀ _ _, hc₀, hρ0, by simp⟩
  | @step j s0 t u log l h1 h2 h3 ih =>
    obtain ⟨q, rfl, hq', hcur, hrad, hinv⟩ := ih (fun i hi => hacc i (by omega)) (fun i hi => hbig i (by omega)) hst
    have hk' := hacc j (by omega) _ _ _ _ h1 h3
    obtain ⟨q2, b, rfl, hb, hcase⟩ := C86_dogleg_step h hg hz hs hq hL hμ hD hκ hq' hrad hcur h3
    obtain ⟨hbb, hbr⟩ := hbig j (by omega) _ _ _ h1 hb
    rcases hcase with ⟨e1, -⟩ | ⟨e1, e2, e3⟩
    · exact absurd (congrArg (Assign.map fin) e1) hk'
    · obtain ⟨hgood, hrad2⟩ : GoodState C g ws q2.toState ∧ 0 < q2.radius :=
        (dogleg_runs_fin h hg hs hL0 hq' hrad (.step (.refl _) h2 h3)).elim fun w hw => by
          rw [doglegState_map_inj hw.1]; exact hw.2
      refine ⟨q2, rfl, hgood, e3, hrad2, ?_⟩
      have hb2 : ε ^ 2 ≤ sqNorm b := by
        have := pow_le_pow_left₀ hε hbb 2
        rwa [Real.sq_sqrt (sqNorm_nonneg _)] at this
      have key : s.stepQualityMin * min (ε ^ 2 / (κ + μ 0)) (ρ * ε) ≤ q.cost - q2.cost := by
        rcases e2 with e2 | e2
        · refine (mul_le_mul_of_nonneg_left (min_le_left _ _) hq.le).trans ?_
          rw [← mul_div_assoc, div_le_iff₀ hκ0]
          have g1 := mul_le_mul_of_nonneg_left hb2 hq.le
          linarith
        · refine (mul_le_mul_of_nonneg_left (min_le_right _ _) hq.le).trans (le_trans ?_ e2)
          exact mul_le_mul_of_nonneg_left (mul_le_mul hbr hbb hε hrad.le) hq.le
      push_cast
      linarith

/-- **C86** for Levenberg-Marquardt with default settings and CHOLMOD: `k ε² ≤ 1000 (κ + 0.00051) c₀`. -/
theorem C86_defaults (h : Lifts CE gE C g) (hg : SaneGraph C g ws) (hz : ZeroRetract C)
    (stale : Pattern → ScipyCoo ℝ → ℝ → List ℝ → Py (List ℝ)) (addr : Nat) {sE : LevenbergMarquardt Ext}
    (hs : LiftsLM sE (LevenbergMarquardt.defaults (Poly.chol stale addr))) {κ : ℝ} (hκ0 : 0 ≤ κ)
    (hκ : AllJacobians C g ws (SoftAtMost κ)) {a : Assign ℝ} (ha : IsAssignmentOf C ws a) (hl : a.layout = g.layout)
    {c₀ : ℝ} {r₀ : List ℝ} (hc₀ : g.computeCost a = .ok (c₀, r₀)) {st st' : LMState Ext} {k : Nat} {log : List (Msg Ext)}
    (hi : sE.init gE (a.map fin) = .ok st) (hr : Runs (fun s => s.done) (sE.step CE gE) k st st' log)
    (hacc : ∀ j < k, ∀ u l u' l', Runs (fun s => s.done) (sE.step CE gE) j st u l → sE.step CE gE u = .ok (u', l') →
      u'.assignments ≠ u.assignments)
    {ε : ℝ} (hε : 0 ≤ ε)
    (hbig : ∀ j < k, ∀ (p : LMState ℝ) l b, Runs (fun s => s.done) (sE.step CE gE) j st (p.map fin) l → IsDescent g p.toState b →
      ε ≤ √(sqNorm b)) :
    k * ε ^ 2 ≤ 1000 * (κ + 51 / 100000) * c₀ := by
  have key := C86_levenberg_marquardt h hg hz hs (by show (1 : ℝ) ≤ 2; norm_num) (by show (0 : ℝ) < 1 / 1000; norm_num)
    (by show (0 : ℝ) ≤ 1 / 2000; norm_num) (cholmod_graph hg stale addr) (μ := fun l => l + 1 / 100000)
    (fun a a' c r A h1 h2 h3 h4 h5 h6 => C70_cholmod stale .empty addr (hg.jacobian a a' c r A h1 h2 h3 h4 h5 h6).1 (fun p hp => by cases hp))
    (μ₀ := 51 / 100000) (fun l _ hl => by
      have hl : l ≤ 1 / 2000 := hl
      show l + 1 / 100000 ≤ 51 / 100000
      linarith) (by linarith) hκ ha hl hc₀ hi hr hacc hε hbig
  have key : k * (1 / 1000 * ε ^ 2) ≤ (κ + 51 / 100000) * c₀ := key
  linarith

end

/-! ### Example -/

namespace Poly1
open Jaxfg.Poly

/-- The residual `p + q x`: no eigenvalue of `AᵀA` is above `q²`. -/
theorem soft (p q : ℝ) : AllJacobians Ex.C ((g p q 0).ops F Ex.C) [Ex.x] (SoftAtMost (q ^ 2)) := by
  intro a a' c r A h1 h2 h3 h4 h5 h6
  obtain ⟨v, rfl⟩ := at_of h1 h2
  obtain ⟨v', rfl⟩ := at_of h3 h4
  rw [Jaxfg.Poly.cost_eq] at h5
  obtain ⟨-, rfl⟩ := Prod.mk.inj (Except.ok.inj h5)
  rw [Jaxfg.Poly.jac_eq] at h6
  cases Except.ok.inj h6
  intro y
  have hm : cooMatrix (⟨[q + 2 * 0 * v], [0], [0], (1, 1)⟩ : Coo ℝ) 1 1 0 0 = q := by simp [cooMatrix, entries]
  have hM : (cooMatrix (⟨[q + 2 * 0 * v], [0], [0], (1, 1)⟩ : Coo ℝ) 1 1 *ᵥ y) 0 = q * y 0 := by
    show ∑ j : Fin 1, _ * _ = _
    rw [Fin.sum_univ_one, hm]
  show ∑ i : Fin 1, _ * _ ≤ q ^ 2 * (∑ i : Fin 1, y i * y i)
  rw [Fin.sum_univ_one, Fin.sum_univ_one, hM]
  exact le_of_eq (by ring)

/-- A case of `C86_defaults`: the residual `1 + x` at `x = 0`, one step. It is accepted, and the gradient is 1. -/
example (stale : Pattern → ScipyCoo ℝ → ℝ → List ℝ → Py (List ℝ)) (addr : Nat) :
    let S := (LevenbergMarquardt.defaults (chol stale addr)).lift
    ∃ st st' log, S.init (gE 1 1 0) ((at_ 0).map fin) = .ok st ∧ Runs (fun s => s.done) (S.step CE (gE 1 1 0)) 1 st st' log ∧
      (∀ j < 1, ∀ u l u' l', Runs (fun s => s.done) (S.step CE (gE 1 1 0)) j st u l → S.step CE (gE 1 1 0) u = .ok (u', l') →
        u'.assignments ≠ u.assignments) ∧
      ∀ j < 1, ∀ (p : LMState ℝ) l b, Runs (fun s => s.done) (S.step CE (gE 1 1 0)) j st (p.map fin) l →
        IsDescent ((g 1 1 0).ops F Ex.C) p.toState b → 1 ≤ √(sqNorm b) := by
  intro S
  have hacc : true = Scal.le (fin (LevenbergMarquardt.defaults (chol stale addr)).stepQualityMin)
      (fin ((51 / 100051 : ℝ) ^ 2 - 1) / fin ((1 * (-100000 / 100051 : ℝ) + 1) ^ 2 - 1)) := by
    rw [fin_div (by norm_num)]
    refine ((fin_le _ _).2 ?_).symm
    show (1 / 1000 : ℝ) ≤ _
    norm_num
  obtain ⟨conv, log, h1⟩ := lm_step stale addr (LevenbergMarquardt.defaults (chol stale addr)) rfl (by show (2 : ℝ) ≠ 0; norm_num) 1 1 0 0
    (v := 0) (c := 1) (r := 1) (lam := 1 / 2000) (j := 1) (d := -100000 / 100051) (v' := -100000 / 100051) (r' := 51 / 100051) false
    (by norm_num) (by norm_num) (by norm_num) (by norm_num) (by norm_num) true hacc
  refine ⟨_, _, _, (lmInit_fin (lifts 1 1 0) (liftsLM_lift _)).2 ⟨1, [1], ?_, rfl⟩, .step (.refl _) rfl h1, ?_, ?_⟩
  · rw [Jaxfg.Poly.cost_eq]; norm_num
  · intro j hj u l u' l' hr hs
    obtain rfl : j = 0 := by omega
    cases hr
    have hs := h1.symm.trans hs
    cases Except.ok.inj hs
    intro he
    have he : [fin (-100000 / 100051)] = [fin 0] := congrArg Assign.storage he
    have := fin_injective (List.cons.inj he).1
    norm_num at this
  · intro j hj p l b hr hb
    obtain rfl : j = 0 := by omega
    generalize hp : p.map fin = w at hr
    cases hr
    obtain rfl := lmState_map_inj hp
    obtain ⟨A, hA, hT⟩ := hb
    rw [show (((g 1 1 0).ops F Ex.C).jacobian (at_ 0) [1]) = _ from Jaxfg.Poly.jac_eq _ _ _ _ _] at hA
    cases Except.ok.inj hA
    have hT := (matmul_T_eq (1 + 2 * 0 * 0 : ℝ) (-1)).symm.trans hT
    cases Except.ok.inj hT
    rw [Real.one_le_sqrt]
    norm_num [sqNorm]

end Poly1

end Jaxfg.Props
