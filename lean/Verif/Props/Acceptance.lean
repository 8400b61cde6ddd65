/-
C90: with enough damping, or in a small enough trust region, steps from current states are accepted.
-/
import Verif.Lemmas.Acceptance
import Verif.Spec.Rejections
import Verif.Props.Decrease
import Verif.Props.LocalRate

namespace Jaxfg.Props
open Ext (fin)
open Spec Matrix

section
variable {CE : Ty → VarClass Ext} {gE : GraphOps Ext} {C : Ty → VarClass ℝ} {g : GraphOps ℝ} {ws : List Var}

/-- **C90**, one Levenberg-Marquardt step from a state whose residual is current and whose gradient is not zero. Let the linear solver
add at least `ν > 0` to `AᵀA` at this `lambd`, and let the residual of the next assignments be at most `M/2 |d|²` longer than
predicted (for steps `d` of length at most `δ`, which the damping guarantees if `cost ≤ 4 ν δ²`). If `M √cost ≤ ν (1 - step_quality_min)`
then the step is accepted: the cost falls, and `lambd` is divided by `lambda_factor`. -/
theorem C90_levenberg_marquardt_step (h : Lifts CE gE C g) (hg : SaneGraph C g ws)
    {sE : LevenbergMarquardt Ext} {s : LevenbergMarquardt ℝ} (hs : LiftsLM sE s) (hf : s.lambdaFactor ≠ 0) (hq : 0 < s.stepQualityMin)
    (hq1 : s.stepQualityMin ≤ 1) (hL : AllJacobians C g ws (SolvesRegular s.linear)) {ν : ℝ → ℝ}
    (hD : AllJacobians C g ws (DampedAtLeast ν s.linear)) {p : LMState ℝ} (hp : GoodState C g ws p.toState)
    (hl : 0 ≤ p.lambd) (hcur : g.computeCost p.assignments = .ok (p.cost, p.residual)) {c₀ δ M : ℝ} (hM : 0 ≤ M) (hδ : 0 ≤ δ)
    (hlin : LinearizesWell C g ws c₀ δ M) (hc₀ : p.cost ≤ c₀) (hν : 0 < ν p.lambd) (hshort : p.cost ≤ 4 * ν p.lambd * δ ^ 2)
    (hbig : M * √p.cost ≤ ν p.lambd * (1 - s.stepQualityMin)) {b : List ℝ} (hb : IsDescent g p.toState b) (hb0 : sqNorm b ≠ 0)
    {st' : LMState Ext} {log : List (Msg Ext)} (hstep : sE.step CE gE (p.map fin) = .ok (st', log)) :
    ∃ q : LMState ℝ, st' = q.map fin ∧ q.cost < p.cost ∧ g.computeCost q.assignments = .ok (q.cost, q.residual) ∧
      q.lambd = p.lambd / s.lambdaFactor := by
  obtain ⟨A, ATb, d, a', c, r, As, acc, conv, h1, h2, h3, h4, h5, h6, h7, h8, -, rfl, -⟩ := (lmStep_fin h hs hf).1 hstep
  refine ⟨_, rfl, ?_⟩
  obtain ⟨A', hA', hb'⟩ := hb
  rw [h1] at hA'; cases Except.ok.inj hA'
  rw [h2] at hb'; cases Except.ok.inj hb'
  obtain ⟨hwf, hdim⟩ := hp.jac hg h1
  obtain ⟨hrl, hbl, hbv⟩ := descent_ok hwf h2
  obtain ⟨hdl, D, hD1, hD2, hD3⟩ := hp.all hL h1 b p.lambd _ d hbl hl h3
  obtain ⟨-, E, hE1, hE2, hE3⟩ := hp.all hD h1 b p.lambd _ d hbl hl h3
  rw [hbv] at hD3 hE3
  obtain ⟨-, k2⟩ := SolvesDamped.descends ⟨D, hD1, hD2, hD3⟩
  have hcost : p.cost = Spec.vec p.residual A.shape.1 ⬝ᵥ Spec.vec p.residual A.shape.1 := by
    rw [hg.cost _ _ _ hcur, sqNorm_eq hrl]
  have hpred := predicted_ok hwf hrl h6
  have h0 : descent (cooMatrix A A.shape.1 A.shape.2) (Spec.vec p.residual A.shape.1) ≠ 0 := by
    intro h0
    rw [sqNorm_eq hbl, hbv, h0] at hb0
    exact hb0 (by simp)
  have hlt : predicted As p.residual < p.cost := by rw [hpred, hcost]; exact k2 h0
  obtain ⟨b1, b2⟩ := damped_bounds hE2 hE3
  rw [← hcost, ← hpred, ← sqNorm_eq hdl] at b1
  rw [← hcost, ← sqNorm_eq hdl] at b2
  have hd0 := sqNorm_nonneg d
  have hdδ : √(sqNorm d) ≤ δ := by
    rw [Real.sqrt_le_left hδ]
    have : 4 * ν p.lambd * sqNorm d ≤ 4 * ν p.lambd * δ ^ 2 := b2.trans hshort
    exact le_of_mul_le_mul_left this (by linarith)
  have hlin' := hlin _ _ _ _ _ _ _ _ hp.assignment hp.layout hcur hc₀ h1 hdl hdδ h4 h5
  rw [← hpred] at hlin'
  have hc0 : 0 ≤ c := by rw [hg.cost _ _ _ h5]; exact sqNorm_nonneg _
  have hpr0 : 0 ≤ predicted As p.residual := by rw [hpred]; exact dot_self_nonneg _
  have hshare := damped_share hpr0 hM hd0 hc0 hν hq.le hq1 b1 b2 hlin' hbig
  have hacc : acc = true := by rw [h8]; exact accepts_share hlt hshare
  have hlow : c < p.cost := by nlinarith [mul_pos hq (sub_pos.2 hlt)]
  subst hacc
  exact ⟨by simpa [lmNextReal] using hlow, by simpa [lmNextReal] using h5, by simp [lmNextReal, nextLambda]⟩

/-- **C90**, one dogleg step from a state whose residual is current and whose gradient is not zero. If the radius `ρ` is at most `δ`
and small in comparison with the gradient, so that `E = M √cost + M² ρ² / 4` satisfies `ρ E ≤ (1 - step_quality_min) |b|` and
`ρ² E (κ + μ) ≤ (1 - step_quality_min) |b|²`, then the step is accepted. -/
theorem C90_dogleg_step (h : Lifts CE gE C g) (hg : SaneGraph C g ws)
    {sE : Dogleg Ext} {s : Dogleg ℝ} (hs : LiftsDogleg sE s) (hq : 0 < s.stepQualityMin)
    (hL : AllJacobians C g ws (SolvesRegular s.linear)) {μ : ℝ → ℝ} (hμ : 0 ≤ μ 0) (hD : AllJacobians C g ws (DampedUpTo μ s.linear))
    {p : DoglegState ℝ} (hp : GoodState C g ws p.toState) {κ : ℝ}
    (hκ : ∀ A, g.jacobian p.assignments p.residual = .ok A → SoftAtMost κ A) (hκμ : 0 < κ + μ 0)
    (hρ : 0 < p.radius) (hcur : g.computeCost p.assignments = .ok (p.cost, p.residual)) {c₀ δ M : ℝ} (hM : 0 ≤ M)
    (hlin : LinearizesWell C g ws c₀ δ M) (hc₀ : p.cost ≤ c₀) (hρδ : p.radius ≤ δ) {b : List ℝ} (hb : IsDescent g p.toState b)
    (hb0 : sqNorm b ≠ 0)
    (hsmall : p.radius * (M * √p.cost + M ^ 2 / 4 * p.radius ^ 2) ≤ (1 - s.stepQualityMin) * √(sqNorm b))
    (hsmall' : p.radius ^ 2 * (M * √p.cost + M ^ 2 / 4 * p.radius ^ 2) * (κ + μ 0) ≤ (1 - s.stepQualityMin) * sqNorm b)
    {st' : DoglegState Ext} {log : List (Msg Ext)} (hstep : sE.step CE gE (p.map fin) = .ok (st', log)) :
    ∃ q : DoglegState ℝ, st' = q.map fin ∧ q.cost < p.cost ∧ g.computeCost q.assignments = .ok (q.cost, q.residual) := by
  have hfit : ∀ A ATb gn, g.jacobian p.assignments p.residual = .ok A → A.T.matmul (p.residual.map fun x => -x) = .ok ATb →
      s.linear A ATb 0 p.iterations = .ok gn → CooWF A ∧ gn.length = A.shape.2 ∧ A.shape.2 = g.localLayout.dim ∧
      SolvesDamped (cooMatrix A A.shape.1 A.shape.2) (Spec.vec p.residual A.shape.1) (Spec.vec gn A.shape.2) := by
    intro A ATb gn h1 h2 h3
    obtain ⟨hwf, hdim⟩ := hp.jac hg h1
    obtain ⟨hrl, hbl, hbv⟩ := descent_ok hwf h2
    obtain ⟨hdl, D, hD1, hD2, hD3⟩ := hp.all hL h1 ATb 0 _ gn hbl le_rfl h3
    rw [hbv] at hD3
    exact ⟨hwf, hdl, hdim, D, hD1, hD2, hD3⟩
  have hdesc : ∀ A ATb, g.jacobian p.assignments p.residual = .ok A → A.T.matmul (p.residual.map fun x => -x) = .ok ATb →
      ATb = b ∧ descent (cooMatrix A A.shape.1 A.shape.2) (Spec.vec p.residual A.shape.1) ≠ 0 := by
    intro A ATb h1 h2
    obtain ⟨A', hA', hb'⟩ := hb
    rw [h1] at hA'; cases Except.ok.inj hA'
    rw [h2] at hb'; cases Except.ok.inj hb'
    obtain ⟨hwf, hdim⟩ := hp.jac hg h1
    obtain ⟨hrl, hbl, hbv⟩ := descent_ok hwf h2
    refine ⟨rfl, fun h0 => ?_⟩
    rw [sqNorm_eq hbl, hbv, h0] at hb0
    exact hb0 (by simp)
  have hfin : ∀ A ATb gn dE, g.jacobian p.assignments p.residual = .ok A → A.T.matmul (p.residual.map fun x => -x) = .ok ATb →
      s.linear A ATb 0 p.iterations = .ok gn → doglegStep (A.map fin) (ATb.map fin) (gn.map fin) (fin p.radius) = .ok dE →
      ∃ d : List ℝ, dE = d.map fin := by
    intro A ATb gn dE h1 h2 h3 h4
    obtain ⟨hwf, hlen, -, hsd⟩ := hfit A ATb gn h1 h2 h3
    obtain ⟨d, e1, -⟩ := C46_step hwf h2 hlen hρ (.inr (hdesc A ATb h1 h2).2)
    rw [e1] at h4
    exact ⟨d, (Except.ok.inj h4).symm⟩
  obtain ⟨A, ATb, gn, d, a', c, r, As, q, conv, h1, h2, h3, h4, h5, h6, h7, h8, h9, -, rfl, -⟩ := (doglegSolverStep_fin h hs hfin).1 hstep
  refine ⟨_, rfl, ?_⟩
  obtain ⟨rfl, h0⟩ := hdesc A ATb h1 h2
  obtain ⟨hwf, hlen, hdim, hsd⟩ := hfit A ATb gn h1 h2 h3
  obtain ⟨hrl, hbl, hbv⟩ := descent_ok hwf h2
  obtain ⟨-, E, hE1, hE2, hE3⟩ := hp.all hD h1 ATb 0 _ gn hbl le_rfl h3
  rw [hbv] at hE3
  have hMκ := hκ A h1
  have hcost : p.cost = Spec.vec p.residual A.shape.1 ⬝ᵥ Spec.vec p.residual A.shape.1 := by
    rw [hg.cost _ _ _ hcur, sqNorm_eq hrl]
  have hpred := predicted_ok hwf hrl h7
  obtain ⟨f1, f2⟩ := doglegStep_fin hwf h2 hlen hρ
  have hbpos : 0 < sqNorm ATb := by rw [sqNorm_eq hbl, hbv]; exact dot_self_pos h0
  have hbsq : √(sqNorm ATb) * √(sqNorm ATb) = sqNorm ATb := Real.mul_self_sqrt hbpos.le
  obtain ⟨hdl, hdρ, hdec, hlt⟩ : d.length = A.shape.2 ∧ nrm d ≤ p.radius ∧
      (sqNorm ATb ≤ (κ + μ 0) * (p.cost - predicted As p.residual) ∨ p.radius * √(sqNorm ATb) ≤ p.cost - predicted As p.residual) ∧
      predicted As p.residual < p.cost := by
    rw [hpred, hcost, sqNorm_eq hbl, hbv]
    by_cases hn : nrm gn ≤ p.radius
    · rw [f1 hn] at h4
      have hd : gn = d := List.map_injective_iff.2 fin_injective (Except.ok.inj h4)
      rw [← hd]
      exact ⟨hlen, hn, .inl (damped_decrease hE1 hMκ hE2 hE3), (SolvesDamped.descends hsd).2 h0⟩
    · obtain ⟨d', e1, e2, e3, e4⟩ := f2 (not_le.1 hn) h0
      rw [e1] at h4
      have hd : d' = d := List.map_injective_iff.2 fin_injective (Except.ok.inj h4)
      have e3' := e3
      rw [nrm_eq e2] at e3'
      rw [← hd]
      refine ⟨e2, e3.le, ?_, path_descends hsd h0 e4⟩
      rw [← e3']
      exact dogleg_decrease hE1 hμ hMκ hE2 hE3 h0 e4
  have hd0 := sqNorm_nonneg d
  have hdρ2 : sqNorm d ≤ p.radius ^ 2 := (Real.sqrt_le_left hρ.le).1 hdρ
  have hlin' := hlin _ _ _ _ _ _ _ _ hp.assignment hp.layout hcur hc₀ h1 hdl (hdρ.trans hρδ) h5 h6
  rw [← hpred] at hlin'
  have hc0 : 0 ≤ c := by rw [hg.cost _ _ _ h6]; exact sqNorm_nonneg _
  have hpr0 : 0 ≤ predicted As p.residual := by rw [hpred]; exact dot_self_nonneg _
  have hafter := cost_after hpr0 hlt.le hM hd0 hc0 hlin'
  have herr : sqNorm d * (M * √p.cost + M ^ 2 / 4 * sqNorm d) ≤ p.radius ^ 2 * (M * √p.cost + M ^ 2 / 4 * p.radius ^ 2) := by
    have := Real.sqrt_nonneg p.cost
    gcongr
  obtain ⟨e, he⟩ : ∃ e, e = M * √p.cost + M ^ 2 / 4 * p.radius ^ 2 := ⟨_, rfl⟩
  rw [← he] at hsmall hsmall' herr
  have he0 : 0 ≤ e := by rw [he]; have := Real.sqrt_nonneg p.cost; positivity
  have hq1 : 0 ≤ 1 - s.stepQualityMin := by
    by_contra hn
    have := mul_neg_of_neg_of_pos (not_le.1 hn) (Real.sqrt_pos.2 hbpos)
    have := mul_nonneg hρ.le he0
    linarith
  have hgap : p.radius ^ 2 * e ≤ (1 - s.stepQualityMin) * (p.cost - predicted As p.residual) := by
    rcases hdec with hdec | hdec
    · have e1 := mul_le_mul_of_nonneg_left hdec hq1
      have : (κ + μ 0) * (p.radius ^ 2 * e) ≤ (κ + μ 0) * ((1 - s.stepQualityMin) * (p.cost - predicted As p.residual)) := by linarith
      exact le_of_mul_le_mul_left this hκμ
    · have e1 := mul_le_mul_of_nonneg_left hdec hq1
      have e2 := mul_le_mul_of_nonneg_left hsmall hρ.le
      linarith
  have hshare : s.stepQualityMin * (p.cost - predicted As p.residual) ≤ p.cost - c := by linarith
  have hacc : Scal.le (fin s.stepQualityMin) q = true := by rw [h9]; exact accepts_share hlt hshare
  have hlow : c < p.cost := by nlinarith [mul_pos hq (sub_pos.2 hlt)]
  refine ⟨?_, ?_⟩
  · simpa [doglegNextReal, hacc] using hlow
  · simpa [doglegNextReal, hacc] using h6

/-- **C90**, the beginning of a Levenberg-Marquardt execution. As long as the damping at `lambda_initial / lambda_factorʲ` satisfies the
conditions of `C90_levenberg_marquardt_step` for the initial cost `c₀`, and no gradient is zero, all steps are accepted: after `k` steps
the recorded cost and residual are those of the assignments, the cost is less than `c₀` (if `k > 0`), and `lambd` has been divided by
`lambda_factor` `k` times. -/
theorem C90_levenberg_marquardt (h : Lifts CE gE C g) (hg : SaneGraph C g ws)
    {sE : LevenbergMarquardt Ext} {s : LevenbergMarquardt ℝ} (hs : LiftsLM sE s) (hf : 0 < s.lambdaFactor) (hq : 0 < s.stepQualityMin)
    (hq1 : s.stepQualityMin ≤ 1) (hl0 : 0 ≤ s.lambdaInitial) (hL : AllJacobians C g ws (SolvesRegular s.linear)) {ν : ℝ → ℝ}
    (hD : AllJacobians C g ws (DampedAtLeast ν s.linear)) {a : Assign ℝ} (ha : IsAssignmentOf C ws a) (hl : a.layout = g.layout)
    {c₀ : ℝ} {r₀ : List ℝ} (hc₀ : g.computeCost a = .ok (c₀, r₀)) {δ M : ℝ} (hM : 0 ≤ M) (hδ : 0 ≤ δ)
    (hlin : LinearizesWell C g ws c₀ δ M) {k : Nat}
    (hν : ∀ j < k, let n := ν (s.lambdaInitial / s.lambdaFactor ^ j)
      0 < n ∧ c₀ ≤ 4 * n * δ ^ 2 ∧ M * √c₀ ≤ n * (1 - s.stepQualityMin))
    {st st' : LMState Ext} {log : List (Msg Ext)} (hi : sE.init gE (a.map fin) = .ok st)
    (hr : Runs (fun s => s.done) (sE.step CE gE) k st st' log)
    (hgrad : ∀ j < k, ∀ (p : LMState ℝ) l b, Runs (fun s => s.done) (sE.step CE gE) j st (p.map fin) l → IsDescent g p.toState b →
      sqNorm b ≠ 0) :
    ∃ q : LMState ℝ, st' = q.map fin ∧ GoodState C g ws q.toState ∧ g.computeCost q.assignments = .ok (q.cost, q.residual) ∧
      q.lambd = s.lambdaInitial / s.lambdaFactor ^ k ∧ q.cost ≤ c₀ ∧ (0 < k → q.cost < c₀) := by
  obtain ⟨c, r, hc, hst⟩ := (lmInit_fin h hs).1 hi
  rw [hc₀] at hc; cases hc
  clear hi
  symm at hst
  induction hr with
  | refl s' => exact ⟨_, hst.symm, GoodState.start ha hl hc₀ _ _, hc₀, by simp, le_rfl, by simp⟩
  | @step j s0 t u log l h1 h2 h3 ih =>
    obtain ⟨q, rfl, hq', hcur, hlam, hle, -⟩ := ih (fun i hi => hν i (by omega)) (fun i hi => hgrad i (by omega)) hst
    have hlam0 : 0 ≤ q.lambd := by rw [hlam]; positivity
    obtain ⟨n1, n2, n3⟩ := hν j (by omega)
    rw [← hlam] at n1 n2 n3
    obtain ⟨b, hb⟩ : ∃ b, IsDescent g q.toState b := by
      obtain ⟨A, ATb, -, -, -, -, -, -, -, e1, e2, -⟩ := (lmStep_fin h hs hf.ne').1 h3
      exact ⟨ATb, A, e1, e2⟩
    obtain ⟨q2, rfl, g1, g2, g3⟩ := C90_levenberg_marquardt_step h hg hs hf.ne' hq hq1 hL hD hq' hlam0 hcur hM hδ hlin hle n1
      (hle.trans n2) ((mul_le_mul_of_nonneg_left (Real.sqrt_le_sqrt hle) hM).trans n3) hb (hgrad j (by omega) _ _ _ h1 hb) h3
    have hgood : GoodState C g ws q2.toState := (lm_runs_fin h hs hf.ne' hq' (.step (.refl _) h2 h3)).elim fun w hw => by
      rw [lmState_map_inj hw.1]; exact hw.2
    refine ⟨q2, rfl, hgood, g2, ?_, (g1.trans_le hle).le, fun _ => g1.trans_le hle⟩
    rw [g3, hlam, pow_succ, div_div]

/-- **C90**, the gradient. If moreover `AᵀA ≤ κ`, and the linear solver adds at most `μ₀` up to `lambda_initial`, then one of the first
`k` steps starts where the gradient is less than `ε`, whenever `k step_quality_min ε² > (κ + μ₀) c₀`. -/
theorem C90_gradient (h : Lifts CE gE C g) (hg : SaneGraph C g ws) (hz : ZeroRetract C)
    {sE : LevenbergMarquardt Ext} {s : LevenbergMarquardt ℝ} (hs : LiftsLM sE s) (hf : 1 ≤ s.lambdaFactor) (hq : 0 < s.stepQualityMin)
    (hq1 : s.stepQualityMin ≤ 1) (hl0 : 0 ≤ s.lambdaInitial) (hL : AllJacobians C g ws (SolvesRegular s.linear)) {ν μ : ℝ → ℝ}
    (hD : AllJacobians C g ws (DampedAtLeast ν s.linear)) (hU : AllJacobians C g ws (DampedUpTo μ s.linear)) {μ₀ : ℝ}
    (hμ : ∀ l, 0 ≤ l → l ≤ s.lambdaInitial → μ l ≤ μ₀) {κ : ℝ} (hκ0 : 0 ≤ κ + μ₀) (hκ : AllJacobians C g ws (SoftAtMost κ))
    {a : Assign ℝ} (ha : IsAssignmentOf C ws a) (hl : a.layout = g.layout)
    {c₀ : ℝ} {r₀ : List ℝ} (hc₀ : g.computeCost a = .ok (c₀, r₀)) {δ M : ℝ} (hM : 0 ≤ M) (hδ : 0 ≤ δ)
    (hlin : LinearizesWell C g ws c₀ δ M) {k : Nat}
    (hν : ∀ j < k, let n := ν (s.lambdaInitial / s.lambdaFactor ^ j)
      0 < n ∧ c₀ ≤ 4 * n * δ ^ 2 ∧ M * √c₀ ≤ n * (1 - s.stepQualityMin))
    {st st' : LMState Ext} {log : List (Msg Ext)} (hi : sE.init gE (a.map fin) = .ok st)
    (hr : Runs (fun s => s.done) (sE.step CE gE) k st st' log) {ε : ℝ} (hε : 0 ≤ ε)
    (hk : (κ + μ₀) * c₀ < k * (s.stepQualityMin * ε ^ 2)) :
    ∃ j < k, ∃ (p : LMState ℝ) (l : List (Msg Ext)) (b : List ℝ), Runs (fun s => s.done) (sE.step CE gE) j st (p.map fin) l ∧
      IsDescent g p.toState b ∧ g.computeCost p.assignments = .ok (p.cost, p.residual) ∧
      √(sqNorm b) < ε := by
  by_contra hno
  push Not at hno
  have hc0 : 0 ≤ c₀ := by rw [hg.cost _ _ _ hc₀]; exact sqNorm_nonneg _
  have hε0 : 0 < ε := by
    rcases hε.eq_or_lt with e | e
    · rw [← e] at hk
      have := mul_nonneg hκ0 hc0
      simp at hk
      linarith
    · exact e
  have hf0 : 0 < s.lambdaFactor := by linarith
  -- no gradient is zero, therefore all steps are accepted
  have hcur : ∀ j ≤ k, (∀ i < j, ∀ (p : LMState ℝ) l b, Runs (fun s => s.done) (sE.step CE gE) i st (p.map fin) l →
      IsDescent g p.toState b → sqNorm b ≠ 0) → ∀ u l, Runs (fun s => s.done) (sE.step CE gE) j st u l → _ := fun j hj hgr u l hu =>
    C90_levenberg_marquardt h hg hs hf0 hq hq1 hl0 hL hD ha hl hc₀ hM hδ hlin (fun i hi => hν i (by omega)) hi hu hgr
  have hgr : ∀ j ≤ k, ∀ i < j, ∀ (p : LMState ℝ) l b, Runs (fun s => s.done) (sE.step CE gE) i st (p.map fin) l →
      IsDescent g p.toState b → sqNorm b ≠ 0 := by
    intro j
    induction j with
    | zero => intro _ i hi; omega
    | succ j ih =>
      intro hj i hi p l b hu hb h0
      have ih := ih (by omega)
      obtain ⟨q, hq', -, hc, -⟩ := hcur i (by omega) (fun i' hi' => ih i' (by omega)) _ _ hu
      rw [lmState_map_inj hq'] at hu hb
      have := hno i (by omega) q l b hu hb hc
      rw [h0, Real.sqrt_zero] at this
      linarith
  have key := C86_levenberg_marquardt h hg hz hs hf hq hl0 hL hU hμ hκ0 hκ ha hl hc₀ hi hr (fun j hj u l u' l' hu hst => by
      obtain ⟨q, rfl, hgood, hc, hlam, hle, -⟩ := hcur j hj.le (fun i hi => hgr k le_rfl i (by omega)) _ _ hu
      have hlam0 : 0 ≤ q.lambd := by rw [hlam]; positivity
      obtain ⟨n1, n2, n3⟩ := hν j hj
      rw [← hlam] at n1 n2 n3
      obtain ⟨b, hb⟩ : ∃ b, IsDescent g q.toState b := by
        obtain ⟨A, ATb, -, -, -, -, -, -, -, e1, e2, -⟩ := (lmStep_fin h hs hf0.ne').1 hst
        exact ⟨ATb, A, e1, e2⟩
      obtain ⟨q2, rfl, g1, g2, -⟩ := C90_levenberg_marquardt_step h hg hs hf0.ne' hq hq1 hL hD hgood hlam0 hc hM hδ hlin hle n1
        (hle.trans n2) ((mul_le_mul_of_nonneg_left (Real.sqrt_le_sqrt hle) hM).trans n3) hb (hgr k le_rfl j hj _ _ _ hu hb) hst
      intro heq
      have : q2.assignments = q.assignments := assign_map_fin heq
      rw [this, hc] at g2
      exact absurd (Prod.mk.inj (Except.ok.inj g2)).1 g1.ne')
    hε (fun j hj p l b hu hb => by
      obtain ⟨q, hq', -, hc, -⟩ := hcur j hj.le (fun i hi => hgr k le_rfl i (by omega)) _ _ hu
      rw [lmState_map_inj hq'] at hu hb
      exact hno j hj q l b hu hb hc)
  linarith

/-- CHOLMOD adds at least (and at most) `lambd + 0.00001`. -/
theorem C90_cholmod (stale : Pattern → ScipyCoo ℝ → ℝ → List ℝ → Py (List ℝ)) (cache : CholmodCache) (addr : Nat) {A : Coo ℝ}
    (hA : CooWF A) (hcache : CacheFits cache addr A) :
    DampedAtLeast (fun l => l + 1 / 100000) (fun A b l _ => (cholmodSolve stale cache addr A b l).1) A := by
  intro b l i x hb hl hx
  obtain ⟨hpd, x', h1, h2, h3, -⟩ := C35_cholmod stale cache addr A hA b hb l hl hcache
  have hx : (cholmodSolve stale cache addr A b l).1 = .ok x := hx
  rw [h1] at hx
  cases Except.ok.inj hx
  refine ⟨h2, (l + 1 / 100000) • (1 : Matrix _ _ ℝ), Matrix.PosSemidef.one.smul (by positivity), fun v => ?_, h3⟩
  rw [smul_mulVec, one_mulVec, dotProduct_smul, smul_eq_mul]

/-- All Jacobians have the same number of rows, which is the length of all residuals. -/
theorem jac_rows (hT : TotalGraph C g ws) (hE : UsesDefaultRetraction C ws) {m : Nat} (hD : DerivativeGraph C g ws m) {a : Assign ℝ}
    {c : ℝ} {r : List ℝ} {A : Coo ℝ} (ha : IsAssignmentOf C ws a) (hl : a.layout = g.layout) (hc : g.computeCost a = .ok (c, r))
    (hA : g.jacobian a r = .ok A) : A.shape.1 = m ∧ r.length = m := by
  have hg := hT.sane
  obtain ⟨n, hn⟩ : ∃ n, n = g.localLayout.dim := ⟨_, rfl⟩
  have hfl : a.layout.localFlag = false := by rw [hl, hg.layout]; rfl
  have hadd : ∀ {d : List ℝ}, d.length = n → a.manifoldRetract C ⟨d, g.localLayout⟩ = .ok ⟨List.zipWith (· + ·) a.storage d, a.layout⟩ :=
    fun {d} hd => (retract_adds C hg.classes ws a ⟨d, g.localLayout⟩ ha hfl
      ⟨hg.nodup, by simp only [hg.localLayout, make_localFlag], hd.trans hn⟩ (by simp only [hg.localLayout, make_localFlag]) hE).1
  have hz : ∀ t : ℝ, ((List.replicate n (0 : ℝ)).map (t * ·)).length = n := fun t => by simp
  choose k R hk using fun t => hT.cost ⟨List.zipWith (· + ·) a.storage ((List.replicate n (0 : ℝ)).map (t * ·)), a.layout⟩
    (isAssignment_retract ha (hadd (hz t))) hl
  have h1 := (hD a c r A (List.replicate n 0) _ k R ha hl hc hA (by simpa using hn) fun t => ⟨hadd (hz t), hk t⟩).1
  obtain ⟨A', hA', h2⟩ := hT.jacobian a a c r ha hl ha hl hc
  rw [hA] at hA'
  cases Except.ok.inj hA'
  exact ⟨h1, by rw [← h2, h1]⟩

/-- If the variables have the default retraction, the Jacobian is the derivative of the residual, and it is Lipschitz continuous with
constant `M` in every ball of radius `δ`, then the linearization predicts the residual after a step `d` up to `M/2 |d|²`. -/
theorem smooth_predicts (hT : TotalGraph C g ws) (hE : UsesDefaultRetraction C ws) {m : Nat} (hD : DerivativeGraph C g ws m) {δ M : ℝ}
    (hlip : ∀ e, IsAssignmentOf C ws e → e.layout = g.layout → LipschitzNear C g ws e δ M) {a : Assign ℝ} (ha : IsAssignmentOf C ws a)
    (hl : a.layout = g.layout) {c : ℝ} {r : List ℝ} (hc : g.computeCost a = .ok (c, r)) {A : Coo ℝ} (hA : g.jacobian a r = .ok A) :
    PredictsFrom C g a r A δ M := by
  intro d b c' r' hd hdδ hb hc'
  have hg := hT.sane
  have hAn := (hg.jacobian _ _ _ _ _ ha hl ha hl hc hA).2
  obtain ⟨k1, k2⟩ := retract_storage hg hE ha hl (hd.trans hAn) hb
  have hbl : b.layout = g.layout := by rw [(manifoldRetract_shape hb).1, hl]
  have hba : IsAssignmentOf C ws b := isAssignment_retract ha hb
  have hdiff : List.zipWith (· - ·) b.storage a.storage = d := by
    rw [k2]
    apply List.ext_getElem
    · simp [k1]
    · intro i i1 i2; simp
  have hdist : storageDist a b = √(sqNorm d) := by
    have hal : a.storage.length = d.length := k1
    have hbl' : b.storage.length = d.length := by rw [k2]; simp [k1]
    rw [storageDist_eq hal hbl', ← eucl_neg, neg_sub, ← vec_sub_list hbl' hal, hdiff]
    unfold eucl
    rw [sqNorm_eq rfl]
  have key := taylor_near hT hE hD hba hbl hc' (hlip b hba hbl) a c r A ha hl (by rw [hdist]; exact hdδ) hc hA
  beta_reduce at key
  rw [hdiff, hdist, Real.sq_sqrt (sqNorm_nonneg _)] at key
  exact key

/-- **C90**, the hypothesis. If the variables have the default retraction, the Jacobian is the derivative of the residual, and it is
Lipschitz continuous with constant `M` in every ball of radius `δ`, then the residual after a step is as predicted up to `M/2 |d|²`. -/
theorem C90_smooth (hT : TotalGraph C g ws) (hE : UsesDefaultRetraction C ws) {m : Nat} (hD : DerivativeGraph C g ws m) {δ M : ℝ}
    (hlip : ∀ e, IsAssignmentOf C ws e → e.layout = g.layout → LipschitzNear C g ws e δ M) (c₀ : ℝ) : LinearizesWell C g ws c₀ δ M := by
  intro a c r A d b c' r' ha hl hc _ hA hd hdδ hb hc'
  have hg := hT.sane
  have hbl : b.layout = g.layout := by rw [(manifoldRetract_shape hb).1, hl]
  have hba : IsAssignmentOf C ws b := isAssignment_retract ha hb
  obtain ⟨m1, m2⟩ := jac_rows hT hE hD ha hl hc hA
  obtain ⟨A', hA', -⟩ := hT.jacobian b b c' r' hba hbl hba hbl hc'
  obtain ⟨-, m3⟩ := jac_rows hT hE hD hba hbl hc' hA'
  have key := smooth_predicts hT hE hD hlip ha hl hc hA d b c' r' hd hdδ hb hc'
  rw [hg.cost _ _ _ hc', sqNorm_eq (m3.trans m1.symm)]
  obtain ⟨u, hu⟩ : ∃ u, u = cooMatrix A A.shape.1 A.shape.2 *ᵥ Spec.vec d A.shape.2 + Spec.vec r A.shape.1 := ⟨_, rfl⟩
  have e1 : Spec.vec r' A.shape.1 = u + (Spec.vec r' A.shape.1 - Spec.vec r A.shape.1 -
      cooMatrix A A.shape.1 A.shape.2 *ᵥ Spec.vec d A.shape.2) := by rw [hu]; abel
  have e2 := eucl_add_le u (Spec.vec r' A.shape.1 - Spec.vec r A.shape.1 - cooMatrix A A.shape.1 A.shape.2 *ᵥ Spec.vec d A.shape.2)
  rw [← e1] at e2
  have e3 : √(modelCost (cooMatrix A A.shape.1 A.shape.2) (Spec.vec r A.shape.1) (Spec.vec d A.shape.2)) = eucl u := by rw [hu]; rfl
  rw [e3]
  exact e2.trans (by linarith)

end

/-! ### Examples -/

namespace Poly1
open Jaxfg.Poly

/-- The residual `p + q x + s x²` differs from its linearization by `s d²`. -/
theorem linearizesWell (p q s c₀ δ : ℝ) : LinearizesWell Ex.C ((g p q s).ops F Ex.C) [Ex.x] c₀ δ (2 * |s|) := by
  intro a c r A d b c' r' ha hl hc _ hA hd _ hb hc'
  obtain ⟨v, rfl⟩ := at_of ha hl
  rw [Jaxfg.Poly.cost_eq] at hc
  obtain ⟨-, rfl⟩ := Prod.mk.inj (Except.ok.inj hc)
  rw [Jaxfg.Poly.jac_eq] at hA
  cases Except.ok.inj hA
  obtain ⟨e, rfl⟩ := List.length_eq_one_iff.1 hd
  have hb := (retract_eq v e).symm.trans hb
  cases Except.ok.inj hb
  rw [Jaxfg.Poly.cost_eq] at hc'
  obtain ⟨rfl, -⟩ := Prod.mk.inj (Except.ok.inj hc')
  have hm : cooMatrix (⟨[q + 2 * s * v], [0], [0], (1, 1)⟩ : Coo ℝ) 1 1 0 0 = q + 2 * s * v := by simp [cooMatrix, entries]
  have hc : modelCost (cooMatrix (⟨[q + 2 * s * v], [0], [0], (1, 1)⟩ : Coo ℝ) 1 1) (Spec.vec [p + q * v + s * v ^ 2] 1) (Spec.vec [e] 1) =
      ((q + 2 * s * v) * e + (p + q * v + s * v ^ 2)) ^ 2 := by
    have hM : (cooMatrix (⟨[q + 2 * s * v], [0], [0], (1, 1)⟩ : Coo ℝ) 1 1 *ᵥ Spec.vec [e] 1) 0 = (q + 2 * s * v) * e := by
      show ∑ j : Fin 1, _ * _ = _
      rw [Fin.sum_univ_one, hm]
      rfl
    show ∑ i : Fin 1, _ * _ = _
    rw [Fin.sum_univ_one, Pi.add_apply, hM, ← sq]
    rfl
  show √_ ≤ √(modelCost (cooMatrix _ 1 1) (Spec.vec _ 1) (Spec.vec _ 1)) + _
  rw [hc, Real.sqrt_sq_eq_abs, Real.sqrt_sq_eq_abs]
  have e1 : p + q * (v + e) + s * (v + e) ^ 2 = ((q + 2 * s * v) * e + (p + q * v + s * v ^ 2)) + s * e ^ 2 := by ring
  have e2 : |s * e ^ 2| = 2 * |s| / 2 * sqNorm [e] := by
    rw [abs_mul, abs_of_nonneg (sq_nonneg e)]
    simp [sqNorm]
  rw [e1, ← e2]
  exact abs_add_le _ _

theorem isDescent {p q s v r : ℝ} {st : State ℝ} (h1 : st.assignments = at_ v) (h2 : st.residual = [r]) :
    IsDescent ((g p q s).ops F Ex.C) st [(q + 2 * s * v) * -r] :=
  ⟨_, by rw [h1, h2]; exact Jaxfg.Poly.jac_eq p q s v r, by rw [h2]; exact matmul_T_eq _ _⟩

theorem isDescent_unique {G : GraphOps ℝ} {st : State ℝ} {b b' : List ℝ} (h : IsDescent G st b) (h' : IsDescent G st b') : b = b' := by
  obtain ⟨A, h1, h2⟩ := h
  obtain ⟨A', h3, h4⟩ := h'
  rw [h1] at h3
  cases Except.ok.inj h3
  exact Except.ok.inj (h2.symm.trans h4)

theorem sqNorm_single (e : ℝ) : sqNorm [e] = e ^ 2 := by simp [sqNorm]

/-- A case of `C90_levenberg_marquardt`: Levenberg-Marquardt with CHOLMOD on the residual `p + q x + s x²`, from an initial point where
the gradient is not zero, with `lambda_initial ≥ 4 |s (p + q v + s v²)|`. The first step returns and is accepted. -/
example (stale : Pattern → ScipyCoo ℝ → ℝ → List ℝ → Py (List ℝ)) (addr : Nat) (p q s v lam : ℝ)
    (hgrad : (q + 2 * s * v) * (p + q * v + s * v ^ 2) ≠ 0) (hlam : 4 * |s| * |p + q * v + s * v ^ 2| ≤ lam) :
    let S := { LevenbergMarquardt.defaults (chol stale addr) with lambdaInitial := lam }
    ∃ (st : LMState Ext) (o : LMState ℝ) (log : List (Msg Ext)), S.lift.init (gE p q s) ((at_ v).map fin) = .ok st ∧
      S.lift.step CE (gE p q s) st = .ok (o.map fin, log) ∧ o.cost < (p + q * v + s * v ^ 2) ^ 2 := by
  intro S
  obtain ⟨r, hr⟩ : ∃ r, r = p + q * v + s * v ^ 2 := ⟨_, rfl⟩
  have hlam0 : 0 ≤ lam := le_trans (by positivity) hlam
  have hcost := Jaxfg.Poly.cost_eq p q s v
  rw [← hr] at hcost hlam hgrad ⊢
  have hinit : S.lift.init (gE p q s) ((at_ v).map fin) = .ok (LMState.map fin ⟨⟨0, at_ v, r ^ 2, [r], false⟩, lam⟩) :=
    (lmInit_fin (lifts p q s) (liftsLM_lift S)).2 ⟨_, _, hcost, rfl⟩
  obtain ⟨conv, log, hstep⟩ := lm_step stale addr S rfl (by show (2 : ℝ) ≠ 0; norm_num) p q s 0 (v := v) (c := r ^ 2) (r := r) (lam := lam)
    false hlam0 rfl rfl rfl rfl _ rfl
  have hl1 : 0 < lam + 1 / 100000 := by linarith
  obtain ⟨o, e1, -, -, -, -, e2⟩ := C90_levenberg_marquardt (ν := fun l => l + 1 / 100000) (δ := √(r ^ 2 / (4 * (lam + 1 / 100000))))
    (M := 2 * |s|) (lifts p q s) (Jaxfg.Poly.sane p q s) (liftsLM_lift S) (by show (0 : ℝ) < 2; norm_num)
    (by show (0 : ℝ) < 1 / 1000; norm_num) (by show (1 / 1000 : ℝ) ≤ 1; norm_num) hlam0
    (cholmod_graph (Jaxfg.Poly.sane p q s) stale addr)
    (fun a a' c r A h1 h2 h3 h4 h5 h6 => C90_cholmod stale .empty addr ((Jaxfg.Poly.sane p q s).jacobian a a' c r A h1 h2 h3 h4 h5 h6).1
      (fun p hp => by cases hp)) (Jaxfg.Poly.at_assignment v) rfl hcost (by positivity) (Real.sqrt_nonneg _)
    (linearizesWell p q s _ _) (k := 1) (fun j hj => by
      obtain rfl : j = 0 := by omega
      have e : S.lambdaInitial / S.lambdaFactor ^ 0 = lam := by simp [S]
      simp only [e]
      refine ⟨hl1, ?_, ?_⟩
      · rw [Real.sq_sqrt (by positivity)]
        field_simp
        rfl
      · rw [Real.sqrt_sq_eq_abs]
        show _ ≤ (lam + 1 / 100000) * (1 - 1 / 1000)
        have := abs_nonneg s
        nlinarith)
    hinit (.step (.refl _) rfl hstep) (fun j hj w l b hu hb => by
      obtain rfl : j = 0 := by omega
      generalize hw : w.map fin = w' at hu
      cases hu
      obtain rfl := lmState_map_inj hw
      rw [isDescent_unique hb (isDescent (v := v) (r := r) rfl rfl), sqNorm_single]
      refine pow_ne_zero _ fun h0 => hgrad ?_
      linarith)
  refine ⟨_, o, log, hinit, ?_, e2 one_pos⟩
  rw [← e1]
  exact hstep

/-- A case of `C90_dogleg_step`: the residual `1 + x + x²/10` at `x = 0`, with CHOLMOD and default settings but for a radius of at
most 1. -/
example (stale : Pattern → ScipyCoo ℝ → ℝ → List ℝ → Py (List ℝ)) (addr : Nat) (ρ : ℝ) (hρ : 0 < ρ) (hρ1 : ρ ≤ 1) (st' log)
    (hstep : (Dogleg.defaults (chol stale addr)).lift.step CE (gE 1 1 (1 / 10))
      (DoglegState.map fin ⟨⟨0, at_ 0, 1, [1], false⟩, ρ⟩) = .ok (st', log)) :
    ∃ o : DoglegState ℝ, st' = o.map fin ∧ o.cost < 1 := by
  have hcost := Jaxfg.Poly.cost_eq 1 1 (1 / 10) 0
  rw [show (1 : ℝ) + 1 * 0 + 1 / 10 * 0 ^ 2 = 1 by norm_num, one_pow] at hcost
  have hdesc : IsDescent ((g 1 1 (1 / 10)).ops F Ex.C) ⟨0, at_ 0, 1, [1], false⟩ [(1 + 2 * (1 / 10) * 0) * -1] := isDescent rfl rfl
  have hab : |(1 / 10 : ℝ)| = 1 / 10 := abs_of_pos (by norm_num)
  have hsq : sqNorm [(1 + 2 * (1 / 10) * 0) * -1] = (1 : ℝ) := by rw [sqNorm_single]; norm_num
  have hsane := Jaxfg.Poly.sane 1 1 (1 / 10)
  obtain ⟨o, e1, e2, -⟩ := C90_dogleg_step (μ := fun l => l + 1 / 100000) (κ := 1) (M := 2 * |1 / 10|) (δ := 1) (c₀ := 1) (lifts 1 1 (1 / 10))
    hsane (liftsDogleg_lift _) (by show (0 : ℝ) < 1 / 1000; norm_num) (cholmod_graph hsane stale addr) (by norm_num)
    (fun a a' c r A h1 h2 h3 h4 h5 h6 => C70_cholmod stale .empty addr (hsane.jacobian a a' c r A h1 h2 h3 h4 h5 h6).1
      (fun p hp => by cases hp)) (p := ⟨⟨0, at_ 0, 1, [1], false⟩, ρ⟩)
    ⟨Jaxfg.Poly.at_assignment 0, rfl, ⟨[1], hcost⟩, ⟨at_ 0, 1, Jaxfg.Poly.at_assignment 0, rfl, hcost⟩⟩
    (fun A hA => by
      have hA := (Jaxfg.Poly.jac_eq 1 1 (1 / 10) 0 1).symm.trans hA
      cases Except.ok.inj hA
      intro y
      have hm : cooMatrix (⟨[1 + 2 * (1 / 10) * 0], [0], [0], (1, 1)⟩ : Coo ℝ) 1 1 0 0 = 1 := by simp [cooMatrix, entries]
      have hM : (cooMatrix (⟨[1 + 2 * (1 / 10) * 0], [0], [0], (1, 1)⟩ : Coo ℝ) 1 1 *ᵥ y) 0 = y 0 := by
        show ∑ j : Fin 1, _ * _ = _
        rw [Fin.sum_univ_one, hm, one_mul]
      show ∑ i : Fin 1, _ * _ ≤ 1 * (∑ i : Fin 1, y i * y i)
      rw [Fin.sum_univ_one, Fin.sum_univ_one, hM, one_mul])
    (by norm_num) hρ hcost (by positivity) (linearizesWell _ _ _ _ _) le_rfl hρ1 hdesc (by rw [hsq]; norm_num)
    (by
      rw [hsq, hab]
      show ρ * (2 * (1 / 10) * √1 + (2 * (1 / 10)) ^ 2 / 4 * ρ ^ 2) ≤ (1 - 1 / 1000) * √1
      rw [Real.sqrt_one]
      nlinarith [pow_le_one₀ hρ.le hρ1 (n := 3)])
    (by
      rw [hsq, hab]
      show ρ ^ 2 * (2 * (1 / 10) * √1 + (2 * (1 / 10)) ^ 2 / 4 * ρ ^ 2) * (1 + (0 + 1 / 100000)) ≤ (1 - 1 / 1000) * 1
      rw [Real.sqrt_one]
      nlinarith [pow_le_one₀ hρ.le hρ1 (n := 2), pow_le_one₀ hρ.le hρ1 (n := 4)]) hstep
  exact ⟨o, e1, e2⟩

/-- A case of `C90_gradient`: the residual `p + q x`, any number of steps. -/
example (stale : Pattern → ScipyCoo ℝ → ℝ → List ℝ → Py (List ℝ)) (addr : Nat) (p q v ε : ℝ) (hε : 0 ≤ ε) (k : Nat) (st st' log)
    (hk : 1000 * (q ^ 2 + 51 / 100000) * (p + q * v) ^ 2 < k * ε ^ 2)
    (hi : (LevenbergMarquardt.defaults (chol stale addr)).lift.init (gE p q 0) ((at_ v).map fin) = .ok st)
    (hr : Runs (fun s => s.done) ((LevenbergMarquardt.defaults (chol stale addr)).lift.step CE (gE p q 0)) k st st' log) :
    ∃ j < k, ∃ (u : LMState ℝ) (l : List (Msg Ext)) (b : List ℝ),
      Runs (fun s => s.done) ((LevenbergMarquardt.defaults (chol stale addr)).lift.step CE (gE p q 0)) j st (u.map fin) l ∧
      IsDescent ((g p q 0).ops F Ex.C) u.toState b ∧ √(sqNorm b) < ε := by
  have hsane := Jaxfg.Poly.sane p q 0
  have hcost := Jaxfg.Poly.cost_eq p q 0 v
  rw [show p + q * v + 0 * v ^ 2 = p + q * v by ring] at hcost
  have hchol : ∀ {P : Coo ℝ → Prop}, (∀ A, CooWF A → P A) → AllJacobians Ex.C ((g p q 0).ops F Ex.C) [Ex.x] P :=
    fun hP a a' c r A h1 h2 h3 h4 h5 h6 => hP A (hsane.jacobian a a' c r A h1 h2 h3 h4 h5 h6).1
  obtain ⟨j, hj, u, l, b, h1, h2, -, h3⟩ := C90_gradient (ν := fun l => l + 1 / 100000) (μ := fun l => l + 1 / 100000) (μ₀ := 51 / 100000)
    (κ := q ^ 2) (M := 2 * |0|) (δ := √((p + q * v) ^ 2 * 25000)) (lifts p q 0) hsane zeroRetract
    (liftsLM_lift (LevenbergMarquardt.defaults (chol stale addr))) (by show (1 : ℝ) ≤ 2; norm_num)
    (by show (0 : ℝ) < 1 / 1000; norm_num) (by show (1 / 1000 : ℝ) ≤ 1; norm_num) (by show (0 : ℝ) ≤ 1 / 2000; norm_num)
    (cholmod_graph hsane stale addr) (hchol fun A hA => C90_cholmod stale .empty addr hA (fun p hp => by cases hp))
    (hchol fun A hA => C70_cholmod stale .empty addr hA (fun p hp => by cases hp))
    (fun l _ hl => by
      have hl : l ≤ 1 / 2000 := hl
      show l + 1 / 100000 ≤ 51 / 100000
      linarith) (by positivity) (soft p q) (Jaxfg.Poly.at_assignment v) rfl hcost (by positivity) (Real.sqrt_nonneg _)
    (linearizesWell p q 0 _ _) (fun j _ => by
      have e : (0 : ℝ) ≤ (LevenbergMarquardt.defaults (chol stale addr)).lambdaInitial /
          (LevenbergMarquardt.defaults (chol stale addr)).lambdaFactor ^ j := by
        show (0 : ℝ) ≤ 1 / 2000 / 2 ^ j
        positivity
      obtain ⟨n, hn⟩ : ∃ n, n = (LevenbergMarquardt.defaults (chol stale addr)).lambdaInitial /
          (LevenbergMarquardt.defaults (chol stale addr)).lambdaFactor ^ j := ⟨_, rfl⟩
      rw [← hn] at e ⊢
      refine ⟨by show 0 < n + 1 / 100000; linarith, ?_, ?_⟩
      · rw [Real.sq_sqrt (by positivity)]
        show _ ≤ 4 * (n + 1 / 100000) * _
        nlinarith [sq_nonneg (p + q * v), mul_nonneg e (sq_nonneg (p + q * v))]
      · rw [abs_zero, mul_zero, zero_mul]
        show 0 ≤ (n + 1 / 100000) * (1 - 1 / 1000)
        nlinarith) hi hr hε (by
      show (q ^ 2 + 51 / 100000) * (p + q * v) ^ 2 < k * (1 / 1000 * ε ^ 2)
      linarith)
  exact ⟨j, hj, u, l, b, h1, h2, h3⟩

end Poly1

end Jaxfg.Props
