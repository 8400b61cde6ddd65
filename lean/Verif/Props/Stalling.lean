/-
Property C95: whether Levenberg-Marquardt approaches stationary points. See Verif.Props.SolverReal for the setting: real arithmetic,
inside a program that also knows infinities and NaNs.
-/
import Verif.Lemmas.ExampleStall
import Verif.Props.Decrease
import Verif.Spec.DoglegLimit

namespace Jaxfg.Props
open Spec
open Ext (fin)

/-- Levenberg-Marquardt with default damping and CHOLMOD, at most `N` iterations and no other stopping test. -/
noncomputable def untilExhausted (stale : Pattern → ScipyCoo ℝ → ℝ → List ℝ → Py (List ℝ)) (addr : Nat) (N : Int) : LevenbergMarquardt ℝ :=
  { LevenbergMarquardt.defaults (Poly.chol stale addr) with
    maxIterations := N, costTolerance := 0, gradientTolerance := 0, parameterTolerance := 0 }

section
open Stall Curve
open Poly (at_)
variable (stale : Pattern → ScipyCoo ℝ → ℝ → List ℝ → Py (List ℝ)) (addr : Nat)

/-- The states after an even number of steps. -/
theorem stall_even {e : ℝ} (he : 0 < e) (he' : e ≤ 1 / 4000) {N : Int} (hN : 1 ≤ N) (m : Nat) (hm : 2 * (m : Int) ≤ N) :
    ∃ log, Runs (fun s => s.done) ((untilExhausted stale addr N).lift.step CE (gE u w)) (2 * m)
      (LMState.map fin ⟨⟨0, at_ (1 + e), (1 + e) ^ 2, [1 + e, 0], false⟩, 1 / 2000⟩)
      (LMState.map fin ⟨⟨2 * m, at_ (1 + e / 2 ^ m), (1 + e / 2 ^ m) ^ 2, [1 + e / 2 ^ m, 0], decide (N ≤ 2 * m)⟩, 1 / 2000⟩) log := by
  induction m with
  | zero =>
    have : ¬ N ≤ 0 := by omega
    simp only [pow_zero, div_one, Nat.cast_zero, mul_zero, this, decide_false]
    exact ⟨_, .refl _⟩
  | succ m ih =>
    obtain ⟨log, hr⟩ := ih (by push_cast at hm; omega)
    have hp : (1 : ℝ) ≤ 2 ^ m := one_le_pow₀ (by norm_num)
    have h1 : 0 < e / 2 ^ m := by positivity
    have h2 : e / 2 ^ m ≤ 1 / 4000 := (div_le_self he.le hp).trans he'
    have hd : ¬ N ≤ 2 * m := by push_cast at hm; omega
    simp only [hd, decide_false] at hr
    obtain ⟨l1, s1⟩ := step_rejected stale addr (untilExhausted stale addr N) rfl rfl (by show (1 / 100000 : ℝ) ≤ _; norm_num)
      (by show (1 / 1000 : ℝ) ≤ 10000000000; norm_num) rfl h1 h2 (2 * m) false
    have hd1 : ¬ (N - 1 ≤ ((2 * m : Nat) : Int)) := by push_cast at hm ⊢; omega
    have e1 : (untilExhausted stale addr N).maxIterations = N := rfl
    rw [e1] at s1
    simp only [hd1, decide_false] at s1
    obtain ⟨conv, l2, hc, s2⟩ := step_accepted stale addr (untilExhausted stale addr N) rfl rfl rfl h1 h2 (2 * m + 1) false
    have hconv : conv = false := by
      rw [Bool.eq_false_iff, ne_eq, hc]
      rintro (⟨-, h⟩ | ⟨-, mv, h3, h4⟩ | h)
      · have h : _ < (0 : ℝ) := h
        have : (0 : ℝ) ≤ |(1 + e / 2 ^ m / 2) ^ 2 - (1 + e / 2 ^ m) ^ 2| / (1 + e / 2 ^ m) ^ 2 := by positivity
        exact absurd h (not_lt.2 this)
      · have h3' : (at_ (1 + e / 2 ^ m)).manifoldRetract Ex.C ⟨[-(100101 / 200000 * (e / 2 ^ m))], Poly.llay⟩ = .ok mv := h3
        rw [Poly.retract_eq] at h3'
        cases Except.ok.inj h3'
        have : _ < (0 : ℝ) := h4 (1 + e / 2 ^ m - (1 + e / 2 ^ m + -(100101 / 200000 * (e / 2 ^ m)))) (by simp [at_])
        linarith
      · have h : _ < (_ + (0 : ℝ)) * 0 := h
        rw [mul_zero] at h
        exact absurd h (not_lt.2 (Real.sqrt_nonneg _))
    rw [hconv, e1] at s2
    have hd2 : decide (N - 1 ≤ ((2 * m + 1 : Nat) : Int)) = decide (N ≤ 2 * ((m + 1 : Nat) : Int)) := by
      congr 1; push_cast; exact propext (by omega)
    rw [hd2, Bool.or_false] at s2
    refine ⟨log ++ l1 ++ l2, ?_⟩
    have e2 : e / 2 ^ m / 2 = e / 2 ^ (m + 1) := by rw [pow_succ, div_div]
    rw [e2] at s2
    exact .step (.step hr rfl s1) rfl s2

/-- **C95 is false of the code.** There is a problem with one scalar variable and two infinitely differentiable residuals on which
Levenberg-Marquardt, with default damping and without stopping tests, converges to a point that is not stationary: from `1 + e` it goes to
`1 + e / 2^(N / 2)` in `N` iterations, for any `N`, and the gradient of half the cost at `x ≥ 1` is `x`. Every second step is computed
from the residual of a rejected point. -/
theorem C95_stalls : ∃ u w : ℝ → ℝ, ContDiff ℝ (⊤ : ℕ∞) u ∧ ContDiff ℝ (⊤ : ℕ∞) w ∧ ∃ G, Graph.make Ex.C [Curve.f] = .ok G ∧
    FactorWF (Curve.F u w) Ex.C Curve.f ∧ ∃ CE gE, Lifts CE gE Ex.C (G.ops (Curve.F u w) Ex.C) ∧
    (∀ x, (G.ops (Curve.F u w) Ex.C).computeCost (at_ x) = .ok (u x ^ 2 + w x ^ 2, [u x, w x])) ∧
    (∀ x, 1 ≤ x → GradientAt (G.ops (Curve.F u w) Ex.C) (at_ x) [x]) ∧
    ∀ N : Int, 1 ≤ N → ∃ sE, LiftsLM sE (untilExhausted stale addr N) ∧ ∀ e : ℝ, 0 < e → e ≤ 1 / 4000 → ∃ log, ∀ fuel : Nat, N ≤ fuel →
      sE.solve CE gE fuel ((at_ (1 + e)).map fin) = .ok (some ((at_ (1 + e / 2 ^ (N / 2).toNat)).map fin, log)) := by
  refine ⟨Stall.u, Stall.w, u_smooth, w_smooth, Curve.g, Curve.make_eq, f_wf _ _, CE, gE Stall.u Stall.w, lifts _ _, cost_eq _ _, fun x hx => ?_,
    fun N hN => ⟨_, liftsLM_lift _, fun e he he' => ?_⟩⟩
  · obtain ⟨d1, d2⟩ := deriv_right (x := x) (by linarith)
    refine ⟨_, _, _, cost_eq _ _ x, jac_eq _ _ x _ _, ?_⟩
    rw [d1, d2, matmul_T_eq, u_right (by linarith)]
    simp
  · obtain ⟨m, hm⟩ : ∃ m : Nat, m = (N / 2).toNat := ⟨_, rfl⟩
    rw [← hm]
    have hm1 : 2 * (m : Int) ≤ N := by omega
    obtain ⟨log, hr⟩ := stall_even stale addr he he' hN m hm1
    have hinit : (untilExhausted stale addr N).lift.init (gE Stall.u Stall.w) ((at_ (1 + e)).map fin) =
        .ok (LMState.map fin ⟨⟨0, at_ (1 + e), (1 + e) ^ 2, [1 + e, 0], false⟩, 1 / 2000⟩) :=
      (lmInit_fin (lifts _ _) (liftsLM_lift _)).2 ⟨(1 + e) ^ 2, [1 + e, 0], by
        rw [cost_eq, u_right (by linarith), w_right (by linarith)]; norm_num, rfl⟩
    have hup : ∀ y : ℝ, ((at_ y).map fin).updateStorageLayout CE ((at_ (1 + e)).map fin).layout = .ok ((at_ y).map fin) := fun y => rfl
    have key : ∃ l st', (∃ k : Nat, (k : Int) ≤ N ∧ Runs (fun s => s.done) ((untilExhausted stale addr N).lift.step CE (gE Stall.u Stall.w)) k
        (LMState.map fin ⟨⟨0, at_ (1 + e), (1 + e) ^ 2, [1 + e, 0], false⟩, 1 / 2000⟩) st' l) ∧ st'.done = true ∧
        st'.assignments = (at_ (1 + e / 2 ^ m)).map fin := by
      by_cases hd : N ≤ 2 * m
      · exact ⟨_, _, ⟨2 * m, by push_cast; omega, hr⟩, by simpa [LMState.map, State.map] using hd, rfl⟩
      · simp only [hd, decide_false] at hr
        have hp : (1 : ℝ) ≤ 2 ^ m := one_le_pow₀ (by norm_num)
        obtain ⟨l1, s1⟩ := step_rejected stale addr (untilExhausted stale addr N) rfl rfl (by show (1 / 100000 : ℝ) ≤ _; norm_num)
          (by show (1 / 1000 : ℝ) ≤ 10000000000; norm_num) rfl (e := e / 2 ^ m) (by positivity) ((div_le_self he.le hp).trans he') (2 * m) false
        refine ⟨_, _, ⟨2 * m + 1, by push_cast; omega, .step hr rfl s1⟩, ?_, rfl⟩
        have : (untilExhausted stale addr N).maxIterations - 1 ≤ ((2 * m : Nat) : Int) := by
          show N - 1 ≤ _
          push_cast; omega
        exact decide_eq_true this
    obtain ⟨l, st', ⟨k, hk, hruns⟩, hdone, hst⟩ := key
    refine ⟨_, fun fuel hf => baseSolve_some.2 ⟨_, _, st', l, hup _, hinit, ?_, by rw [hst]; exact hup _, rfl⟩⟩
    have := whileLoop_of_runs (done := fun s : LMState Ext => s.done) hruns (fuel := fuel) (by omega) (p := some (st', [])) (by
      cases h : fuel - k <;> simp [whileLoop, hdone])
    simpa using this

/-- **C95 is false of the code** with all settings at their defaults as well: from `1 + 1 / 200000` the solver stops by the cost test
after two of its 100 iterations, at `1 + 1 / 400000`, where the gradient of half the cost is above 1. The first step is rejected, and the
second one is computed from its residual. -/
theorem C95_early_stop : ∃ u w : ℝ → ℝ, ContDiff ℝ (⊤ : ℕ∞) u ∧ ContDiff ℝ (⊤ : ℕ∞) w ∧ ∃ G, Graph.make Ex.C [Curve.f] = .ok G ∧
    FactorWF (Curve.F u w) Ex.C Curve.f ∧ ∃ CE gE, Lifts CE gE Ex.C (G.ops (Curve.F u w) Ex.C) ∧
    GradientAt (G.ops (Curve.F u w) Ex.C) (at_ (1 + 1 / 400000)) [1 + 1 / 400000] ∧
    ∃ sE, LiftsLM sE (LevenbergMarquardt.defaults (Poly.chol stale addr)) ∧ ∃ st st' log,
      sE.init gE ((at_ (1 + 1 / 200000)).map fin) = .ok st ∧ Runs (fun s => s.done) (sE.step CE gE) 2 st st' log ∧ st'.done = true ∧
      ∀ fuel : Nat, 2 ≤ fuel → ∃ log,
        sE.solve CE gE fuel ((at_ (1 + 1 / 200000)).map fin) = .ok (some ((at_ (1 + 1 / 400000)).map fin, log)) := by
  refine ⟨Stall.u, Stall.w, u_smooth, w_smooth, Curve.g, Curve.make_eq, f_wf _ _, CE, gE Stall.u Stall.w, lifts _ _, ?_, _, liftsLM_lift _, ?_⟩
  · obtain ⟨d1, d2⟩ := deriv_right (x := 1 + 1 / 400000) (by norm_num)
    refine ⟨_, _, _, cost_eq _ _ _, jac_eq _ _ _ _ _, ?_⟩
    rw [d1, d2, matmul_T_eq, u_right (by norm_num)]
    simp
  · obtain ⟨S, hS⟩ : ∃ S, S = LevenbergMarquardt.defaults (Poly.chol stale addr) := ⟨_, rfl⟩
    have hinit : S.lift.init (gE Stall.u Stall.w) ((at_ (1 + 1 / 200000)).map fin) =
        .ok (LMState.map fin ⟨⟨0, at_ (1 + 1 / 200000), (1 + 1 / 200000) ^ 2, [1 + 1 / 200000, 0], false⟩, 1 / 2000⟩) :=
      (lmInit_fin (lifts _ _) (liftsLM_lift _)).2 ⟨(1 + 1 / 200000) ^ 2, [1 + 1 / 200000, 0], by
        rw [cost_eq, u_right (by norm_num), w_right (by norm_num)]; norm_num, by rw [hS]; rfl⟩
    have hup : ∀ y : ℝ, ((at_ y).map fin).updateStorageLayout CE ((at_ (1 + 1 / 200000)).map fin).layout = .ok ((at_ y).map fin) :=
      fun y => rfl
    obtain ⟨l1, s1⟩ := step_rejected stale addr S (by rw [hS]; rfl) (by rw [hS]; rfl) (by rw [hS]; show (1 / 100000 : ℝ) ≤ _; norm_num)
      (by rw [hS]; show (1 / 1000 : ℝ) ≤ 10000000000; norm_num) (by rw [hS]; rfl) (e := 1 / 200000) (by norm_num) (by norm_num) 0 false
    obtain ⟨conv, l2, hc, s2⟩ := step_accepted stale addr S (by rw [hS]; rfl) (by rw [hS]; rfl) (by rw [hS]; rfl) (e := 1 / 200000)
      (by norm_num) (by norm_num) 1 (decide (S.maxIterations - 1 ≤ ((0 : Nat) : Int)))
    have hconv : conv = true := hc.2 (.inl ⟨by norm_num, by
      rw [hS]
      show _ < (1 / 100000 : ℝ)
      rw [abs_of_neg (by norm_num)]
      norm_num⟩)
    have hd : decide (S.maxIterations - 1 ≤ ((0 : Nat) : Int)) = false := by rw [hS]; exact decide_eq_false (by show ¬ ((100 : Int) - 1 ≤ 0); decide)
    rw [hconv, Bool.or_true] at s2
    have e2 : (1 + 1 / 200000 / 2 : ℝ) = 1 + 1 / 400000 := by norm_num
    rw [e2] at s2
    have hr := Runs.step (done := fun s : LMState Ext => s.done) (.step (.refl _) rfl s1) hd s2
    rw [← hS]
    refine ⟨_, _, _, hinit, hr, rfl, fun fuel hf => ?_⟩
    have hw := whileLoop_of_runs (done := fun s : LMState Ext => s.done) hr (fuel := fuel) hf (p := some (_, [])) (by
      cases h : fuel - 2 <;> rfl)
    exact ⟨_, baseSolve_some.2 ⟨_, _, _, _, hup _, hinit, hw, hup _, rfl⟩⟩

end

/-! ### What holds -/

section
variable {CE : Ty → VarClass Ext} {gE : GraphOps Ext} {C : Ty → VarClass ℝ} {g : GraphOps ℝ} {ws : List Var}

/-- Step `j` of the sequence `p` starts from the residual of its assignments, is accepted, and has damping of at most `Λ`. -/
structure SoundStep (g : GraphOps ℝ) (p : Nat → LMState ℝ) (Λ : ℝ) (j : Nat) : Prop where
  current : g.computeCost (p j).assignments = .ok ((p j).cost, (p j).residual)
  accepted : (p (j + 1)).assignments ≠ (p j).assignments
  damping : (p j).lambd ≤ Λ

/-- Among any steps of a run in which the cost never rises, `n` sound ones where the gradient is `ε` or more have
`n step_quality_min ε² ≤ (κ + μ₀) c₀`. Other steps may lie between them, rejected ones and ones from a stale residual. -/
theorem C95_count_partial (h : Lifts CE gE C g) (hg : SaneGraph C g ws) (hz : ZeroRetract C)
    {sE : LevenbergMarquardt Ext} {s : LevenbergMarquardt ℝ} (hs : LiftsLM sE s) (hf : 0 < s.lambdaFactor) (hq : 0 < s.stepQualityMin)
    (hl0 : 0 ≤ s.lambdaInitial) (hlm : 0 ≤ s.lambdaMin) (hL : AllJacobians C g ws (SolvesRegular s.linear)) {μ : ℝ → ℝ}
    (hD : AllJacobians C g ws (DampedUpTo μ s.linear)) {Λ μ₀ : ℝ} (hμ : ∀ l, 0 ≤ l → l ≤ Λ → μ l ≤ μ₀) {κ : ℝ}
    (hκ0 : 0 ≤ κ + μ₀) (hκ : AllJacobians C g ws (SoftAtMost κ)) {p : Nat → LMState ℝ}
    (ha : IsAssignmentOf C ws (p 0).assignments) (hl : (p 0).assignments.layout = g.layout)
    (hi : sE.init gE ((p 0).assignments.map fin) = .ok ((p 0).map fin)) {k : Nat}
    (hstep : ∀ j < k, ∃ log, sE.step CE gE ((p j).map fin) = .ok ((p (j + 1)).map fin, log))
    (hmono : ∀ j < k, (p (j + 1)).cost ≤ (p j).cost) {I : Finset Nat} (hI : ∀ j ∈ I, j < k ∧ SoundStep g p Λ j)
    {ε : ℝ} (hε : 0 ≤ ε) (hbig : ∀ j ∈ I, ∀ b, IsDescent g (p j).toState b → ε ≤ √(sqNorm b)) :
    I.card * (s.stepQualityMin * ε ^ 2) ≤ (κ + μ₀) * (p 0).cost := by
  obtain ⟨c₀, r₀, hc₀, hst⟩ := (lmInit_fin h hs).1 hi
  have hst := lmState_map_inj hst
  have H : ∀ n ≤ k, GoodState C g ws (p n).toState ∧ 0 ≤ (p n).lambd ∧
      (I.filter (· < n)).card * (s.stepQualityMin * ε ^ 2) ≤ (κ + μ₀) * ((p 0).cost - (p n).cost) := by
    intro n
    induction n with
    | zero =>
      intro _
      refine ⟨?_, by rw [hst]; exact hl0, by simp⟩
      have hc : g.computeCost (p 0).assignments = .ok ((p 0).cost, (p 0).residual) := by
        rw [hc₀]; rw [hst]
      exact ⟨ha, hl, ⟨_, hc⟩, _, _, ha, hl, hc⟩
    | succ n ih =>
      intro hn
      obtain ⟨hgood, hlam, hsum⟩ := ih (by omega)
      obtain ⟨log, hs'⟩ := hstep n (by omega)
      have hm := hmono n (by omega)
      obtain ⟨A, ATb, d, b, c, r, As, acc, conv, h1, h2, h3, h4, h5, h6, h7, h8, -, h9, -⟩ := (lmStep_fin h hs hf.ne').1 hs'
      have h9 := lmState_map_inj h9
      refine ⟨hgood.next h4 h5 acc (by rw [h9]; rfl) (by rw [h9]; rfl) (by rw [h9]; rfl), ?_, ?_⟩
      · rw [h9]
        show 0 ≤ nextLambda s acc (p n).lambd
        unfold nextLambda
        split
        · exact div_nonneg hlam hf.le
        · exact le_max_of_le_left hlm
      · by_cases hnI : n ∈ I
        · obtain ⟨-, hsound⟩ := hI n hnI
          have hcard : (I.filter (· < n + 1)).card = (I.filter (· < n)).card + 1 := by
            have : I.filter (· < n + 1) = insert n (I.filter (· < n)) := by
              ext x
              simp only [Finset.mem_filter, Finset.mem_insert]
              constructor
              · rintro ⟨hx, hx'⟩
                rcases Nat.lt_succ_iff_lt_or_eq.1 hx' with h | h
                · exact .inr ⟨hx, h⟩
                · exact .inl h
              · rintro (rfl | ⟨hx, hx'⟩)
                · exact ⟨hnI, by omega⟩
                · exact ⟨hx, by omega⟩
            rw [this, Finset.card_insert_of_notMem (by simp)]
          obtain ⟨q2, b', e0, hb, hcase⟩ := C86_levenberg_marquardt_step h hg hz hs hf.ne' hq hL hD hκ hgood hlam hsound.current hs'
          have e0 := lmState_map_inj e0
          subst e0
          rcases hcase with ⟨e1, -⟩ | ⟨e1, e2, -, -⟩
          · exact absurd e1 hsound.accepted
          · have hb2 : ε ^ 2 ≤ sqNorm b' := by
              have := pow_le_pow_left₀ hε (hbig n hnI _ hb) 2
              rwa [Real.sq_sqrt (sqNorm_nonneg _)] at this
            have g1 := mul_le_mul_of_nonneg_left hb2 hq.le
            have g2 : (κ + μ (p n).lambd) * ((p n).cost - (p (n + 1)).cost) ≤ (κ + μ₀) * ((p n).cost - (p (n + 1)).cost) :=
              mul_le_mul_of_nonneg_right (by linarith [hμ _ hlam hsound.damping]) (by linarith)
            rw [hcard]
            push_cast
            linarith
        · have hsame : I.filter (· < n + 1) = I.filter (· < n) := by
            apply Finset.filter_congr
            intro x hx
            have : x ≠ n := fun e => hnI (e ▸ hx)
            omega
          rw [hsame]
          have := mul_le_mul_of_nonneg_left hm hκ0
          linarith
  obtain ⟨hgood, -, hsum⟩ := H k le_rfl
  have hall : I.filter (· < k) = I := Finset.filter_true_of_mem fun j hj => (hI j hj).1
  rw [hall] at hsum
  obtain ⟨r, hr⟩ := hgood.cost
  have hq0 : 0 ≤ (p k).cost := by rw [hg.cost _ _ _ hr]; exact sqNorm_nonneg _
  have := mul_nonneg hκ0 hq0
  linarith

/-- **C95**, what holds: in an endless run in which the cost never rises, and that has sound steps again and again, the gradient at the
sound steps comes below any `ε`. Missing: runs whose accepted steps are all computed from residuals of rejected points
(`C95_stalls`), and runs in which such a step raises the cost (C43). -/
theorem C95_stationary_partial (h : Lifts CE gE C g) (hg : SaneGraph C g ws) (hz : ZeroRetract C)
    {sE : LevenbergMarquardt Ext} {s : LevenbergMarquardt ℝ} (hs : LiftsLM sE s) (hf : 0 < s.lambdaFactor) (hq : 0 < s.stepQualityMin)
    (hl0 : 0 ≤ s.lambdaInitial) (hlm : 0 ≤ s.lambdaMin) (hL : AllJacobians C g ws (SolvesRegular s.linear)) {μ : ℝ → ℝ}
    (hD : AllJacobians C g ws (DampedUpTo μ s.linear)) {Λ μ₀ : ℝ} (hμ : ∀ l, 0 ≤ l → l ≤ Λ → μ l ≤ μ₀) {κ : ℝ}
    (hκ0 : 0 ≤ κ + μ₀) (hκ : AllJacobians C g ws (SoftAtMost κ)) {p : Nat → LMState ℝ}
    (ha : IsAssignmentOf C ws (p 0).assignments) (hl : (p 0).assignments.layout = g.layout)
    (hi : sE.init gE ((p 0).assignments.map fin) = .ok ((p 0).map fin))
    (hstep : ∀ j, ∃ log, sE.step CE gE ((p j).map fin) = .ok ((p (j + 1)).map fin, log))
    (hmono : ∀ j, (p (j + 1)).cost ≤ (p j).cost) (hinf : ∀ n, ∃ j, n ≤ j ∧ SoundStep g p Λ j) {ε : ℝ} (hε : 0 < ε) (n : Nat) :
    ∃ j, n ≤ j ∧ SoundStep g p Λ j ∧ ∃ b, IsDescent g (p j).toState b ∧ √(sqNorm b) < ε := by
  by_contra hno
  have hbig : ∀ j, n ≤ j → SoundStep g p Λ j → ∀ b, IsDescent g (p j).toState b → ε ≤ √(sqNorm b) := by
    intro j hj hsd b hb
    by_contra hlt
    exact hno ⟨j, hj, hsd, b, hb, not_le.1 hlt⟩
  have hset : {j | n ≤ j ∧ SoundStep g p Λ j}.Infinite := by
    refine Set.infinite_of_not_bddAbove ?_
    rintro ⟨m, hm⟩
    obtain ⟨j, hj, hsd⟩ := hinf (n + m + 1)
    have : j ≤ m := hm ⟨by omega, hsd⟩
    omega
  have hpos : 0 < s.stepQualityMin * ε ^ 2 := by positivity
  obtain ⟨N, hN⟩ := exists_nat_gt ((κ + μ₀) * (p 0).cost / (s.stepQualityMin * ε ^ 2))
  obtain ⟨I, hI, hcard⟩ := hset.exists_subset_card_eq N
  have hI' : ∀ j ∈ I, n ≤ j ∧ SoundStep g p Λ j := fun j hj => hI hj
  have := C95_count_partial h hg hz hs hf hq hl0 hlm hL hD hμ hκ0 hκ ha hl hi (k := I.sup id + 1) (fun j _ => hstep j) (fun j _ => hmono j)
    (I := I) (fun j hj => ⟨Nat.lt_succ_of_le (Finset.le_sup (f := id) hj), (hI' j hj).2⟩) hε.le
    (fun j hj b hb => hbig j (hI' j hj).1 (hI' j hj).2 b hb)
  rw [hcard] at this
  rw [div_lt_iff₀ hpos] at hN
  linarith

end

/-! ### Example -/

namespace Poly1
open Jaxfg.Poly

/-- The residuals of Levenberg-Marquardt on `1 + x` from `x = 0`, with damping `1 / 2000 / 2^j` at step `j`. -/
noncomputable def geo : Nat → ℝ
  | 0 => 1
  | j + 1 => geo j - geo j / (1 + 1 / 2000 / 2 ^ j + 1 / 100000)

theorem geo_pos (j : Nat) : 0 < geo j := by
  induction j with
  | zero => exact one_pos
  | succ j ih =>
    have hm : (0 : ℝ) < 1 / 2000 / 2 ^ j := by positivity
    have : geo j / (1 + 1 / 2000 / 2 ^ j + 1 / 100000) < geo j := div_lt_self ih (by linarith)
    exact sub_pos.2 this

theorem geo_lt (j : Nat) : geo (j + 1) < geo j := by
  have hm : (0 : ℝ) < 1 / 2000 / 2 ^ j := by positivity
  have := div_pos (geo_pos j) (show (0 : ℝ) < 1 + 1 / 2000 / 2 ^ j + 1 / 100000 by linarith)
  show geo j - _ < _
  linarith

/-- A case of `C95_stationary_partial`: the residual `1 + x` from `x = 0`, default settings. Every step is sound. -/
example (stale : Pattern → ScipyCoo ℝ → ℝ → List ℝ → Py (List ℝ)) (addr : Nat) {ε : ℝ} (hε : 0 < ε) (n : Nat) :
    ∃ p : Nat → LMState ℝ, (∀ j, SoundStep ((g 1 1 0).ops F Ex.C) p (1 / 2000) j) ∧
      ∃ j, n ≤ j ∧ ∃ b, IsDescent ((g 1 1 0).ops F Ex.C) (p j).toState b ∧ √(sqNorm b) < ε := by
  obtain ⟨S, hS⟩ : ∃ S, S = LevenbergMarquardt.defaults (chol stale addr) := ⟨_, rfl⟩
  have hlin : S.linear = chol stale addr := by rw [hS]; rfl
  have hf : S.lambdaFactor = 2 := by rw [hS]; rfl
  have hq : S.stepQualityMin = 1 / 1000 := by rw [hS]; rfl
  have hstep : ∀ (j : Nat) (dn : Bool), ∃ (dn' : Bool) (log : List (Msg Ext)),
      S.lift.step CE (gE 1 1 0) (LMState.map fin ⟨⟨j, at_ (geo j - 1), geo j ^ 2, [geo j], dn⟩, 1 / 2000 / 2 ^ j⟩) =
        .ok (LMState.map fin ⟨⟨j + 1, at_ (geo (j + 1) - 1), geo (j + 1) ^ 2, [geo (j + 1)], dn'⟩, 1 / 2000 / 2 ^ (j + 1)⟩, log) := by
    intro j dn
    have h0 := geo_pos j
    have h1 := geo_pos (j + 1)
    have h2 := geo_lt j
    have e1 : geo (j + 1) = geo j - geo j / (1 + 1 / 2000 / 2 ^ j + 1 / 100000) := rfl
    have hne : geo (j + 1) ^ 2 - geo j ^ 2 ≠ 0 := by nlinarith
    obtain ⟨conv, log, h⟩ := lm_step stale addr S hlin (by rw [hf]; norm_num) 1 1 0 j (v := geo j - 1) (c := geo j ^ 2) (r := geo j)
      (lam := 1 / 2000 / 2 ^ j) (j := 1) (d := geo (j + 1) - geo j) (v' := geo (j + 1) - 1) (r' := geo (j + 1)) dn (by positivity)
      (by ring) (by rw [e1]; ring) (by ring) (by ring) true (by
        have e2 : (1 * (geo (j + 1) - geo j) + geo j : ℝ) = geo (j + 1) := by ring
        rw [e2, fin_div hne, div_self hne, hq]
        exact ((fin_le _ _).2 (by norm_num)).symm)
    refine ⟨decide (S.maxIterations - 1 ≤ (j : Int)) || (true && conv), log, h.trans ?_⟩
    have e3 : nextLambda S true (1 / 2000 / 2 ^ j) = 1 / 2000 / 2 ^ (j + 1) := by
      simp only [nextLambda, if_true, hf, pow_succ, div_div, mul_assoc]
    rw [e3]
    rfl
  choose D log hD using hstep
  obtain ⟨dn, hdn0, hdn⟩ : ∃ dn : Nat → Bool, dn 0 = false ∧ ∀ j, dn (j + 1) = D j (dn j) := ⟨Nat.rec false D, rfl, fun _ => rfl⟩
  obtain ⟨p, hp⟩ : ∃ p : Nat → LMState ℝ, p = fun j => ⟨⟨j, at_ (geo j - 1), geo j ^ 2, [geo j], dn j⟩, 1 / 2000 / 2 ^ j⟩ := ⟨_, rfl⟩
  have hsound : ∀ j, SoundStep ((g 1 1 0).ops F Ex.C) p (1 / 2000) j := by
    intro j
    rw [hp]
    refine ⟨?_, ?_, div_le_self (by norm_num) (one_le_pow₀ (by norm_num))⟩
    · show ((g 1 1 0).ops F Ex.C).computeCost (at_ (geo j - 1)) = _
      rw [Jaxfg.Poly.cost_eq]
      norm_num
    · intro he
      have he : [geo (j + 1) - 1] = [geo j - 1] := congrArg Assign.storage he
      have := (List.cons.inj he).1
      have := geo_lt j
      linarith
  refine ⟨p, hsound, ?_⟩
  obtain ⟨j, h1, -, h2⟩ := C95_stationary_partial (lifts 1 1 0) (Jaxfg.Poly.sane 1 1 0) Jaxfg.Poly.zeroRetract (liftsLM_lift S)
    (by rw [hf]; norm_num) (by rw [hq]; norm_num) (by rw [hS]; show (0 : ℝ) ≤ 1 / 2000; norm_num)
    (by rw [hS]; show (0 : ℝ) ≤ 1 / 100000; norm_num) (by rw [hlin]; exact cholmod_graph (Jaxfg.Poly.sane 1 1 0) stale addr)
    (μ := fun l => l + 1 / 100000)
    (by
      rw [hlin]
      exact fun a a' c r A h1 h2 h3 h4 h5 h6 => C70_cholmod stale .empty addr
        ((Jaxfg.Poly.sane 1 1 0).jacobian a a' c r A h1 h2 h3 h4 h5 h6).1 (fun p hp => by cases hp))
    (Λ := 1 / 2000) (μ₀ := 51 / 100000) (fun l _ hl => by show l + 1 / 100000 ≤ _; linarith) (κ := 1 ^ 2) (by norm_num) (soft 1 1)
    (p := p) (by rw [hp]; exact at_assignment _) (by rw [hp]; rfl)
    (by
      refine (lmInit_fin (lifts 1 1 0) (liftsLM_lift S)).2 ⟨geo 0 ^ 2, [geo 0], ?_, ?_⟩
      · rw [hp]
        show ((g 1 1 0).ops F Ex.C).computeCost (at_ (geo 0 - 1)) = _
        rw [Jaxfg.Poly.cost_eq]
        norm_num
      · rw [hp]; simp only [hdn0, pow_zero, div_one, hS]; rfl)
    (fun j => by rw [hp]; simp only [hdn]; exact ⟨_, hD j (dn j)⟩)
    (fun j => by
      rw [hp]
      show geo (j + 1) ^ 2 ≤ geo j ^ 2
      have := geo_pos (j + 1)
      have := geo_lt j
      nlinarith)
    (fun m => ⟨m, le_rfl, hsound m⟩) hε n
  exact ⟨j, h1, h2⟩

end Poly1

end Jaxfg.Props
