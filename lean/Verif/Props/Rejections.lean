/-
C92: rows of rejected steps end, although every rejection leaves the residual of the rejected proposal behind.
-/
import Verif.Lemmas.RejectionSteps
import Verif.Props.Acceptance

namespace Jaxfg.Props
open Ext (fin)
open Spec Matrix

section
variable {CE : Ty → VarClass Ext} {gE : GraphOps Ext} {C : Ty → VarClass ℝ} {g : GraphOps ℝ} {ws : List Var}

/-- What a row of rejected dogleg steps keeps. -/
theorem dogleg_rows (h : Lifts CE gE C g) (hT : TotalGraph C g ws) {sE : Dogleg Ext} {s : Dogleg ℝ}
    (hs : LiftsDogleg sE s) (hq : 0 < s.stepQualityMin) (hq4 : s.stepQualityMin ≤ 1 / 4)
    (hL : AllJacobians C g ws (SolvesRegular s.linear)) {μ : ℝ → ℝ} (hμ : 0 ≤ μ 0)
    (hU : AllJacobians C g ws (DampedUpTo μ s.linear)) {u : Nat → DoglegState ℝ} {k : Nat} (hrow : RejectedDogleg sE CE gE u k)
    (hp : GoodState C g ws (u 0).toState) (hρ : 0 < (u 0).radius) {A : Coo ℝ} (hA : JacobianIs C g ws (u 0).assignments A) {κ : ℝ}
    (hκ : SoftAtMost (κ ^ 2) A) {j : Nat} (hj : j ≤ k) :
    (u j).assignments = (u 0).assignments ∧ (u j).cost = (u 0).cost ∧ GoodState C g ws (u j).toState ∧ 0 < (u j).radius := by
  induction j with
  | zero => exact ⟨rfl, rfl, hp, hρ⟩
  | succ j ih =>
    obtain ⟨i1, i2, i3, i4⟩ := ih (by omega)
    obtain ⟨⟨log, hst⟩, hsame⟩ := hrow j hj
    obtain ⟨r₀, hr₀⟩ := i3.cost
    obtain ⟨k1, k2, k3, -⟩ := dogleg_rejected h hT hs hq hq4 hL hμ hU i3 i4 hr₀ (by rw [i1]; exact hA) hκ
      (δ := -1) (M := 0) (fun d b c r _ hd => absurd (Real.sqrt_nonneg (sqNorm d)) (by linarith)) hst hsame
    refine ⟨hsame.trans i1, k2.trans i2, k1, ?_⟩
    rcases k3 with e | ⟨e, -⟩ <;> rw [e] <;> linarith

/-- **C92**, dogleg. Let the residual of state `u 0` be current, its gradient `b` not zero, and let the Jacobian at its assignments not
depend on the residual (no Huber loss). Then in every row of rejected steps from `u 0` all radii are large in comparison with `b` and with
the range `δ` where the linearization predicts the residual: with a smaller radius the step is accepted, although its direction is
computed from the residual of the rejected proposal before. -/
theorem C92_dogleg (h : Lifts CE gE C g) (hT : TotalGraph C g ws) {sE : Dogleg Ext} {s : Dogleg ℝ}
    (hs : LiftsDogleg sE s) (hq : 0 < s.stepQualityMin) (hq1 : s.stepQualityMin ≤ 7 / 80)
    (hL : AllJacobians C g ws (SolvesRegular s.linear)) {μ : ℝ → ℝ} (hμ : 0 ≤ μ 0)
    (hU : AllJacobians C g ws (DampedUpTo μ s.linear)) {u : Nat → DoglegState ℝ} {k : Nat} (hrow : RejectedDogleg sE CE gE u k)
    (hp : GoodState C g ws (u 0).toState) (hcur : g.computeCost (u 0).assignments = .ok ((u 0).cost, (u 0).residual))
    (hρ : 0 < (u 0).radius) {A : Coo ℝ} (hA : JacobianIs C g ws (u 0).assignments A) {κ : ℝ} (hκ0 : 0 ≤ κ)
    (hκ : SoftAtMost (κ ^ 2) A) {δ M : ℝ} (hM : 0 ≤ M) (htay : PredictsFrom C g (u 0).assignments (u 0).residual A δ M)
    {b : List ℝ} (hb : IsDescent g (u 0).toState b) (hb0 : sqNorm b ≠ 0) {j : Nat} (hj : j < k) :
    δ < 4 * (u j).radius ∨ √(sqNorm b) < 16 * secondOrder κ M δ (u 0).cost * (u j).radius ∨
      √(sqNorm b) < 2 * (κ ^ 2 + μ 0) * (u j).radius := by
  have hrows := fun j hj => dogleg_rows h hT hs hq (by linarith) hL hμ hU hrow hp hρ hA hκ (j := j) hj
  have hJ := hA _ _ _ hp.assignment hp.layout hcur
  have hwf := (hp.jac hT.sane hJ).1
  have hr0 : (u 0).residual.length = A.shape.1 := residual_length hT hp.assignment hp.layout hA hp.assignment hp.layout hcur
  have hsteps : ∀ j, ∃ d : List ℝ, j < k → _ := fun j => by
    by_cases hj : j < k
    · obtain ⟨i1, i2, i3, i4⟩ := hrows j hj.le
      obtain ⟨⟨log, hst⟩, hsame⟩ := hrow j hj
      obtain ⟨-, -, k3, d, k4⟩ := dogleg_rejected h hT hs hq (by linarith) hL hμ hU i3 i4 (r₀ := (u 0).residual)
        (by rw [i1, i2]; exact hcur) (by rw [i1]; exact hA) hκ (δ := δ) (M := M) (by rw [i1]; exact htay) hst hsame
      exact ⟨d, fun _ => And.intro k3 k4⟩
    · exact ⟨[], fun h => absurd h hj⟩
  choose d hd using hsteps
  obtain ⟨A', hA', hb'⟩ := hb
  rw [hJ] at hA'; cases Except.ok.inj hA'
  obtain ⟨-, hbl, hbv⟩ := descent_ok hwf hb'
  have hcost : (u 0).cost = Spec.vec (u 0).residual A.shape.1 ⬝ᵥ Spec.vec (u 0).residual A.shape.1 := by
    rw [hT.sane.cost _ _ _ hcur, sqNorm_eq hr0]
  have hbe : √(sqNorm b) = eucl (descent (cooMatrix A A.shape.1 A.shape.2) (Spec.vec (u 0).residual A.shape.1)) := by
    rw [sqNorm_eq hbl, hbv]; rfl
  rw [hbe, hcost]
  refine dogleg_row (R := fun j => Spec.vec (u j).residual A.shape.1) (d := fun j => Spec.vec (d j) A.shape.2) (ρ := fun j => (u j).radius)
    (q := s.stepQualityMin) (k := k) hκ0 hM (softAtMost_eucl hκ0 hκ) rfl ?_ (fun j hj => (hrows j hj).2.2.2) ?_ (fun j hj => (hd j hj).2.2.1)
    (fun j hj => (hd j hj).2.2.2.2.1) (fun j hj => (hd j hj).2.2.2.1) hq.le hq1 (fun j hj => (hd j hj).2.2.2.2.2) hj
  · intro h0
    rw [sqNorm_eq hbl, hbv, h0] at hb0
    exact hb0 (by simp)
  · intro j hj
    have := (hrows j hj.le).2.2.2
    rcases (hd j hj).1 with e | ⟨e, -⟩ <;> simp only [e] <;> linarith

/-- **C92**, dogleg, as a number of steps: if no proposal has exactly the cost of the current assignments (which makes the quality
undefined and keeps the radius), then a row of rejected steps is not longer than the number of halvings that make the radius small. -/
theorem C92_dogleg_length (h : Lifts CE gE C g) (hT : TotalGraph C g ws) {sE : Dogleg Ext} {s : Dogleg ℝ}
    (hs : LiftsDogleg sE s) (hq : 0 < s.stepQualityMin) (hq1 : s.stepQualityMin ≤ 7 / 80)
    (hL : AllJacobians C g ws (SolvesRegular s.linear)) {μ : ℝ → ℝ} (hμ : 0 ≤ μ 0)
    (hU : AllJacobians C g ws (DampedUpTo μ s.linear)) {u : Nat → DoglegState ℝ} {k : Nat} (hrow : RejectedDogleg sE CE gE u k)
    (hp : GoodState C g ws (u 0).toState) (hcur : g.computeCost (u 0).assignments = .ok ((u 0).cost, (u 0).residual))
    (hρ : 0 < (u 0).radius) {A : Coo ℝ} (hA : JacobianIs C g ws (u 0).assignments A) {κ : ℝ} (hκ0 : 0 ≤ κ)
    (hκ : SoftAtMost (κ ^ 2) A) {δ M : ℝ} (hM : 0 ≤ M) (htay : PredictsFrom C g (u 0).assignments (u 0).residual A δ M)
    {b : List ℝ} (hb : IsDescent g (u 0).toState b) (hb0 : sqNorm b ≠ 0)
    (hne : ∀ j < k, sqNorm (u (j + 1)).residual ≠ (u 0).cost) {N : Nat} (h1 : 4 * (u 0).radius ≤ δ * 2 ^ N)
    (h2 : 16 * secondOrder κ M δ (u 0).cost * (u 0).radius ≤ √(sqNorm b) * 2 ^ N)
    (h3 : 2 * (κ ^ 2 + μ 0) * (u 0).radius ≤ √(sqNorm b) * 2 ^ N) : k ≤ N := by
  by_contra hcon
  have hN : N < k := by omega
  have hhalf : ∀ j ≤ k, (u j).radius * 2 ^ j = (u 0).radius := by
    intro j
    induction j with
    | zero => intro _; simp
    | succ j ih =>
      intro hj
      have hj' : j < k := hj
      obtain ⟨i1, i2, i3, i4⟩ := dogleg_rows h hT hs hq (by linarith) hL hμ hU hrow hp hρ hA hκ hj'.le
      obtain ⟨⟨log, hst⟩, hsame⟩ := hrow j hj'
      obtain ⟨-, -, k3, -⟩ := dogleg_rejected h hT hs hq (by linarith) hL hμ hU i3 i4 (r₀ := (u 0).residual)
        (by rw [i1, i2]; exact hcur) (by rw [i1]; exact hA) hκ (δ := δ) (M := M) (by rw [i1]; exact htay) hst hsame
      rw [← ih hj'.le]
      rcases k3 with e | ⟨-, e⟩
      · rw [e]; ring
      · exact absurd (e.trans i2) (hne j hj')
  have hr := hhalf N hN.le
  have hpow : (0 : ℝ) < 2 ^ N := by positivity
  rw [← hr] at h1 h2 h3
  have h1' : 4 * (u N).radius ≤ δ := le_of_mul_le_mul_right (by linarith) hpow
  have h2' : 16 * secondOrder κ M δ (u 0).cost * (u N).radius ≤ √(sqNorm b) := le_of_mul_le_mul_right (by linarith) hpow
  have h3' : 2 * (κ ^ 2 + μ 0) * (u N).radius ≤ √(sqNorm b) := le_of_mul_le_mul_right (by linarith) hpow
  rcases C92_dogleg h hT hs hq hq1 hL hμ hU hrow hp hcur hρ hA hκ0 hκ hM htay hb hb0 hN with e | e | e <;> linarith

/-- What a row of rejected Levenberg-Marquardt steps keeps. -/
theorem lm_rows (h : Lifts CE gE C g) (hT : TotalGraph C g ws) {sE : LevenbergMarquardt Ext} {s : LevenbergMarquardt ℝ}
    (hs : LiftsLM sE s) (hf : s.lambdaFactor ≠ 0) (hq : 0 < s.stepQualityMin) (hmin : 0 ≤ s.lambdaMin) {ν μ : ℝ → ℝ}
    (hD : AllJacobians C g ws (DampedAtLeast ν s.linear)) (hU : AllJacobians C g ws (DampedUpTo μ s.linear))
    {u : Nat → LMState ℝ} {k : Nat} (hrow : RejectedLM sE CE gE u k) (hp : GoodState C g ws (u 0).toState) (hl : 0 ≤ (u 0).lambd)
    {A : Coo ℝ} (hA : JacobianIs C g ws (u 0).assignments A) {j : Nat} (hj : j ≤ k) :
    (u j).assignments = (u 0).assignments ∧ (u j).cost = (u 0).cost ∧ GoodState C g ws (u j).toState ∧ 0 ≤ (u j).lambd := by
  induction j with
  | zero => exact ⟨rfl, rfl, hp, hl⟩
  | succ j ih =>
    obtain ⟨i1, i2, i3, i4⟩ := ih (by omega)
    obtain ⟨⟨log, hst⟩, hsame⟩ := hrow j hj
    obtain ⟨r₀, hr₀⟩ := i3.cost
    obtain ⟨k1, k2, k3, -⟩ := lm_rejected h hT hs hf hq hD hU i3 i4 hr₀ (by rw [i1]; exact hA)
      (δ := -1) (M := 0) (fun d b c r _ hd => absurd (Real.sqrt_nonneg (sqNorm d)) (by linarith)) hst hsame
    exact ⟨hsame.trans i1, k2.trans i2, k1, by rw [k3]; exact le_max_of_le_left hmin⟩

/-- **C92**, Levenberg-Marquardt. Let `r` be the residual of the assignments of `u 0`, let its gradient `b` not be zero, and let the
Jacobian at these assignments not depend on the residual that is recorded (no Huber loss). Let `Λ` be large in comparison with the
second-order terms and with `b`. A row of rejected steps, each with a damping of at least `Λ`, has at most `N + 2` steps, where `N` is
such that `(3/4)^N` times the squared length of the recorded residual is at most four times the cost. (The recorded residual may be
that of a rejected proposal. If it is current, `N = 0`: of three steps one is accepted.) -/
theorem C92_levenberg_marquardt (h : Lifts CE gE C g) (hT : TotalGraph C g ws) {sE : LevenbergMarquardt Ext} {s : LevenbergMarquardt ℝ}
    (hs : LiftsLM sE s) (hf : s.lambdaFactor ≠ 0) (hq : 0 < s.stepQualityMin) (hmin : 0 ≤ s.lambdaMin) {ν μ : ℝ → ℝ}
    (hD : AllJacobians C g ws (DampedAtLeast ν s.linear)) (hU : AllJacobians C g ws (DampedUpTo μ s.linear))
    {u : Nat → LMState ℝ} {k : Nat} (hrow : RejectedLM sE CE gE u k) (hp : GoodState C g ws (u 0).toState) (hl : 0 ≤ (u 0).lambd)
    {r : List ℝ} (hr : g.computeCost (u 0).assignments = .ok ((u 0).cost, r)) {A : Coo ℝ} (hA : JacobianIs C g ws (u 0).assignments A)
    {κ : ℝ} (hκ0 : 0 ≤ κ) (hκ : SoftAtMost (κ ^ 2) A) {δ M : ℝ} (hM : 0 ≤ M) (hδ : 0 ≤ δ)
    (htay : PredictsFrom C g (u 0).assignments r A δ M) {b : List ℝ} (hb : A.T.matmul (r.map fun x => -x) = .ok b) (hb0 : sqNorm b ≠ 0)
    {τ Λ : ℝ} (hτ : 1 ≤ τ) (hqτ : s.stepQualityMin * (2 + 12 * τ ^ 2) ≤ 7 / 8) (hΛδ : 4 * τ * (κ * √(u 0).cost) ≤ Λ * δ)
    (hΛ : 128 * τ ^ 5 * secondOrder κ M δ (u 0).cost * (κ ^ 2 * (u 0).cost) ≤ Λ * sqNorm b)
    (hτ1 : ∀ l, 0 ≤ l → Λ ≤ ν l → κ ^ 2 + μ l ≤ τ * ν l)
    (hτ2 : ∀ l, 0 ≤ l → Λ ≤ ν l → ν (max s.lambdaMin (min (l * s.lambdaFactor) s.lambdaMax)) ≤ τ * ν l)
    (hbig : ∀ j < k, Λ ≤ ν (u j).lambd) {N : Nat} (hN : (3 / 4) ^ N * sqNorm (u 0).residual ≤ 4 * (u 0).cost) : k ≤ N + 2 := by
  have hrows := fun j hj => lm_rows h hT hs hf hq hmin hD hU hrow hp hl hA (j := j) hj
  have hJ := hA _ _ _ hp.assignment hp.layout hr
  have hwf := (hT.sane.jacobian _ _ _ _ _ hp.assignment hp.layout hp.assignment hp.layout hr hJ).1
  have hr0 : r.length = A.shape.1 := residual_length hT hp.assignment hp.layout hA hp.assignment hp.layout hr
  have hsteps : ∀ j, ∃ d : List ℝ, j < k → _ := fun j => by
    by_cases hj : j < k
    · obtain ⟨i1, i2, i3, i4⟩ := hrows j hj.le
      obtain ⟨⟨log, hst⟩, hsame⟩ := hrow j hj
      obtain ⟨-, -, k3, d, k4⟩ := lm_rejected h hT hs hf hq hD hU i3 i4 (r₀ := r)
        (by rw [i1, i2]; exact hr) (by rw [i1]; exact hA) (δ := δ) (M := M) (by rw [i1]; exact htay) hst hsame
      exact ⟨d, fun _ => And.intro k3 k4⟩
    · exact ⟨[], fun h => absurd h hj⟩
  choose d hd using hsteps
  obtain ⟨-, hbl, hbv⟩ := descent_ok hwf hb
  have hcost : (u 0).cost = Spec.vec r A.shape.1 ⬝ᵥ Spec.vec r A.shape.1 := by
    rw [hT.sane.cost _ _ _ hr, sqNorm_eq hr0]
  obtain ⟨b₁, c₁, q1, q2, q3⟩ := hp.residual
  have hr1 : (u 0).residual.length = A.shape.1 := residual_length hT hp.assignment hp.layout hA q1 q2 q3
  have hd0 : descent (cooMatrix A A.shape.1 A.shape.2) (Spec.vec r A.shape.1) ≠ 0 := by
    intro h0
    rw [sqNorm_eq hbl, hbv, h0] at hb0
    exact hb0 (by simp)
  have hbsq : sqNorm b = eucl (descent (cooMatrix A A.shape.1 A.shape.2) (Spec.vec r A.shape.1)) ^ 2 := by
    rw [sqNorm_eq hbl, hbv, eucl_sq]
  have hAe := softAtMost_eucl hκ0 hκ
  have hsq : κ ^ 2 * (u 0).cost = (κ * eucl (Spec.vec r A.shape.1)) ^ 2 := by rw [mul_pow, eucl_sq, hcost]
  have hsqrt : √(u 0).cost = eucl (Spec.vec r A.shape.1) := by rw [hcost]; rfl
  rw [hsq, hbsq, hcost] at hΛ
  rw [hsqrt] at hΛδ
  -- the damping is positive
  have hβ0 : 0 < eucl (descent (cooMatrix A A.shape.1 A.shape.2) (Spec.vec r A.shape.1)) := Real.sqrt_pos.2 (dot_self_pos hd0)
  have hκr : 0 < κ * eucl (Spec.vec r A.shape.1) := hβ0.trans_le (descent_le hκ0 hAe _)
  have hκpos : 0 < κ := by
    rcases hκ0.eq_or_lt with e | e
    · rw [← e, zero_mul] at hκr; exact absurd hκr (lt_irrefl _)
    · exact e
  have hK : 0 < secondOrder κ M δ (Spec.vec r A.shape.1 ⬝ᵥ Spec.vec r A.shape.1) := by
    unfold secondOrder
    have := Real.sqrt_nonneg (Spec.vec r A.shape.1 ⬝ᵥ Spec.vec r A.shape.1)
    positivity
  have hΛ0 : 0 < Λ := by
    have h1 : 0 < Λ * eucl (descent (cooMatrix A A.shape.1 A.shape.2) (Spec.vec r A.shape.1)) ^ 2 := lt_of_lt_of_le (by positivity) hΛ
    exact (pos_iff_pos_of_mul_pos h1).2 (by positivity)
  refine lm_row (R := fun j => Spec.vec (u j).residual A.shape.1) (d := fun j => Spec.vec (d j) A.shape.2) (ν := fun j => ν (u j).lambd)
    (μ := fun j => μ (u j).lambd) (q := s.stepQualityMin) (τ := τ) (Λ := Λ) hκ0 hM hAe hd0 hτ hq.le hqτ hδ
    (fun j hj => (hd j hj).2.2.1) (fun j hj => hΛ0.trans_le (hbig j hj)) (fun j hj => hτ1 _ (hrows j hj.le).2.2.2 (hbig j hj)) ?_ hbig hΛδ hΛ
    (fun j hj => (hd j hj).2.2.2) ?_
  · intro j hj
    have := hτ2 _ (hrows j (by omega)).2.2.2 (hbig j (by omega))
    rw [← (hd j (by omega)).1] at this
    exact this
  · rw [← hcost, ← sqNorm_eq hr1]
    exact hN

/-- Two rows of steps from the same state agree. -/
theorem lm_rows_eq {sE : LevenbergMarquardt Ext} {u u' : Nat → LMState ℝ} {k k' : Nat} (h : RejectedLM sE CE gE u k)
    (h' : RejectedLM sE CE gE u' k') (h0 : u 0 = u' 0) : ∀ j, j ≤ k → j ≤ k' → u j = u' j := by
  intro j
  induction j with
  | zero => intros; exact h0
  | succ j ih =>
    intro hj hj'
    obtain ⟨⟨l1, h1⟩, -⟩ := h j hj
    obtain ⟨⟨l2, h2⟩, -⟩ := h' j hj'
    rw [ih (by omega) (by omega), h2] at h1
    exact (lmState_map_inj (Prod.mk.inj (Except.ok.inj h1)).1).symm

/-- Rejections multiply the damping with `lambda_factor`, up to `lambda_max`. -/
theorem lm_grows (h : Lifts CE gE C g) (hT : TotalGraph C g ws) {sE : LevenbergMarquardt Ext} {s : LevenbergMarquardt ℝ}
    (hs : LiftsLM sE s) (hf : 1 ≤ s.lambdaFactor) (hq : 0 < s.stepQualityMin) (hmin : 0 ≤ s.lambdaMin) (hmax : 0 ≤ s.lambdaMax) {ν μ : ℝ → ℝ}
    (hD : AllJacobians C g ws (DampedAtLeast ν s.linear)) (hU : AllJacobians C g ws (DampedUpTo μ s.linear))
    {u : Nat → LMState ℝ} {k : Nat} (hrow : RejectedLM sE CE gE u k) (hp : GoodState C g ws (u 0).toState) (hl : 0 ≤ (u 0).lambd)
    {A : Coo ℝ} (hA : JacobianIs C g ws (u 0).assignments A) :
    ∀ j ≤ k, min ((u 0).lambd * s.lambdaFactor ^ j) s.lambdaMax ≤ (u j).lambd := by
  have hf0 : s.lambdaFactor ≠ 0 := by linarith
  intro j
  induction j with
  | zero => intro _; rw [pow_zero, mul_one]; exact min_le_left _ _
  | succ j ih =>
    intro hj
    have ih := ih (by omega)
    obtain ⟨i1, i2, i3, i4⟩ := lm_rows h hT hs hf0 hq hmin hD hU hrow hp hl hA (j := j) (by omega)
    obtain ⟨⟨log, hst⟩, hsame⟩ := hrow j hj
    obtain ⟨r₀, hr₀⟩ := i3.cost
    obtain ⟨-, -, k3, -⟩ := lm_rejected h hT hs hf0 hq hD hU i3 i4 hr₀ (by rw [i1]; exact hA)
      (δ := -1) (M := 0) (fun d b c r _ hd => absurd (Real.sqrt_nonneg (sqNorm d)) (by linarith)) hst hsame
    rw [k3]
    refine le_max_of_le_right (le_min ?_ (min_le_right _ _))
    have h1 : min ((u 0).lambd * s.lambdaFactor ^ j) s.lambdaMax * s.lambdaFactor ≤ (u j).lambd * s.lambdaFactor :=
      mul_le_mul_of_nonneg_right ih (by linarith)
    refine le_trans ?_ h1
    rw [min_mul_of_nonneg _ _ (by linarith : (0 : ℝ) ≤ s.lambdaFactor), pow_succ, mul_assoc]
    refine le_min (min_le_left _ _) ((min_le_right _ _).trans ?_)
    nlinarith

/-- **C92**, Levenberg-Marquardt with CHOLMOD. At assignments `a` with residual `r`, Jacobian `A` (whatever residual is recorded) and a
gradient `b` that is not zero there is a `Λ` with the following property. For all settings with `lambda_max ≥ Λ` (and `lambda_factor = f`,
a small `step_quality_min`) and every state at `a` there is a number of steps that no row of rejected steps from that state exceeds. -/
theorem C92_cholmod (h : Lifts CE gE C g) (hT : TotalGraph C g ws) (stale : Pattern → ScipyCoo ℝ → ℝ → List ℝ → Py (List ℝ)) (addr : Nat)
    {a : Assign ℝ} (ha : IsAssignmentOf C ws a) (hal : a.layout = g.layout) {c : ℝ} {r : List ℝ} (hr : g.computeCost a = .ok (c, r))
    {A : Coo ℝ} (hA : JacobianIs C g ws a A) {κ : ℝ} (hκ0 : 0 ≤ κ) (hκ : SoftAtMost (κ ^ 2) A) {δ M : ℝ} (hM : 0 ≤ M) (hδ : 0 < δ)
    (htay : PredictsFrom C g a r A δ M) {b : List ℝ} (hb : A.T.matmul (r.map fun x => -x) = .ok b) (hb0 : sqNorm b ≠ 0)
    {f : ℝ} (hf : 1 < f) :
    ∃ Λ, 1 ≤ Λ ∧ ∀ (sE : LevenbergMarquardt Ext) (s : LevenbergMarquardt ℝ), LiftsLM sE s →
      s.linear = (fun A b l _ => (cholmodSolve stale .empty addr A b l).1) → s.lambdaFactor = f → 0 < s.stepQualityMin →
      s.stepQualityMin * (2 + 12 * (f + 1) ^ 2) ≤ 7 / 8 → 0 ≤ s.lambdaMin → s.lambdaMin ≤ Λ → Λ ≤ s.lambdaMax →
      ∀ p : LMState ℝ, GoodState C g ws p.toState → p.assignments = a → 0 < p.lambd →
        ∃ N, ∀ u k, u 0 = p → RejectedLM sE CE gE u k → k ≤ N := by
  have hJ := hA _ _ _ ha hal hr
  have hwf := (hT.sane.jacobian _ _ _ _ _ ha hal ha hal hr hJ).1
  have hbpos : 0 < sqNorm b := lt_of_le_of_ne (sqNorm_nonneg b) (Ne.symm hb0)
  have hc0 : 0 < c := by
    rw [hT.sane.cost _ _ _ hr]
    refine lt_of_le_of_ne (sqNorm_nonneg r) fun h0 => hb0 ?_
    obtain ⟨hrl, hbl, hbv⟩ := descent_ok hwf hb
    rw [sqNorm_eq hrl] at h0
    have hz : Spec.vec r A.shape.1 = 0 := by
      by_contra hne
      exact absurd h0 (dot_self_pos hne).ne
    rw [sqNorm_eq hbl, hbv, hz]
    simp [descent]
  obtain ⟨Λ, l1, l2, l3⟩ : ∃ Λ, 4 * (f + 1) * (κ * √c) ≤ Λ * δ ∧
      128 * (f + 1) ^ 5 * secondOrder κ M δ c * (κ ^ 2 * c) ≤ Λ * sqNorm b ∧ max (κ ^ 2) 1 ≤ Λ := by
    refine ⟨max (max (4 * (f + 1) * (κ * √c) / δ) (128 * (f + 1) ^ 5 * secondOrder κ M δ c * (κ ^ 2 * c) / sqNorm b))
      (max (κ ^ 2) 1), ?_, ?_,
      le_max_right _ _⟩
    · rw [← div_le_iff₀ hδ]; exact (le_max_left _ _).trans (le_max_left _ _)
    · rw [← div_le_iff₀ hbpos]; exact (le_max_right _ _).trans (le_max_left _ _)
  obtain ⟨l3, l4⟩ := max_le_iff.1 l3
  have hΛ0 : 0 ≤ Λ := (sq_nonneg κ).trans l3
  refine ⟨Λ, l4, ?_⟩
  intro sE s hs hlin hsf hq hqf hmin hminΛ hmaxΛ p hp hpa hl
  have hf0 : s.lambdaFactor ≠ 0 := by rw [hsf]; linarith
  have hD : AllJacobians C g ws (DampedAtLeast (fun l => l + 1 / 100000) s.linear) := by
    rw [hlin]
    exact fun a a' c r A h1 h2 h3 h4 h5 h6 => C90_cholmod stale .empty addr (hT.sane.jacobian a a' c r A h1 h2 h3 h4 h5 h6).1
      (fun p hp => by cases hp)
  have hU : AllJacobians C g ws (DampedUpTo (fun l => l + 1 / 100000) s.linear) := by
    rw [hlin]
    exact fun a a' c r A h1 h2 h3 h4 h5 h6 => C70_cholmod stale .empty addr (hT.sane.jacobian a a' c r A h1 h2 h3 h4 h5 h6).1
      (fun p hp => by cases hp)
  have hpc : p.cost = c := by
    obtain ⟨r', hr'⟩ := hp.cost
    rw [hpa, hr] at hr'
    exact (Prod.mk.inj (Except.ok.inj hr')).1.symm
  obtain ⟨n, hn⟩ : ∃ n : Nat, Λ ≤ p.lambd * f ^ n := by
    obtain ⟨n, hn⟩ := pow_unbounded_of_one_lt (Λ / p.lambd) hf
    exact ⟨n, by rw [div_lt_iff₀ hl] at hn; linarith⟩
  -- after `n` rejections the damping is large
  have hgrow : ∀ u k, u 0 = p → RejectedLM sE CE gE u k → ∀ j ≤ k, min (p.lambd * f ^ j) s.lambdaMax ≤ (u j).lambd := by
    intro u k hu hrow
    rw [← hu, ← hsf]
    exact lm_grows h hT hs (by rw [hsf]; exact hf.le) hq hmin (hΛ0.trans hmaxΛ) hD hU hrow (by rw [hu]; exact hp) (by rw [hu]; exact hl.le)
      (by rw [hu, hpa]; exact hA)
  have hlarge : ∀ u k, u 0 = p → RejectedLM sE CE gE u k → ∀ j ≤ k, n ≤ j → Λ ≤ (u j).lambd := by
    intro u k hu hrow j hj hnj
    refine le_trans (le_min ?_ hmaxΛ) (hgrow u k hu hrow j hj)
    refine hn.trans (mul_le_mul_of_nonneg_left (pow_le_pow_right₀ hf.le hnj) hl.le)
  by_cases hex : ∃ u k, u 0 = p ∧ RejectedLM sE CE gE u k ∧ n ≤ k
  · obtain ⟨u₀, k₀, hu0, hrow0, hnk⟩ := hex
    obtain ⟨N, hN⟩ : ∃ N : Nat, (3 / 4 : ℝ) ^ N * sqNorm (u₀ n).residual ≤ 4 * c := by
      have hR := sqNorm_nonneg (u₀ n).residual
      obtain ⟨N, hN⟩ := exists_pow_lt_of_lt_one (show (0 : ℝ) < 4 * c / (sqNorm (u₀ n).residual + 1) by positivity)
        (show (3 / 4 : ℝ) < 1 by norm_num)
      refine ⟨N, ?_⟩
      rw [lt_div_iff₀ (by positivity)] at hN
      have : (0 : ℝ) < (3 / 4) ^ N := by positivity
      nlinarith
    refine ⟨n + N + 2, fun u k hu hrow => ?_⟩
    by_cases hk : k ≤ n
    · omega
    have hnk' : n ≤ k := by omega
    have hun : u n = u₀ n := lm_rows_eq hrow hrow0 (hu.trans hu0.symm) n hnk' hnk
    obtain ⟨i1, i2, i3, i4⟩ := lm_rows h hT hs hf0 hq hmin hD hU hrow (by rw [hu]; exact hp) (by rw [hu]; exact hl.le)
      (by rw [hu, hpa]; exact hA) (j := n) hnk'
    rw [hu, hpa] at i1
    rw [hu, hpc] at i2
    have key := C92_levenberg_marquardt (u := fun j => u (n + j)) (k := k - n) (τ := f + 1) (Λ := Λ) h hT hs hf0 hq hmin hD hU
      (fun j hj => hrow (n + j) (by omega)) i3 i4 (r := r) (by show g.computeCost (u n).assignments = _; rw [i1]; rw [hr]; simp [i2])
      (by show JacobianIs C g ws (u n).assignments A; rw [i1]; exact hA) hκ0 hκ hM hδ.le
      (by show PredictsFrom C g (u n).assignments r A δ M; rw [i1]; exact htay) hb hb0 (by linarith) hqf
      (by show 4 * (f + 1) * (κ * √(u n).cost) ≤ _; rw [i2]; exact l1)
      (by show 128 * (f + 1) ^ 5 * secondOrder κ M δ (u n).cost * (κ ^ 2 * (u n).cost) ≤ _; rw [i2]; exact l2)
      (fun l hl0 hl => by
        have : l + 1 / 100000 ≤ f * (l + 1 / 100000) := le_mul_of_one_le_left (by linarith) hf.le
        linarith)
      (fun l hl0 hl => by
        have e1 : l + 1 / 100000 ≤ f * (l + 1 / 100000) := le_mul_of_one_le_left (by linarith) hf.le
        have e2 : max s.lambdaMin (min (l * s.lambdaFactor) s.lambdaMax) ≤ f * (l + 1 / 100000) := by
          refine max_le (by linarith) ((min_le_left _ _).trans ?_)
          rw [hsf]
          linarith
        linarith)
      (fun j hj => by
        have := hlarge u k hu hrow (n + j) (by omega) (by omega)
        show Λ ≤ (u (n + j)).lambd + 1 / 100000
        linarith)
      (N := N) (by show (3 / 4 : ℝ) ^ N * sqNorm (u n).residual ≤ 4 * (u n).cost; rw [hun, i2] at *; exact hN)
    omega
  · refine ⟨n, fun u k hu hrow => ?_⟩
    by_contra hk
    exact hex ⟨u, k, hu, hrow, by omega⟩

end

/-- Without Huber loss, whitening a Jacobian does not depend on the residual. -/
theorem whitenJacobian_residual {n : Noise} (hn : NoHuber n) (J : Arr ℝ) {r r' : List ℝ} (h : r.length = r'.length) :
    n.whitenJacobian J r = n.whitenJacobian J r' := by
  cases n with
  | gaussian W => rfl
  | diagonal d => simp only [Noise.whitenJacobian, h]
  | huber w d => exact hn.elim

/-- **C92**, the hypothesis about the Jacobian: in a graph without Huber loss it does not depend on the residual. -/
theorem C92_no_huber {F : Nat → FactorClass} {C : Ty → VarClass ℝ} (hC : GoodClasses C) {fs : List Factor}
    (hfs : ∀ f ∈ fs, FactorWF F C f) (hne : fs ≠ []) (hno : ∀ f ∈ fs, NoHuber f.noise) {g : Graph} (hg : Graph.make C fs = .ok g)
    {a : Assign ℝ} (ha : IsAssignmentOf C (Graph.variablesOf fs) a) (hl : a.layout = g.layout) :
    ∃ A, JacobianIs C (g.ops F C) (Graph.variablesOf fs) a A := by
  obtain ⟨g', hg', hG⟩ := graph_ok (F := F) hfs hne
  rw [hg] at hg'; cases Except.ok.inj hg'
  have hs := variablesOf_spec fs
  have holds : ∀ a, IsAssignmentOf C (Graph.variablesOf fs) a → a.layout = g.layout →
      ∃ val, Holds C fs (Graph.variablesOf fs) val a := by
    intro a ha hl
    have hfl : a.layout.localFlag = false := by rw [hl, hG.layout]; rfl
    obtain ⟨f, hf⟩ := exists_rep ha
    rw [hfl] at hf
    refine ⟨fun v => unravel (C v.ty).default (f v), ha, hfl, hs.2, fun v hv => hf.getValue_ok hv⟩
  obtain ⟨val, hv⟩ := holds a ha hl
  have : ∀ f, ∃ R, f ∈ fs →
      ((F f.cls).jacobians f.self (f.vars.map val)).mapM (fun J => f.noise.whitenJacobian J (List.replicate (rdim f) 0)) = .ok R := by
    intro f
    by_cases hf : f ∈ fs
    · obtain ⟨R, h1, _⟩ := whitenedJacobians_ok (hfs f hf) (hv.valuesFor hC hf) (r := List.replicate (rdim f) 0) (by simp)
      exact ⟨R, fun _ => h1⟩
    · exact ⟨[], fun h => absurd h hf⟩
  choose R hR using this
  refine ⟨⟨((groups kind fs).map (groupValues R)).flatten.flatten, g.jacobianCoords.map (·.1), g.jacobianCoords.map (·.2),
    (g.residualDim, g.localLayout.dim)⟩, fun b c r hb hbl hc => ?_⟩
  obtain ⟨val', hv'⟩ := holds b hb hbl
  have : ∀ f, ∃ w, f ∈ fs → whitenedAt F val' f = .ok w ∧ w.length = rdim f := by
    intro f
    by_cases hf : f ∈ fs
    · obtain ⟨u, h1, h2⟩ := whiten_ok (hfs f hf).noise ((hfs f hf).residual _ (hv'.valuesFor hC hf))
      exact ⟨u, fun _ => ⟨h1, h2⟩⟩
    · exact ⟨[], fun h => absurd h hf⟩
  choose w hw using this
  have hcost := cost_ok _ _ hC hne hfs hG hv' (fun f hf => (hw f hf).1)
  have hr : r = (evalOrder fs).flatMap w := by
    have : g.computeCost F C b = .ok (c, r) := hc
    rw [hcost] at this
    exact (Prod.mk.inj (Except.ok.inj this)).2.symm
  obtain ⟨A, h1, h2, -⟩ := jacobian_explicit hC hfs hne hG hv (fun f hf => (hw f hf).2) (R := R) (fun f hf => by
    rw [← hR f hf]
    congr 1
    funext J
    exact whitenJacobian_residual (hno f hf) J (by rw [(hw f hf).2]; simp))
  rw [hr, ← h2]
  exact h1

/-- **C92**, the hypothesis about the linearization: smooth problems with the default retraction have it. -/
theorem C92_smooth {C : Ty → VarClass ℝ} {g : GraphOps ℝ} {ws : List Var} (hT : TotalGraph C g ws) (hE : UsesDefaultRetraction C ws)
    {m : Nat} (hD : DerivativeGraph C g ws m) {δ M : ℝ}
    (hlip : ∀ e, IsAssignmentOf C ws e → e.layout = g.layout → LipschitzNear C g ws e δ M) {a : Assign ℝ} (ha : IsAssignmentOf C ws a)
    (hl : a.layout = g.layout) {c : ℝ} {r : List ℝ} (hc : g.computeCost a = .ok (c, r)) {A : Coo ℝ} (hA : JacobianIs C g ws a A) :
    PredictsFrom C g a r A δ M :=
  smooth_predicts hT hE hD hlip ha hl hc (hA _ _ _ ha hl hc)

/-! ### Examples -/

namespace Poly1
open Jaxfg.Poly

theorem total (p q s : ℝ) : TotalGraph Ex.C ((g p q s).ops F Ex.C) [Ex.x] := by
  obtain ⟨g', h1, h2⟩ := total_graph Ex.good (fs := [f p q s]) (by simpa using f_wf p q s) (by simp)
  rw [Jaxfg.Poly.make_eq] at h1
  cases Except.ok.inj h1
  exact h2

theorem jacobianIs (p q s v : ℝ) : JacobianIs Ex.C ((g p q s).ops F Ex.C) [Ex.x] (at_ v) ⟨[q + 2 * s * v], [0], [0], (1, 1)⟩ := by
  intro b c r hb hl hc
  obtain ⟨v', rfl⟩ := at_of hb hl
  rw [Jaxfg.Poly.cost_eq] at hc
  obtain ⟨-, rfl⟩ := Prod.mk.inj (Except.ok.inj hc)
  exact Jaxfg.Poly.jac_eq p q s v _

theorem predictsFrom (p q s v δ : ℝ) : PredictsFrom Ex.C ((g p q s).ops F Ex.C) (at_ v) [p + q * v + s * v ^ 2]
    ⟨[q + 2 * s * v], [0], [0], (1, 1)⟩ δ (2 * |s|) := by
  intro d b c' r' hd _ hb hc'
  obtain ⟨e, rfl⟩ := List.length_eq_one_iff.1 hd
  have hb := (retract_eq v e).symm.trans hb
  cases Except.ok.inj hb
  rw [Jaxfg.Poly.cost_eq] at hc'
  obtain ⟨-, rfl⟩ := Prod.mk.inj (Except.ok.inj hc')
  have hm : cooMatrix (⟨[q + 2 * s * v], [0], [0], (1, 1)⟩ : Coo ℝ) 1 1 0 0 = q + 2 * s * v := by simp [cooMatrix, entries]
  have hM : (cooMatrix (⟨[q + 2 * s * v], [0], [0], (1, 1)⟩ : Coo ℝ) 1 1 *ᵥ Spec.vec [e] 1) 0 = (q + 2 * s * v) * e := by
    show ∑ j : Fin 1, _ * _ = _
    rw [Fin.sum_univ_one, hm]
    rfl
  have key : eucl (Spec.vec [p + q * (v + e) + s * (v + e) ^ 2] 1 - Spec.vec [p + q * v + s * v ^ 2] 1 -
      cooMatrix (⟨[q + 2 * s * v], [0], [0], (1, 1)⟩ : Coo ℝ) 1 1 *ᵥ Spec.vec [e] 1) = |s * e ^ 2| := by
    unfold eucl
    rw [← Real.sqrt_sq_eq_abs]
    congr 1
    show ∑ i : Fin 1, _ * _ = _
    rw [Fin.sum_univ_one, Pi.sub_apply, hM, ← sq]
    congr 1
    show p + q * (v + e) + s * (v + e) ^ 2 - (p + q * v + s * v ^ 2) - (q + 2 * s * v) * e = _
    ring
  refine le_of_eq (key.trans ?_)
  rw [abs_mul, abs_of_nonneg (sq_nonneg e), sqNorm_single]
  ring

theorem softAtMost {j κ : ℝ} (h : j ^ 2 ≤ κ) : SoftAtMost κ (⟨[j], [0], [0], (1, 1)⟩ : Coo ℝ) := by
  intro y
  have hm : cooMatrix (⟨[j], [0], [0], (1, 1)⟩ : Coo ℝ) 1 1 0 0 = j := by simp [cooMatrix, entries]
  have hM : (cooMatrix (⟨[j], [0], [0], (1, 1)⟩ : Coo ℝ) 1 1 *ᵥ y) 0 = j * y 0 := by
    show ∑ j : Fin 1, _ * _ = _
    rw [Fin.sum_univ_one, hm]
  show ∑ i : Fin 1, _ * _ ≤ κ * (∑ i : Fin 1, y i * y i)
  rw [Fin.sum_univ_one, Fin.sum_univ_one, hM]
  nlinarith [mul_self_nonneg (y 0)]

/-- A case of `C92_levenberg_marquardt`: the residual `x` at `x = 1` with default settings, where a residual of 10 is recorded. The
first step is rejected, and there is no row of more than 14 rejected steps. -/
example (stale : Pattern → ScipyCoo ℝ → ℝ → List ℝ → Py (List ℝ)) (addr : Nat) :
    let S := LevenbergMarquardt.defaults (chol stale addr)
    let start : LMState ℝ := ⟨⟨1, at_ 1, 1, [10], false⟩, 200000⟩
    (∃ u, u 0 = start ∧ RejectedLM S.lift CE (gE 0 1 0) u 1) ∧
      ∀ u k, u 0 = start → RejectedLM S.lift CE (gE 0 1 0) u k → k ≤ 14 := by
  intro S start
  have hsane := Jaxfg.Poly.sane 0 1 0
  have hq : S.stepQualityMin = 1 / 1000 := rfl
  have hf : S.lambdaFactor = 2 := rfl
  have hmin : S.lambdaMin = 1 / 100000 := rfl
  have hmax : S.lambdaMax = 10000000000 := rfl
  constructor
  · obtain ⟨conv, log, hstep⟩ := lm_step stale addr S rfl (by rw [hf]; norm_num) 0 1 0 1 (v := 1) (c := 1) (r := 10) (lam := 200000)
      (j := 1) (d := 1 * -10 / (1 ^ 2 + 200000 + 1 / 100000)) (v' := 1 + 1 * -10 / (1 ^ 2 + 200000 + 1 / 100000))
      (r' := 1 + 1 * -10 / (1 ^ 2 + 200000 + 1 / 100000)) false (by norm_num) (by norm_num) rfl rfl (by norm_num) false (by
        symm
        rw [← Bool.not_eq_true, accept_fin, hq]
        norm_num)
    obtain ⟨o, ho, hoa⟩ : ∃ o : LMState ℝ, S.lift.step CE (gE 0 1 0) (start.map fin) = .ok (o.map fin, log) ∧ o.assignments = at_ 1 :=
      ⟨_, hstep, rfl⟩
    refine ⟨fun j => if j = 0 then start else o, rfl, fun j hj => ?_⟩
    obtain rfl : j = 0 := by omega
    exact ⟨⟨log, ho⟩, hoa⟩
  · intro u k hu hrow
    have hD : AllJacobians Ex.C ((g 0 1 0).ops F Ex.C) [Ex.x] (DampedAtLeast (fun l => l + 1 / 100000) S.linear) :=
      fun a a' c r A h1 h2 h3 h4 h5 h6 => C90_cholmod stale .empty addr (hsane.jacobian a a' c r A h1 h2 h3 h4 h5 h6).1
        (fun p hp => by cases hp)
    have hU : AllJacobians Ex.C ((g 0 1 0).ops F Ex.C) [Ex.x] (DampedUpTo (fun l => l + 1 / 100000) S.linear) :=
      fun a a' c r A h1 h2 h3 h4 h5 h6 => C70_cholmod stale .empty addr (hsane.jacobian a a' c r A h1 h2 h3 h4 h5 h6).1
        (fun p hp => by cases hp)
    have hcost := Jaxfg.Poly.cost_eq 0 1 0 1
    rw [show (0 : ℝ) + 1 * 1 + 0 * 1 ^ 2 = 1 by norm_num, one_pow] at hcost
    have hcost' := Jaxfg.Poly.cost_eq 0 1 0 10
    rw [show (0 : ℝ) + 1 * 10 + 0 * 10 ^ 2 = 10 by norm_num] at hcost'
    have hgood : GoodState Ex.C ((g 0 1 0).ops F Ex.C) [Ex.x] (u 0).toState := by
      rw [hu]
      exact ⟨Jaxfg.Poly.at_assignment 1, rfl, ⟨[1], hcost⟩, ⟨at_ 10, 10 ^ 2, Jaxfg.Poly.at_assignment 10, rfl, hcost'⟩⟩
    have hJ : JacobianIs Ex.C ((g 0 1 0).ops F Ex.C) [Ex.x] (u 0).assignments ⟨[1], [0], [0], (1, 1)⟩ := by
      have := jacobianIs 0 1 0 1
      rw [show (1 : ℝ) + 2 * 0 * 1 = 1 by norm_num] at this
      rw [hu]; exact this
    have hP := predictsFrom 0 1 0 1 1000
    rw [show (1 : ℝ) + 2 * 0 * 1 = 1 by norm_num, show (0 : ℝ) + 1 * 1 + 0 * 1 ^ 2 = 1 by norm_num,
      show 2 * |(0 : ℝ)| = 0 by simp] at hP
    have hso : secondOrder 1 0 1000 1 = 4 := by unfold secondOrder; norm_num
    have hl0 : (u 0).lambd = 200000 := by rw [hu]
    have hc0 : (u 0).cost = 1 := by rw [hu]
    have hgrow := lm_grows (lifts 0 1 0) (total 0 1 0) (liftsLM_lift S) (by rw [hf]; norm_num) (by rw [hq]; norm_num)
      (by rw [hmin]; norm_num) (by rw [hmax]; norm_num) hD hU hrow hgood (by rw [hl0]; norm_num) hJ
    refine C92_levenberg_marquardt (κ := 1) (δ := 1000) (M := 0) (τ := 3) (Λ := 124416) (r := [1]) (b := [1 * -1]) (N := 12)
      (lifts 0 1 0) (total 0 1 0) (liftsLM_lift S) (by rw [hf]; norm_num) (by rw [hq]; norm_num) (by rw [hmin]; norm_num) hD hU hrow hgood
      (by rw [hl0]; norm_num) (by rw [hu]; exact hcost) hJ (by norm_num) (softAtMost (by norm_num)) le_rfl (by norm_num)
      (by rw [hu]; exact hP) (matmul_T_eq 1 (-1)) (by rw [sqNorm_single]; norm_num) (by norm_num) (by rw [hq]; norm_num)
      (by rw [hc0, Real.sqrt_one]; norm_num) (by rw [hc0, hso, sqNorm_single]; norm_num) ?_ ?_ ?_ ?_
    · intro l _ hl
      linarith
    · intro l h0 hl
      have : max S.lambdaMin (min (l * S.lambdaFactor) S.lambdaMax) ≤ 2 * l + 1 / 100000 := by
        rw [hmin, hf]
        exact max_le (by linarith) ((min_le_left _ _).trans (by linarith))
      linarith
    · intro j hj
      have := hgrow j hj.le
      rw [hl0, hf, hmax] at this
      have h2 : (1 : ℝ) ≤ 2 ^ j := one_le_pow₀ (by norm_num)
      have h3 : (124416 : ℝ) ≤ min (200000 * 2 ^ j) 10000000000 := le_min (by linarith) (by norm_num)
      show _ ≤ (u j).lambd + 1 / 100000
      linarith
    · rw [hu]
      show _ * sqNorm [10] ≤ 4 * 1
      rw [sqNorm_single]
      norm_num

/-- A case of `C92_dogleg_length`: the residual `1 + x + 10 x²` at `x = 0`, with CHOLMOD and default settings. The first step is rejected,
and no row of rejected steps (none of which happens to lead to the same cost) is longer than 13. -/
example (stale : Pattern → ScipyCoo ℝ → ℝ → List ℝ → Py (List ℝ)) (addr : Nat) :
    let S := Dogleg.defaults (chol stale addr)
    let start : DoglegState ℝ := ⟨⟨0, at_ 0, 1, [1], false⟩, 1⟩
    (∃ u, u 0 = start ∧ RejectedDogleg S.lift CE (gE 1 1 10) u 1 ∧ ∀ j < 1, sqNorm (u (j + 1)).residual ≠ 1) ∧
      ∀ u k, u 0 = start → RejectedDogleg S.lift CE (gE 1 1 10) u k → (∀ j < k, sqNorm (u (j + 1)).residual ≠ 1) → k ≤ 13 := by
  intro S start
  have hsane := Jaxfg.Poly.sane 1 1 10
  have hq : S.stepQualityMin = 1 / 1000 := rfl
  constructor
  · have hd1 : doglegStep (Coo.map fin ⟨[1], [0], [0], (1, 1)⟩) [fin (1 * -1)] [fin (-(100000 / 100001))] (fin 1) =
        .ok [fin (-(100000 / 100001))] := by
      have := (doglegStep_fin (A := ⟨[1], [0], [0], (1, 1)⟩) (hsane.jacobian _ _ _ _ _ (Jaxfg.Poly.at_assignment 0) rfl
        (Jaxfg.Poly.at_assignment 0) rfl (Jaxfg.Poly.cost_eq 1 1 10 0) (by
          have := Jaxfg.Poly.jac_eq 1 1 10 0 (1 + 1 * 0 + 10 * 0 ^ 2)
          rw [show (1 : ℝ) + 2 * 10 * 0 = 1 by norm_num] at this
          exact this)).1 (r := [1]) (b := [1 * -1])
        (gn := [-(100000 / 100001)]) (matmul_T_eq 1 (-1)) rfl (ρ := 1) one_pos).1 (by
          unfold nrm
          rw [sqNorm_single, Real.sqrt_sq_eq_abs, abs_neg, abs_of_pos] <;> norm_num)
      exact this
    obtain ⟨R, hR⟩ : ∃ R : ℝ, R = 1 - 100000 / 100001 + 10 * (100000 / 100001) ^ 2 := ⟨_, rfl⟩
    obtain ⟨conv, log, hstep⟩ := dogleg_step stale addr S rfl 1 1 10 0 (v := 0) (c := 1) (r := 1)
      (ρ := 1) (j := 1) (gn := -(100000 / 100001)) (d := -(100000 / 100001)) (v' := -(100000 / 100001)) (r' := R) false
      (by ring) (by norm_num) hd1 (by norm_num) (by rw [hR]; norm_num)
    have hacc : Scal.le (fin S.stepQualityMin) (fin (R ^ 2 - 1) / fin ((1 * -(100000 / 100001) + 1) ^ 2 - 1)) = false := by
      rw [← Bool.not_eq_true, accept_fin, hq, hR]
      norm_num
    rw [hacc] at hstep
    obtain ⟨o, ho, hoa, hor⟩ : ∃ o : DoglegState ℝ, S.lift.step CE (gE 1 1 10) (start.map fin) = .ok (o.map fin, log) ∧
        o.assignments = at_ 0 ∧ o.residual = [R] := ⟨_, hstep, rfl, rfl⟩
    refine ⟨fun j => if j = 0 then start else o, rfl, fun j hj => ?_, fun j hj => ?_⟩
    · obtain rfl : j = 0 := by omega
      exact ⟨⟨log, ho⟩, hoa⟩
    · obtain rfl : j = 0 := by omega
      show sqNorm o.residual ≠ 1
      rw [hor, sqNorm_single, hR]
      norm_num
  · intro u k hu hrow hne
    have hcost := Jaxfg.Poly.cost_eq 1 1 10 0
    rw [show (1 : ℝ) + 1 * 0 + 10 * 0 ^ 2 = 1 by norm_num, one_pow] at hcost
    have hc0 : (u 0).cost = 1 := by rw [hu]
    have hρ0 : (u 0).radius = 1 := by rw [hu]
    have hdesc : IsDescent ((g 1 1 10).ops F Ex.C) (u 0).toState [(1 + 2 * 10 * 0) * -1] := isDescent (by rw [hu]) (by rw [hu])
    have hJ := jacobianIs 1 1 10 0
    have hP := predictsFrom 1 1 10 0 1
    rw [show (1 : ℝ) + 1 * 0 + 10 * 0 ^ 2 = 1 by norm_num, show 2 * |(10 : ℝ)| = 20 by norm_num] at hP
    have hso : secondOrder 1 20 1 1 = 464 := by unfold secondOrder; norm_num
    have hb : √(sqNorm [(1 + 2 * 10 * 0) * -1]) = (1 : ℝ) := by rw [sqNorm_single]; norm_num
    refine C92_dogleg_length (μ := fun l => l + 1 / 100000) (κ := 1) (δ := 1) (M := 20) (lifts 1 1 10) (total 1 1 10) (liftsDogleg_lift S)
      (by rw [hq]; norm_num) (by rw [hq]; norm_num) (cholmod_graph hsane stale addr) (by norm_num)
      (fun a a' c r A h1 h2 h3 h4 h5 h6 => C70_cholmod stale .empty addr (hsane.jacobian a a' c r A h1 h2 h3 h4 h5 h6).1
        (fun p hp => by cases hp)) hrow ?_ (by rw [hu]; exact hcost) (by rw [hρ0]; norm_num) (by rw [hu]; exact hJ) (by norm_num)
      (softAtMost (by norm_num)) (by norm_num) (by rw [hu]; exact hP) hdesc (by rw [sqNorm_single]; norm_num) (by rw [hc0]; exact hne)
      (by rw [hρ0]; norm_num) (by rw [hc0, hso, hb, hρ0]; norm_num) (by rw [hb, hρ0]; norm_num)
    rw [hu]
    exact ⟨Jaxfg.Poly.at_assignment 0, rfl, ⟨[1], hcost⟩, ⟨at_ 0, 1, Jaxfg.Poly.at_assignment 0, rfl, hcost⟩⟩

/-- A case of `C92_cholmod`: the residual `p + q x + s x²` at a point `v` where the gradient is not zero, with `lambda_factor = 2`. If
`lambda_max` is large enough, every row of rejected steps ends, whatever residual is recorded. -/
example (stale : Pattern → ScipyCoo ℝ → ℝ → List ℝ → Py (List ℝ)) (addr : Nat) (p q s v : ℝ)
    (hgrad : (q + 2 * s * v) * (p + q * v + s * v ^ 2) ≠ 0) :
    ∃ Λ, ∀ lmax, Λ ≤ lmax → ∀ (w lam : ℝ) (k : Nat), 0 < lam →
      let S := { LevenbergMarquardt.defaults (chol stale addr) with lambdaMax := lmax }
      ∃ N, ∀ u m, u 0 = ⟨⟨k, at_ v, (p + q * v + s * v ^ 2) ^ 2, [p + q * w + s * w ^ 2], false⟩, lam⟩ →
        RejectedLM S.lift CE (gE p q s) u m → m ≤ N := by
  obtain ⟨Λ, h1, hΛ⟩ := C92_cholmod (κ := |q + 2 * s * v|) (δ := 1) (M := 2 * |s|) (f := 2) (lifts p q s) (total p q s) stale addr
    (Jaxfg.Poly.at_assignment v) rfl (Jaxfg.Poly.cost_eq p q s v) (jacobianIs p q s v) (abs_nonneg _) (softAtMost (sq_abs _).ge)
    (by positivity) one_pos (predictsFrom p q s v 1) (matmul_T_eq _ _)
    (by rw [sqNorm_single]; exact pow_ne_zero _ fun h0 => hgrad (by linarith)) (by norm_num)
  refine ⟨Λ, fun lmax hl w lam k hlam => ?_⟩
  intro S
  refine hΛ S.lift S (liftsLM_lift S) rfl rfl (by show (0 : ℝ) < 1 / 1000; norm_num)
    (by show (1 / 1000 : ℝ) * (2 + 12 * (2 + 1) ^ 2) ≤ 7 / 8; norm_num) (by show (0 : ℝ) ≤ 1 / 100000; norm_num)
    (by show (1 / 100000 : ℝ) ≤ Λ; linarith) hl _ ?_ rfl hlam
  exact ⟨Jaxfg.Poly.at_assignment v, rfl, ⟨_, Jaxfg.Poly.cost_eq p q s v⟩, ⟨at_ w, _, Jaxfg.Poly.at_assignment w, rfl,
    Jaxfg.Poly.cost_eq p q s w⟩⟩

/-- A case of `C92_no_huber`: the factor with the residual `p + q x + s x²`. -/
example (p q s v : ℝ) : ∃ A, JacobianIs Ex.C ((g p q s).ops F Ex.C) (Graph.variablesOf [f p q s]) (at_ v) A :=
  C92_no_huber Ex.good (fs := [f p q s]) (by simpa using f_wf p q s) (by simp) (by simp [f, NoHuber]) (Jaxfg.Poly.make_eq p q s)
    (Jaxfg.Poly.at_assignment v) rfl

end Poly1

end Jaxfg.Props
