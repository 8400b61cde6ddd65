/-
Property C76: how fast Gauss-Newton converges near a solution of a nonlinear problem. See Verif.Props.SolverReal for the setting.
-/
import Verif.Lemmas.LocalRate
import Verif.Props.LinearRate
import Verif.Props.Progress
import Verif.Spec.Invariants

namespace Jaxfg.Props
open Ext (fin)
open Spec Matrix

section
variable {CE : Ty → VarClass Ext} {gE : GraphOps Ext} {C : Ty → VarClass ℝ} {g : GraphOps ℝ} {ws : List Var}

/-- The retraction adds the update to the numbers that are stored. -/
theorem retract_storage (hg : SaneGraph C g ws) (hE : UsesDefaultRetraction C ws) {a b : Assign ℝ} (ha : IsAssignmentOf C ws a)
    (hla : a.layout = g.layout) {d : List ℝ} (hd : d.length = g.localLayout.dim)
    (hb : a.manifoldRetract C ⟨d, g.localLayout⟩ = .ok b) :
    a.storage.length = d.length ∧ b.storage = List.zipWith (· + ·) a.storage d := by
  have hfl : a.layout.localFlag = false := by rw [hla, hg.layout]; rfl
  obtain ⟨h1, h2⟩ := retract_adds C hg.classes ws a ⟨d, g.localLayout⟩ ha hfl
    ⟨hg.nodup, by simp only [hg.localLayout, make_localFlag], hd⟩ (by simp only [hg.localLayout, make_localFlag]) hE
  rw [hb] at h1
  cases Except.ok.inj h1
  exact ⟨h2, rfl⟩

/-- One step near a solution. -/
theorem step_near (hg : SaneGraph C g ws) (hE : UsesDefaultRetraction C ws) {e : Assign ℝ} {re : List ℝ} {ρ σ M τ : ℝ}
    (hR : RegularNear C g ws e re ρ σ M τ) (hσ : 0 < σ) {μ : ℝ → ℝ} (hμ : 0 ≤ μ 0) {L : LinSolver ℝ}
    (hL : Near C g ws e ρ fun _ _ A => DampedUpTo μ L A) {p : State ℝ} (hp : GoodState C g ws p)
    (hcur : g.computeCost p.assignments = .ok (p.cost, p.residual)) (hρ : storageDist p.assignments e ≤ ρ) {A : Coo ℝ}
    (hA : g.jacobian p.assignments p.residual = .ok A) {ATr : List ℝ} (hT : A.T.matmul p.residual = .ok ATr) {i : Nat}
    {d : List ℝ} (hd : L A (ATr.map fun x => -x) 0 i = .ok d) {b : Assign ℝ}
    (hb : p.assignments.manifoldRetract C ⟨d, g.localLayout⟩ = .ok b) :
    storageDist b e ≤ (τ + μ 0) / σ * storageDist p.assignments e + M / (2 * √σ) * storageDist p.assignments e ^ 2 := by
  obtain ⟨hwf, hdim⟩ := hp.jac hg hA
  obtain ⟨hrl, hbl, hbv⟩ := descent_ok hwf (matmul_neg (cooWF_T hwf) hT)
  obtain ⟨hdl, D, hD1, hD2, hD3⟩ := hL _ _ _ _ hp.assignment hp.layout hρ hcur hA _ _ _ _ hbl le_rfl hd
  obtain ⟨k1, k2⟩ := retract_storage hg hE hp.assignment hp.layout (hdl.trans hdim) hb
  have hal : p.assignments.storage.length = A.shape.2 := k1.trans hdl
  have hel : e.storage.length = A.shape.2 := by rw [hR.assignment.2.2, hR.layout, ← hp.layout, ← hp.assignment.2.2, hal]
  have hbl' : b.storage.length = A.shape.2 := by rw [k2]; simp [hal, hdl]
  rw [hbv] at hD3
  have key := local_step hD1 hσ hμ (hR.stiff _ _ _ _ hp.assignment hp.layout hρ hcur hA) hD2 hD3
    (Spec.vec (List.zipWith (· - ·) e.storage p.assignments.storage) A.shape.2) (Spec.vec re A.shape.1)
  have t1 := hR.taylor _ _ _ _ hp.assignment hp.layout hρ hcur hA
  have t2 := hR.gradient _ _ _ _ hp.assignment hp.layout hρ hcur hA
  have hs : 0 < √σ := Real.sqrt_pos.2 hσ
  have d1 : storageDist b e = eucl (Spec.vec d A.shape.2 - Spec.vec (List.zipWith (· - ·) e.storage p.assignments.storage) A.shape.2) := by
    rw [storageDist_eq hbl' hel, k2, vec_add_list hal hdl, vec_sub_list hel hal]
    congr 1; abel
  have d2 : eucl (Spec.vec (List.zipWith (· - ·) e.storage p.assignments.storage) A.shape.2) = storageDist p.assignments e := by
    rw [storageDist_eq hal hel, vec_sub_list hel hal, ← eucl_neg, neg_sub]
  rw [d1]
  rw [d2] at key
  refine key.trans ?_
  have s1 := div_le_div_of_nonneg_right t1 hs.le
  have s2 : (eucl ((cooMatrix A A.shape.1 A.shape.2)ᵀ *ᵥ Spec.vec re A.shape.1) + μ 0 * storageDist p.assignments e) / σ ≤
      (τ * storageDist p.assignments e + μ 0 * storageDist p.assignments e) / σ := div_le_div_of_nonneg_right (by linarith) hσ.le
  refine (add_le_add s1 s2).trans (le_of_eq ?_)
  field_simp
  ring

/-- What is known after `k` steps that start within the radius. -/
structure Approached (C : Ty → VarClass ℝ) (g : GraphOps ℝ) (ws : List Var) (e : Assign ℝ) (q : State ℝ) (δ : ℝ) : Prop where
  good : GoodState C g ws q
  current : g.computeCost q.assignments = .ok (q.cost, q.residual)
  dist : storageDist q.assignments e ≤ δ

/-- The factor by which a step from distance `δ` reduces the distance. -/
noncomputable def rate (σ M τ μ δ : ℝ) : ℝ := (τ + μ) / σ + M / (2 * √σ) * δ

theorem storageDist_nonneg (a b : Assign ℝ) : 0 ≤ storageDist a b := Real.sqrt_nonneg _

/-- A step from distance at most `δ` to distance at most `rate δ * δ`. -/
theorem rate_step {σ M τ μ δ x y : ℝ} (hσ : 0 < σ) (hM : 0 ≤ M) (hx0 : 0 ≤ x) (hx : x ≤ δ)
    (hy : y ≤ (τ + μ) / σ * x + M / (2 * √σ) * x ^ 2) : y ≤ rate σ M τ μ δ * x := by
  unfold rate
  have h1 : M / (2 * √σ) * x ^ 2 ≤ M / (2 * √σ) * δ * x := by
    rw [mul_assoc, sq]
    exact mul_le_mul_of_nonneg_left (mul_le_mul_of_nonneg_right hx hx0) (by positivity)
  linarith [add_mul ((τ + μ) / σ) (M / (2 * √σ) * δ) x]

theorem rate_nonneg {σ M τ μ δ : ℝ} (hσ : 0 < σ) (hM : 0 ≤ M) (hτ : 0 ≤ τ) (hμ : 0 ≤ μ) (hδ : 0 ≤ δ) : 0 ≤ rate σ M τ μ δ := by
  unfold rate; positivity

/-- **C76**, Gauss-Newton. Let `e` be a point near which the problem is regular, variables having the default retraction, and let the
linear solver, called without damping, add at most `μ 0`. From a start `a` at distance `δ₀` within the radius and with
`κ = (τ + μ 0) / σ + M δ₀ / (2 √σ) ≤ 1`, the distance to `e` is at most `κᵏ δ₀` after `k` steps. -/
theorem C76_gauss_newton (h : Lifts CE gE C g) (hg : SaneGraph C g ws) (hE : UsesDefaultRetraction C ws) {e : Assign ℝ} {re : List ℝ}
    {ρ σ M τ : ℝ} (hR : RegularNear C g ws e re ρ σ M τ) (hσ : 0 < σ) (hM : 0 ≤ M) (hτ : 0 ≤ τ) {μ : ℝ → ℝ} (hμ : 0 ≤ μ 0)
    {sE : GaussNewton Ext} {s : GaussNewton ℝ} (hs : LiftsGN sE s) (hL : Near C g ws e ρ fun _ _ A => DampedUpTo μ s.linear A)
    {a : Assign ℝ} (ha : IsAssignmentOf C ws a) (hl : a.layout = g.layout) (hρ : storageDist a e ≤ ρ)
    (hκ : (τ + μ 0) / σ + M / (2 * √σ) * storageDist a e ≤ 1) {st st' : State Ext} {k : Nat} {log : List (Msg Ext)}
    (hi : initState gE (a.map fin) = .ok st) (hr : Runs (fun s => s.done) (sE.step CE gE) k st st' log) :
    ∃ b : Assign ℝ, st'.assignments = b.map fin ∧ IsAssignmentOf C ws b ∧ b.layout = g.layout ∧
      storageDist b e ≤ ((τ + μ 0) / σ + M / (2 * √σ) * storageDist a e) ^ k * storageDist a e := by
  obtain ⟨c, r, hc, rfl⟩ := (initState_fin h).1 hi
  have h0 := storageDist_nonneg a e
  have hr0 := rate_nonneg hσ hM hτ hμ h0
  suffices H : ∃ q : State ℝ, st' = q.map fin ∧
      Approached C g ws e q (rate σ M τ (μ 0) (storageDist a e) ^ k * storageDist a e) by
    obtain ⟨q, rfl, h2⟩ := H
    exact ⟨_, rfl, h2.good.assignment, h2.good.layout, h2.dist⟩
  generalize hst : State.map fin ⟨0, a, c, r, false⟩ = st at hr
  induction hr with
  | refl s => exact ⟨_, hst.symm, GoodState.start ha hl hc _ _, hc, by simp⟩
  | step h1 h2 h3 ih =>
    obtain ⟨q, rfl, hq⟩ := ih hst
    obtain ⟨A, ATr, d, b, c, r, conv, hA, hT, hx, hb, hc, -, rfl, -⟩ := (gnStep_fin h hs).1 h3
    refine ⟨_, rfl, hq.good.next hb hc true rfl rfl rfl, hc, ?_⟩
    have hd : storageDist q.assignments e ≤ storageDist a e :=
      hq.dist.trans (mul_le_of_le_one_left h0 (pow_le_one₀ hr0 hκ))
    have k1 := step_near hg hE hR hσ hμ hL hq.good hq.current (hd.trans hρ) hA hT hx hb
    refine (rate_step hσ hM (storageDist_nonneg _ _) hd k1).trans ?_
    rw [pow_succ', mul_assoc]
    exact mul_le_mul_of_nonneg_left hq.dist hr0

/-- **C76**, quadratic convergence. If moreover the residual of `e` is zero (`τ = 0`) and the linear solver adds no damping, then
`M / (2 √σ)` times the distance is squared in every step. -/
theorem C76_quadratic (h : Lifts CE gE C g) (hg : SaneGraph C g ws) (hE : UsesDefaultRetraction C ws) {e : Assign ℝ} {re : List ℝ}
    {ρ σ M : ℝ} (hR : RegularNear C g ws e re ρ σ M 0) (hσ : 0 < σ) (hM : 0 ≤ M) {μ : ℝ → ℝ} (hμ : μ 0 = 0)
    {sE : GaussNewton Ext} {s : GaussNewton ℝ} (hs : LiftsGN sE s) (hL : Near C g ws e ρ fun _ _ A => DampedUpTo μ s.linear A)
    {a : Assign ℝ} (ha : IsAssignmentOf C ws a) (hl : a.layout = g.layout) (hρ : storageDist a e ≤ ρ)
    (hκ : M / (2 * √σ) * storageDist a e ≤ 1) {st st' : State Ext} {k : Nat} {log : List (Msg Ext)}
    (hi : initState gE (a.map fin) = .ok st) (hr : Runs (fun s => s.done) (sE.step CE gE) k st st' log) :
    ∃ b : Assign ℝ, st'.assignments = b.map fin ∧ IsAssignmentOf C ws b ∧ b.layout = g.layout ∧
      M / (2 * √σ) * storageDist b e ≤ (M / (2 * √σ) * storageDist a e) ^ 2 ^ k := by
  obtain ⟨c, r, hc, rfl⟩ := (initState_fin h).1 hi
  have h0 := storageDist_nonneg a e
  have hq0 : 0 ≤ M / (2 * √σ) := by positivity
  suffices H : ∃ q : State ℝ, st' = q.map fin ∧ Approached C g ws e q (storageDist a e) ∧
      M / (2 * √σ) * storageDist q.assignments e ≤ (M / (2 * √σ) * storageDist a e) ^ 2 ^ k by
    obtain ⟨q, rfl, h2, h3⟩ := H
    exact ⟨_, rfl, h2.good.assignment, h2.good.layout, h3⟩
  generalize hst : State.map fin ⟨0, a, c, r, false⟩ = st at hr
  induction hr with
  | refl s => exact ⟨_, hst.symm, ⟨GoodState.start ha hl hc _ _, hc, le_rfl⟩, by simp⟩
  | step h1 h2 h3 ih =>
    obtain ⟨q, rfl, hq, hqd⟩ := ih hst
    obtain ⟨A, ATr, d, b, c, r, conv, hA, hT, hx, hb, hc, -, rfl, -⟩ := (gnStep_fin h hs).1 h3
    have k1 := step_near hg hE hR hσ hμ.ge hL hq.good hq.current (hq.dist.trans hρ) hA hT hx hb
    rw [hμ, add_zero, zero_div, zero_mul, zero_add] at k1
    have hqn := storageDist_nonneg q.assignments e
    refine ⟨_, rfl, ⟨hq.good.next hb hc true rfl rfl rfl, hc, ?_⟩, ?_⟩
    · show storageDist b e ≤ _
      refine k1.trans ?_
      rw [sq, ← mul_assoc]
      refine (mul_le_of_le_one_left hqn ?_).trans hq.dist
      exact (mul_le_mul_of_nonneg_left hq.dist hq0).trans hκ
    · show M / (2 * √σ) * storageDist b e ≤ _
      refine (mul_le_mul_of_nonneg_left k1 hq0).trans ?_
      rw [show (2 : Nat) ^ (_ + 1) = _ from pow_succ 2 _, pow_mul]
      refine (le_of_eq ?_).trans (pow_le_pow_left₀ (mul_nonneg hq0 hqn) hqd 2)
      ring

/-- **C76**, fixed number of iterations. In the situation of `C76_gauss_newton`, whatever `FixedIterationGaussNewtonSolver` with `n ≥ 1`
iterations returns is within `κⁿ δ₀` of `e`, whether the loop is unrolled or not. -/
theorem C76_fixed_iteration (h : Lifts CE gE C g) (hg : SaneGraph C g ws) (hE : UsesDefaultRetraction C ws) {e : Assign ℝ}
    {re : List ℝ} {ρ σ M τ : ℝ} (hR : RegularNear C g ws e re ρ σ M τ) (hσ : 0 < σ) (hM : 0 ≤ M) (hτ : 0 ≤ τ) {μ : ℝ → ℝ}
    (hμ : 0 ≤ μ 0) {sE : FixedIteration Ext} {L : LinSolver ℝ} (hs : LiftsSolver sE.linear L)
    (hL : Near C g ws e ρ fun _ _ A => DampedUpTo μ L A) {a : Assign ℝ} (ha : IsAssignmentOf C ws a) (hl : a.layout = g.layout)
    (hρ : storageDist a e ≤ ρ) (hκ : (τ + μ 0) / σ + M / (2 * √σ) * storageDist a e ≤ 1) {n : Nat} (hn : sE.iterations = n + 1) :
    ReturnsOnly (sE.solve CE gE) a fun b => storageDist b e ≤
      ((τ + μ 0) / σ + M / (2 * √σ) * storageDist a e) ^ (n + 1) * storageDist a e := by
  have h0 := storageDist_nonneg a e
  have hr0 := rate_nonneg hσ hM hτ hμ h0
  have H : ∀ {done : State Ext → Bool} {st st' k l}, initState gE (a.map fin) = .ok st → Runs done (sE.step CE gE) k st st' l →
      ∃ q : State ℝ, st' = q.map fin ∧ Approached C g ws e q (rate σ M τ (μ 0) (storageDist a e) ^ k * storageDist a e) := by
    intro done st st' k l hi hr
    obtain ⟨c, r, hc, rfl⟩ := (initState_fin h).1 hi
    generalize hst : State.map fin ⟨0, a, c, r, false⟩ = st at hr
    induction hr with
    | refl s => exact ⟨_, hst.symm, GoodState.start ha hl hc _ _, hc, by simp⟩
    | step h1 h2 h3 ih =>
      obtain ⟨q, rfl, hq⟩ := ih hst
      obtain ⟨A, ATr, d, b, c, r, hA, hT, hx, hb, hc, rfl, -⟩ := (fixedStep_fin h hs).1 h3
      refine ⟨_, rfl, hq.good.next hb hc true rfl rfl rfl, hc, ?_⟩
      have hd : storageDist q.assignments e ≤ storageDist a e :=
        hq.dist.trans (mul_le_of_le_one_left h0 (pow_le_one₀ hr0 hκ))
      have k1 := step_near hg hE hR hσ hμ hL hq.good hq.current (hd.trans hρ) hA hT hx hb
      refine (rate_step hσ hM (storageDist_nonneg _ _) hd k1).trans ?_
      rw [pow_succ', mul_assoc]
      exact mul_le_mul_of_nonneg_left hq.dist hr0
  intro fuel out log hsol
  obtain ⟨c1, c2, c3, c4⟩ := C49_fixed_iteration CE gE sE (a.map fin)
  obtain ⟨st, st', l, k, h1, h2, hk, rfl⟩ : ∃ st st' l k, initState gE (a.map fin) = .ok st ∧
      (∃ done, Runs done (sE.step CE gE) k st st' l) ∧ k = n + 1 ∧ out = st'.assignments := by
    cases hu : sE.unroll with
    | true =>
      obtain ⟨st, st', l, h1, h2, h3⟩ := c1 hu _ _ _ hsol
      exact ⟨st, st', l, _, h1, ⟨_, h2⟩, by omega, h3⟩
    | false =>
      obtain ⟨st, st', l, h1, h2, rfl, -⟩ := fixedSolve_some.1 hsol
      rw [hu, if_neg (by simp)] at h2
      obtain ⟨k, -, hk1, hk2⟩ := runs_of_whileLoop h2
      refine ⟨st, st', l, k, h1, ⟨_, hk1⟩, ?_, rfl⟩
      obtain ⟨hd0, hz⟩ := initState_fresh h1
      cases hk1 with
      | refl => rw [hd0] at hk2; cases hk2
      | @step k' _ u _ _ _ r1 r2 r3 =>
        have hu1 := (fixed_counted (C := CE) (g := gE) sE).runs r1
        obtain ⟨A, ATr, delta, b, c, r, -, -, -, -, -, rfl, -⟩ := fixedStep_ok.1 r3
        simp only [id, hz] at hu1
        simp only [decide_eq_true_eq] at hk2
        have hlow : (k' : Int) ≤ n := by
          cases r1 with
          | refl => omega
          | step q1 _ q3 =>
            have hu2 := (fixed_counted (C := CE) (g := gE) sE).runs q1
            have hdone := ((fixed_counted (C := CE) (g := gE) sE).next q3).2
            simp only [id, hz] at hu2 hdone
            by_contra hlt
            have : u.done = true := hdone (by rw [hu2, hn]; push_cast at hlt ⊢; omega)
            rw [this] at r2; cases r2
        omega
  obtain ⟨done, h2⟩ := h2
  obtain ⟨q, rfl, hq⟩ := H h1 h2
  subst hk
  exact ⟨_, rfl, hq.dist⟩

/-! ### Smooth problems are regular -/

/-- The linearization at a point near `e` predicts the residual of another point near `e`. -/
theorem taylor_between (hT : TotalGraph C g ws) (hE : UsesDefaultRetraction C ws) {m : Nat} (hD : DerivativeGraph C g ws m) {e : Assign ℝ}
    (he : IsAssignmentOf C ws e) (hle : e.layout = g.layout) {ρ M : ℝ} (hlip : LipschitzNear C g ws e ρ M) {a b : Assign ℝ}
    (ha : IsAssignmentOf C ws a) (hl : a.layout = g.layout) (hnear : storageDist a e ≤ ρ) (hb : IsAssignmentOf C ws b)
    (hlb : b.layout = g.layout) (hnearb : storageDist b e ≤ ρ) {ca : ℝ} {r : List ℝ} {Aa : Coo ℝ} (hca : g.computeCost a = .ok (ca, r))
    (hAa : g.jacobian a r = .ok Aa) {cb : ℝ} {rb : List ℝ} (hcb : g.computeCost b = .ok (cb, rb)) :
    eucl (Spec.vec rb Aa.shape.1 - Spec.vec r Aa.shape.1 -
      cooMatrix Aa Aa.shape.1 Aa.shape.2 *ᵥ Spec.vec (List.zipWith (· - ·) b.storage a.storage) Aa.shape.2) ≤
        M / 2 * storageDist a b ^ 2 := by
  have hg := hT.sane
  obtain ⟨n, hn⟩ : ∃ n, n = g.localLayout.dim := ⟨_, rfl⟩
  have hfl : ∀ {a : Assign ℝ}, a.layout = g.layout → a.layout.localFlag = false := fun h => by rw [h, hg.layout]; rfl
  have hdl : ∀ {d : List ℝ}, d.length = n → IsAssignmentOf C ws ⟨d, g.localLayout⟩ := fun h =>
    ⟨hg.nodup, by simp only [hg.localLayout, make_localFlag], h.trans hn⟩
  have hadd : ∀ {a : Assign ℝ} {d : List ℝ}, IsAssignmentOf C ws a → a.layout = g.layout → d.length = n →
      a.manifoldRetract C ⟨d, g.localLayout⟩ = .ok ⟨List.zipWith (· + ·) a.storage d, a.layout⟩ ∧ a.storage.length = n := by
    intro a d ha hl hd
    obtain ⟨k1, k2⟩ := retract_adds C hg.classes ws a ⟨d, g.localLayout⟩ ha (hfl hl) (hdl hd)
      (by simp only [hg.localLayout, make_localFlag]) hE
    exact ⟨k1, k2.trans hd⟩
  have hlen : ∀ {a : Assign ℝ}, IsAssignmentOf C ws a → a.layout = g.layout → a.storage.length = n := fun ha hl =>
    (hadd ha hl (d := List.replicate n 0) (by simp)).2
  have hal := hlen ha hl
  have hel := hlen hb hlb
  obtain ⟨E, hEd⟩ : ∃ E, E = List.zipWith (· - ·) b.storage a.storage := ⟨_, rfl⟩
  have hEl : E.length = n := by rw [hEd]; simp [hal, hel]
  rw [← hEd]
  -- the path from `a` to `b`
  let P : ℝ → Assign ℝ := fun t => ⟨List.zipWith (· + ·) a.storage (E.map (t * ·)), a.layout⟩
  have hP : ∀ t, a.manifoldRetract C ⟨E.map (t * ·), g.localLayout⟩ = .ok (P t) := fun t => (hadd ha hl (by simpa using hEl)).1
  have hPa : ∀ t, IsAssignmentOf C ws (P t) := fun t => isAssignment_retract ha (hP t)
  have hPl : ∀ t, (P t).layout = g.layout := fun t => hl
  have hPP : ∀ t s, (P t).manifoldRetract C ⟨E.map (s * ·), g.localLayout⟩ = .ok (P (t + s)) := by
    intro t s
    rw [(hadd (hPa t) (hPl t) (by simpa using hEl)).1]
    congr 2
    apply List.ext_getElem
    · simp [P]
    · intro i i1 i2; simp [P]; ring
  have hP0 : P 0 = a := by
    show (⟨_, _⟩ : Assign ℝ) = ⟨a.storage, a.layout⟩
    congr 1
    apply List.ext_getElem
    · simp [hal, hEl]
    · intro i i1 i2; simp
  have hP1 : P 1 = b := by
    show (⟨_, _⟩ : Assign ℝ) = ⟨b.storage, b.layout⟩
    rw [hlb, hl]
    congr 1
    apply List.ext_getElem
    · simp [hal, hEl, hel]
    · intro i i1 i2; simp [hEd]
  have hvP : ∀ t, Spec.vec (P t).storage n = Spec.vec a.storage n + t • Spec.vec E n := fun t => by
    show Spec.vec (List.zipWith _ _ _) n = _
    rw [vec_add_list hal (by simpa using hEl), vec_smul_list hEl]
  have hvE : Spec.vec E n = Spec.vec b.storage n - Spec.vec a.storage n := by rw [hEd, vec_sub_list hel hal]
  have hdist : storageDist a b = eucl (Spec.vec E n) := by
    rw [storageDist_eq hal hel, hvE, ← eucl_neg, neg_sub]
  have hsm : ∀ (t : ℝ) (v : Fin n → ℝ), 0 ≤ t → eucl (t • v) = t * eucl v := by
    intro t v ht
    unfold eucl
    rw [smul_dotProduct, dotProduct_smul, smul_eq_mul, smul_eq_mul, ← mul_assoc, Real.sqrt_mul (mul_self_nonneg t),
      Real.sqrt_mul_self ht]
  have hdPe : ∀ t, 0 ≤ t → t ≤ 1 → storageDist (P t) e ≤ ρ := by
    intro t t0 ht
    have he' := hlen he hle
    rw [storageDist_eq hal he'] at hnear
    rw [storageDist_eq hel he'] at hnearb
    rw [storageDist_eq (hlen (hPa t) (hPl t)) he', hvP, hvE]
    have h1 := eucl_add_le ((1 - t) • (Spec.vec a.storage n - Spec.vec e.storage n)) (t • (Spec.vec b.storage n - Spec.vec e.storage n))
    rw [hsm _ _ (by linarith), hsm _ _ t0] at h1
    have h2 : Spec.vec a.storage n + t • (Spec.vec b.storage n - Spec.vec a.storage n) - Spec.vec e.storage n =
        (1 - t) • (Spec.vec a.storage n - Spec.vec e.storage n) + t • (Spec.vec b.storage n - Spec.vec e.storage n) := by module
    rw [h2]
    have h3 := mul_le_mul_of_nonneg_left hnear (by linarith : 0 ≤ 1 - t)
    have h4 := mul_le_mul_of_nonneg_left hnearb t0
    linarith
  have hdPa : ∀ t, 0 ≤ t → storageDist (P t) a = t * storageDist a b := by
    intro t ht
    rw [storageDist_eq (hlen (hPa t) (hPl t)) hal, hvP, hdist, ← hsm _ _ ht]
    congr 1
    module
  choose k R hc using fun t => hT.cost (P t) (hPa t) (hPl t)
  choose J hJ using fun t => hT.jacobian (P t) (P t) (k t) (R t) (hPa t) (hPl t) (hPa t) (hPl t) (hc t)
  have hder := fun t => hD (P t) (k t) (R t) (J t) E (fun s => P (t + s)) (fun s => k (t + s)) (fun s => R (t + s)) (hPa t) (hPl t)
    (hc t) (hJ t).1 (hEl.trans hn) (fun s => ⟨hPP t s, hc (t + s)⟩)
  have hJn : ∀ t, (J t).shape.2 = n := fun t => by
    rw [hn]; exact (hg.jacobian _ _ _ _ _ (hPa t) (hPl t) (hPa t) (hPl t) (hc t) (hJ t).1).2
  have hR0 : R 0 = r := by have := hc 0; rw [hP0, hca] at this; exact (Prod.mk.inj (Except.ok.inj this)).2.symm
  have hR1 : R 1 = rb := by have := hc 1; rw [hP1, hcb] at this; exact (Prod.mk.inj (Except.ok.inj this)).2.symm
  have hJ0 : J 0 = Aa := by have := (hJ 0).1; rw [hP0, hR0, hAa] at this; exact (Except.ok.inj this).symm
  have hder' : ∀ t, HasDerivAt (fun t => Spec.vec (R t) m) (cooMatrix (J t) m n *ᵥ Spec.vec E n) t := by
    intro t
    have h1 := (hder t).2
    rw [hJn t] at h1
    have h2 : HasDerivAt (fun x => (fun s => Spec.vec (R (t + s)) m) (x - t)) (cooMatrix (J t) m n *ᵥ Spec.vec E n) t :=
      HasDerivAt.comp_sub_const t t (by rw [sub_self]; exact h1)
    simpa using h2
  have hAm : Aa.shape.1 = m := by rw [← hJ0]; exact (hder 0).1
  have hAn : Aa.shape.2 = n := by rw [← hJ0]; exact hJn 0
  have key := taylor_bound hder' (K := M * storageDist a b ^ 2) fun t t0 t1 => by
    have hnt := hdPe t t0 t1
    have h1 := hlip (P t) _ _ _ (hPa t) (hPl t) hnt (hc t) (hJ t).1 a _ _ _ ha hl hnear hca hAa
    rw [(hder t).1, hJn t] at h1
    have h2 := h1 (Spec.vec E n)
    rw [sub_mulVec, hdPa t t0, ← hdist] at h2
    rw [hJ0]
    refine h2.trans (le_of_eq (by ring))
  rw [hR0, hR1, hJ0] at key
  rw [hAm, hAn]
  refine key.trans (le_of_eq (by ring))

/-- The linearization predicts the residual of `e`. -/
theorem taylor_near (hT : TotalGraph C g ws) (hE : UsesDefaultRetraction C ws) {m : Nat} (hD : DerivativeGraph C g ws m) {e : Assign ℝ}
    (he : IsAssignmentOf C ws e) (hle : e.layout = g.layout) {c : ℝ} {re : List ℝ} (hce : g.computeCost e = .ok (c, re)) {ρ M : ℝ}
    (hlip : LipschitzNear C g ws e ρ M) :
    Near C g ws e ρ fun a r A =>
      eucl (Spec.vec re A.shape.1 - Spec.vec r A.shape.1 -
        cooMatrix A A.shape.1 A.shape.2 *ᵥ Spec.vec (List.zipWith (· - ·) e.storage a.storage) A.shape.2) ≤ M / 2 * storageDist a e ^ 2 := by
  intro a ca r Aa ha hl hnear hca hAa
  refine taylor_between hT hE hD he hle hlip ha hl hnear he hle ?_ hca hAa hce
  have hself : storageDist e e = 0 := by rw [storageDist_eq rfl rfl, sub_self]; simp [eucl]
  rw [hself]
  exact (storageDist_nonneg a e).trans hnear

/-- **C76**, the hypothesis. Let the Jacobian of the graph be the derivative of its residual (C21), and Lipschitz continuous with
constant `M` near `e`; let `e` be a stationary point with residual `re`, and no eigenvalue of `AᵀA` be below `σ` near `e`. Then the
problem is regular near `e`, with `τ = M |re|`. In particular `τ = 0` if `e` solves the problem exactly. -/
theorem C76_smooth (hT : TotalGraph C g ws) (hE : UsesDefaultRetraction C ws) {m : Nat} (hD : DerivativeGraph C g ws m) {e : Assign ℝ}
    (he : IsAssignmentOf C ws e) (hle : e.layout = g.layout) {c : ℝ} {re : List ℝ} {A : Coo ℝ} (hrest : AtRest g e c re A) {ρ σ M : ℝ}
    (hρ : 0 ≤ ρ) (hM : 0 ≤ M) (hlip : LipschitzNear C g ws e ρ M) (hσ : Near C g ws e ρ fun _ _ A => StiffAtLeast σ A) :
    RegularNear C g ws e re ρ σ M (M * nrm re) := by
  have hg := hT.sane
  obtain ⟨n, hn⟩ : ∃ n, n = g.localLayout.dim := ⟨_, rfl⟩
  have hfl : ∀ {a : Assign ℝ}, a.layout = g.layout → a.layout.localFlag = false := fun h => by rw [h, hg.layout]; rfl
  have hdl : ∀ {d : List ℝ}, d.length = n → IsAssignmentOf C ws ⟨d, g.localLayout⟩ := fun h =>
    ⟨hg.nodup, by simp only [hg.localLayout, make_localFlag], h.trans hn⟩
  have hadd : ∀ {a : Assign ℝ} {d : List ℝ}, IsAssignmentOf C ws a → a.layout = g.layout → d.length = n →
      a.manifoldRetract C ⟨d, g.localLayout⟩ = .ok ⟨List.zipWith (· + ·) a.storage d, a.layout⟩ ∧ a.storage.length = n := by
    intro a d ha hl hd
    obtain ⟨k1, k2⟩ := retract_adds C hg.classes ws a ⟨d, g.localLayout⟩ ha (hfl hl) (hdl hd)
      (by simp only [hg.localLayout, make_localFlag]) hE
    exact ⟨k1, k2.trans hd⟩
  have hlen : ∀ {a : Assign ℝ}, IsAssignmentOf C ws a → a.layout = g.layout → a.storage.length = n := fun ha hl =>
    (hadd ha hl (d := List.replicate n 0) (by simp)).2
  have hself : storageDist e e = 0 := by
    rw [storageDist_eq rfl rfl, sub_self]; simp [eucl]
  have hrows : ∀ a c r A, IsAssignmentOf C ws a → a.layout = g.layout → g.computeCost a = .ok (c, r) → g.jacobian a r = .ok A →
      A.shape.1 = m ∧ A.shape.2 = n := by
    intro a c r A ha hl hc hA
    have hz : ∀ t : ℝ, ((List.replicate n (0 : ℝ)).map (t * ·)).length = n := fun t => by simp
    choose k R hk using fun t => hT.cost ⟨List.zipWith (· + ·) a.storage ((List.replicate n (0 : ℝ)).map (t * ·)), a.layout⟩
      (isAssignment_retract ha (hadd ha hl (hz t)).1) hl
    exact ⟨(hD a c r A (List.replicate n 0) _ k R ha hl hc hA (by simpa using hn) fun t => ⟨(hadd ha hl (hz t)).1, hk t⟩).1,
      by rw [hn]; exact (hg.jacobian _ _ _ _ _ ha hl ha hl hc hA).2⟩
  refine ⟨he, hle, ⟨c, hrest.cost⟩, hσ, taylor_near hT hE hD he hle hrest.cost hlip, ?_⟩
  · intro a ca r Aa ha hl hnear hca hAa
    obtain ⟨r1, r2⟩ := hrows _ _ _ _ ha hl hca hAa
    obtain ⟨e1, e2⟩ := hrows _ _ _ _ he hle hrest.cost hrest.jac
    have hwf := (hg.jacobian _ _ _ _ _ he hle he hle hrest.cost hrest.jac).1
    obtain ⟨z, hz1, hz2⟩ := hrest.gradient
    obtain ⟨hrl, hzl, hzv⟩ := matmul_vec (cooWF_T hwf) hz1
    have hlip' := hlip a _ _ _ ha hl hnear hca hAa e _ _ _ he hle (by rw [hself]; exact hρ) hrest.cost hrest.jac
    rw [r1, r2] at hlip' ⊢
    have h0 : (cooMatrix A m n)ᵀ *ᵥ Spec.vec re m = 0 := by
      have hs1 : A.T.shape.1 = n := e2
      have hs2 : A.T.shape.2 = m := e1
      rw [hs1, hs2, cooMatrix_T] at hzv
      rw [← hzv]
      funext i
      show z.getD i 0 = 0
      rw [List.getD_eq_getElem?_getD]
      cases hi : z[i.val]? with
      | none => rfl
      | some y => exact hz2 y (List.mem_of_getElem? hi)
    have key := eucl_transpose (mul_nonneg hM (storageDist_nonneg a e)) hlip' (Spec.vec re m)
    rw [transpose_sub, sub_mulVec, h0, sub_zero] at key
    have hrm : re.length = m := by
      rw [← e1]; exact hrl
    rw [nrm_eq hrm]
    refine key.trans (le_of_eq ?_)
    show _ * _ * √_ = _
    ring

end

/-- **C76**, the hypothesis on the Jacobian. Graphs of factors with Gaussian noise whose Jacobians are the derivatives of their
residuals are differentiable. -/
theorem C76_derivative (F : Nat → FactorClass) (C : Ty → VarClass ℝ) (hC : GoodClasses C) (fs : List Factor) (hne : fs ≠ [])
    (hfs : ∀ f ∈ fs, FactorWF F C f) (hgauss : ∀ f ∈ fs, NoiseGaussian f.noise)
    (hcorrect : ∀ f ∈ fs, ∀ vals, ValuesFor C f.vars vals → JacobiansCorrect F C f vals) :
    ∃ g, Graph.make C fs = .ok g ∧ TotalGraph C (g.ops F C) (Graph.variablesOf fs) ∧
      DerivativeGraph C (g.ops F C) (Graph.variablesOf fs) g.residualDim := by
  obtain ⟨g, hg, hT⟩ := total_graph (F := F) hC hfs hne
  obtain ⟨g', hg', hG⟩ := graph_ok (F := F) hfs hne
  rw [hg] at hg'; cases Except.ok.inj hg'
  obtain ⟨g', hg', h21⟩ := C21_jacobian_is_derivative F C hC fs hne hfs hgauss
  rw [hg] at hg'; cases Except.ok.inj hg'
  refine ⟨g, hg, hT, fun a c r A d b k ρ ha hl hc hA hd hb => ?_⟩
  have hs := variablesOf_spec fs
  have hfl : a.layout.localFlag = false := by rw [hl]; show g.layout.localFlag = _; rw [hG.layout]; rfl
  obtain ⟨q, hq⟩ := exists_rep ha
  rw [hfl] at hq
  have hv : Holds C fs (Graph.variablesOf fs) (fun v => unravel (C v.ty).default (q v)) a :=
    ⟨ha, hfl, hs.2, fun v hv => hq.getValue_ok hv⟩
  obtain ⟨w, hw⟩ := hv.whitened hC hfs
  have hcost := cost_ok F C hC hne hfs hG hv (fun f hf => (hw f hf).1)
  have hr : r = (evalOrder fs).flatMap w := by
    have hc : g.computeCost F C a = .ok (c, r) := hc
    rw [hcost] at hc
    exact (Prod.mk.inj (Except.ok.inj hc)).2.symm
  obtain ⟨A', hA', hder⟩ := h21 _ _ a hv hl (fun f hf => hcorrect f hf _ (hv.valuesFor hC hf)) w (fun f hf => (hw f hf).2)
  have hAA : A' = A := by
    have hA : g.computeWhitenedResidualJacobian F C a r = .ok A := hA
    rw [hr, hA'] at hA
    exact Except.ok.inj hA
  subst hAA
  have hwf := (hT.sane.jacobian _ _ _ _ _ ha hl ha hl hc hA).1
  obtain ⟨y, b', r', h1, h2, h3, h4⟩ := hder d hd
  obtain ⟨m1, m2, m3⟩ := matmul_vec hwf h1
  have hm : A'.shape.1 = g.residualDim := m2.symm.trans h2
  rw [hm] at m3
  refine ⟨hm, ?_⟩
  rw [← m3]
  have : ρ = r' := by
    funext t
    have hbt : b' t = b t := Except.ok.inj ((h3 t).1.symm.trans (hb t).1)
    have h5 : g.computeCost F C (b t) = .ok (k t, ρ t) := (hb t).2
    unfold Graph.computeCost at h5
    rw [← hbt, (h3 t).2.1] at h5
    exact (Prod.mk.inj (Except.ok.inj h5)).2.symm
  rw [this]
  exact h4

/-! ### Example -/

namespace Poly1
open Jaxfg.Poly

theorem storageDist_at (v w : ℝ) : storageDist (at_ v) (at_ w) = |v - w| := by
  unfold storageDist sqNorm
  simp [at_, Real.sqrt_sq_eq_abs]

/-- The Jacobian of the example is the derivative of its residual. -/
theorem f_correct (p q s : ℝ) {vals : List (Value ℝ)} (hv : ValuesFor Ex.C (f p q s).vars vals) :
    JacobiansCorrect F Ex.C (f p q s) vals := by
  have hd : rdim (f p q s) = 1 := noiseDim_eq (⟨⟨rfl, rfl⟩, rfl⟩ : NoiseWF (f p q s).noise 1 1)
  cases hv with
  | @cons _ x _ _ hx h2 =>
    cases h2
    intro δs hδ
    cases hδ with
    | @cons _ d _ _ h1 h2 =>
      cases h2
      rw [hasDerivAt_pi]
      generalize rdim _ = n at hd ⊢
      subst hd
      intro i
      obtain rfl : i = 0 := Subsingleton.elim _ _
      rw [Ex.localDim] at h1
      have hfun : ∀ t : ℝ, Spec.vec ((F (f p q s).cls).residual (f p q s).self (movedValues Ex.C (f p q s).vars [x] [d] t)) 1 0 =
          p + q * (x.flatten.getD 0 0 + t * d.getD 0 0) + s * (x.flatten.getD 0 0 + t * d.getD 0 0) ^ 2 := by
        intro t
        obtain ⟨-, e2⟩ := Ex.retract_entry hx (d := d.map (t * ·)) (by simpa using h1) (i := 0) (by simp)
        rw [Ex.getD_smul (by rw [h1]; exact Nat.succ_pos _)] at e2
        rw [← e2]
        rfl
      simp only [hfun]
      have hval : (((f p q s).vars.zip (((F (f p q s).cls).jacobians (f p q s).self [x]).zip [d])).map fun p =>
          arrMat p.2.1 1 (Ex.C p.1.ty).localDim *ᵥ Spec.vec p.2.2 (Ex.C p.1.ty).localDim).sum 0 =
          (q + 2 * s * x.flatten.getD 0 0) * d.getD 0 0 := by
        simp only [f, F, List.zip_cons_cons, List.zip_nil_right, List.map_cons, List.map_nil, List.sum_cons, List.sum_nil, add_zero]
        show ∑ j : Fin 1, _ * _ = _
        rw [Fin.sum_univ_one]
        rfl
      rw [hval]
      have hl : HasDerivAt (fun t : ℝ => x.flatten.getD 0 0 + t * d.getD 0 0) (d.getD 0 0) 0 := Ex.hasDerivAt_line _ _
      have := ((hl.const_mul q).const_add p).add ((hl.pow 2).const_mul s)
      refine this.congr_deriv ?_
      simp; ring

/-- The residual `x² - 2` is regular near `√2`. -/
theorem regular_sqrt_two : RegularNear Ex.C ((g (-2) 0 1).ops F Ex.C) [Ex.x] (at_ √2) [0] (1 / 4) 4 2 0 := by
  have h2 : √2 ^ 2 = (2 : ℝ) := Real.sq_sqrt (by norm_num)
  have hlow : (1.4 : ℝ) ≤ √2 := Real.le_sqrt_of_sq_le (by norm_num)
  have hcost := Jaxfg.Poly.cost_eq (-2) 0 1 √2
  have e0 : -2 + 0 * √2 + 1 * √2 ^ 2 = 0 := by rw [h2]; ring
  rw [e0] at hcost
  have near : ∀ {P : ℝ → List ℝ → Coo ℝ → Prop}, (∀ v, |v - √2| ≤ 1 / 4 → P v [-2 + v ^ 2] ⟨[2 * v], [0], [0], (1, 1)⟩) →
      Near Ex.C ((g (-2) 0 1).ops F Ex.C) [Ex.x] (at_ √2) (1 / 4) fun a r A => P (a.storage.getD 0 0) r A := by
    intro P hP a c r A h1 h2 h3 h4 h5
    obtain ⟨v, rfl⟩ := at_of h1 h2
    rw [Jaxfg.Poly.cost_eq] at h4
    obtain ⟨-, rfl⟩ := Prod.mk.inj (Except.ok.inj h4)
    rw [Jaxfg.Poly.jac_eq] at h5
    cases Except.ok.inj h5
    rw [storageDist_at] at h3
    have := hP v h3
    simpa [at_] using this
  have hm : ∀ v : ℝ, cooMatrix (⟨[2 * v], [0], [0], (1, 1)⟩ : Coo ℝ) 1 1 0 0 = 2 * v := fun v => by simp [cooMatrix, entries]
  have hM : ∀ (v : ℝ) (y : Fin 1 → ℝ), (cooMatrix (⟨[2 * v], [0], [0], (1, 1)⟩ : Coo ℝ) 1 1 *ᵥ y) 0 = 2 * v * y 0 := by
    intro v y
    show ∑ j : Fin 1, _ * _ = _
    rw [Fin.sum_univ_one, hm]
  obtain ⟨G, hG, hT, hD⟩ := C76_derivative F Ex.C Ex.good [f (-2) 0 1] (by simp) (by simpa using f_wf (-2) 0 1)
    (by simp [f]; trivial) (by simpa using fun vals hv => f_correct (-2) 0 1 hv)
  rw [Jaxfg.Poly.make_eq] at hG
  cases Except.ok.inj hG
  have hjac := Jaxfg.Poly.jac_eq (-2) 0 1 √2 0
  have hvar : Graph.variablesOf [f (-2) 0 1] = [Ex.x] := rfl
  have h0 : (2 : ℝ) * nrm [0] = 0 := by simp [nrm, sqNorm]
  rw [hvar] at hT hD
  have key : ∀ τ, τ = 2 * nrm [0] → RegularNear Ex.C ((g (-2) 0 1).ops F Ex.C) [Ex.x] (at_ √2) [0] (1 / 4) 4 2 τ := by
    rintro _ rfl
    refine C76_smooth (M := 2) (ρ := 1 / 4) hT (fun v _ => rfl) hD (Jaxfg.Poly.at_assignment _) rfl
      ⟨hcost, hjac, [_], Jaxfg.Poly.matmul_T_eq _ _, by simp⟩ (by norm_num) (by norm_num) ?_ ?_
    · have h := near (P := fun v _ A => Near Ex.C ((g (-2) 0 1).ops F Ex.C) [Ex.x] (at_ √2) (1 / 4) fun a' _ A' => ∀ y,
          eucl ((cooMatrix A A.shape.1 A.shape.2 - cooMatrix A' A.shape.1 A.shape.2) *ᵥ y) ≤ 2 * storageDist (at_ v) a' * eucl y)
        fun v hv => ?_
      · intro a c r A h1 h2 h3 h4 h5
        have k := h a c r A h1 h2 h3 h4 h5
        obtain ⟨v, rfl⟩ := at_of h1 h2
        exact k
      · have h := near (P := fun w _ A' => ∀ y : Fin 1 → ℝ,
            eucl ((cooMatrix (⟨[2 * v], [0], [0], (1, 1)⟩ : Coo ℝ) 1 1 - cooMatrix A' 1 1) *ᵥ y) ≤ 2 * |v - w| * eucl y) fun w hw y => ?_
        · intro a c r A h1 h2 h3 h4 h5
          have k := h a c r A h1 h2 h3 h4 h5
          obtain ⟨w, rfl⟩ := at_of h1 h2
          rw [storageDist_at]
          exact k
        · have e : ∀ z : Fin 1 → ℝ, eucl z = |z 0| := fun z => by
            show √(∑ i : Fin 1, _ * _) = _
            rw [Fin.sum_univ_one, ← sq, Real.sqrt_sq_eq_abs]
          rw [e, e, sub_mulVec, Pi.sub_apply, hM, hM, ← sub_mul, ← mul_sub, abs_mul, abs_mul, abs_two]
    · refine near (P := fun _ _ A => StiffAtLeast 4 A) fun v hv y => ?_
      show 4 * (∑ i : Fin 1, y i * y i) ≤ ∑ i : Fin 1, _ * _
      rw [Fin.sum_univ_one, Fin.sum_univ_one, hM]
      have : 1 ≤ v := by have := (abs_le.1 hv).1; linarith
      nlinarith [mul_self_nonneg (y 0), mul_self_nonneg (v * y 0), mul_nonneg (mul_self_nonneg (y 0)) (by nlinarith : 0 ≤ v * v - 1)]
  exact key 0 h0.symm

/-- `C76` for the residual `x² - 2`, with CHOLMOD, from a start within `1/10` of `√2`. The solver returns, and every iteration gains
more than one decimal digit. -/
example (stale : Pattern → ScipyCoo ℝ → ℝ → List ℝ → Py (List ℝ)) (addr : Nat) (v : ℝ) (hv : |v - √2| ≤ 1 / 10) (n : Nat)
    (unroll verbose : Bool) :
    ∃ w log, |w - √2| ≤ (1 / 18) ^ (n + 1) * |v - √2| ∧ ∀ fuel : Nat, n + 1 ≤ fuel →
      (⟨verbose, LinSolver.lift (chol stale addr), unroll, n + 1⟩ : FixedIteration Ext).solve CE (gE (-2) 0 1) fuel ((at_ v).map fin) =
        .ok (some ((at_ w).map fin, log)) := by
  obtain ⟨sE, hsE⟩ : ∃ sE : FixedIteration Ext, sE = ⟨verbose, LinSolver.lift (chol stale addr), unroll, n + 1⟩ := ⟨_, rfl⟩
  have hlin : LiftsSolver sE.linear (chol stale addr) := by rw [hsE]; exact liftsSolver_lift _
  have hit : sE.iterations = n + 1 := by rw [hsE]
  rw [← hsE]
  obtain ⟨G, hG, hret⟩ := C72_solve_returns F Ex.C Ex.good [f (-2) 0 1] (by simp) (by simpa using f_wf (-2) 0 1)
    (fun f _ v _ => by rw [Ex.paramDim]; exact Nat.succ_pos _)
  rw [Jaxfg.Poly.make_eq] at hG
  cases Except.ok.inj hG
  obtain ⟨G, hG, htot⟩ := C72_cholmod F Ex.C Ex.good [f (-2) 0 1] (by simp) (by simpa using f_wf (-2) 0 1) stale addr
  rw [Jaxfg.Poly.make_eq] at hG
  cases Except.ok.inj hG
  obtain ⟨o, log, h1, h2, h3⟩ := (hret _ _ (lifts (-2) 0 1) [Ex.x] (at_ v) (Jaxfg.Poly.at_assignment v) rfl
    (fun v => by simp [f])).2.2.2 sE _ hlin htot rfl
  have hs4 : √(4 : ℝ) = 2 := by rw [show (4 : ℝ) = 2 ^ 2 by norm_num]; exact Real.sqrt_sq (by norm_num)
  have hrate : (0 + (0 + 1 / 100000)) / 4 + 2 / (2 * √4) * |v - √2| ≤ (1 / 18 : ℝ) := by rw [hs4]; linarith
  have key := C76_fixed_iteration (lifts (-2) 0 1) (Jaxfg.Poly.sane (-2) 0 1) (fun v _ => rfl) regular_sqrt_two (by norm_num) (by norm_num)
    le_rfl (μ := fun l => l + 1 / 100000) (by norm_num) hlin (fun a c r A k1 k2 _ k4 k5 => C70_cholmod stale .empty addr
      ((Jaxfg.Poly.sane (-2) 0 1).jacobian a a c r A k1 k2 k1 k2 k4 k5).1 (fun p hp => by cases hp))
    (Jaxfg.Poly.at_assignment v) rfl (by rw [storageDist_at]; linarith) (by rw [storageDist_at]; linarith) hit
  rw [storageDist_at] at key
  obtain ⟨o', k1, k2⟩ := key _ _ _ (h3 (n + 1) (by rw [hit]; push_cast; omega))
  obtain ⟨w, rfl⟩ := at_of h1 (h2.trans rfl)
  cases (assign_map_fin k1 : at_ w = o')
  rw [storageDist_at] at k2
  refine ⟨w, log, k2.trans ?_, fun fuel hf => h3 fuel (by rw [hit]; omega)⟩
  exact mul_le_mul_of_nonneg_right (pow_le_pow_left₀ (by positivity) hrate _) (abs_nonneg _)

/-- `C76_quadratic` for the residual `x² - 2`, Gauss-Newton with conjugate gradients (tolerance zero): the number of correct digits
doubles in every step. -/
example (s : GaussNewton ℝ) (hs : s.linear = fun A b l _ => cgSolve A b l 0) (v : ℝ) (hv : |v - √2| ≤ 1 / 10) (k : Nat) (st st' log)
    (hi : initState (gE (-2) 0 1) ((at_ v).map fin) = .ok st)
    (hr : Runs (fun s => s.done) (s.lift.step CE (gE (-2) 0 1)) k st st' log) :
    ∃ w, st'.assignments = (at_ w).map fin ∧ |w - √2| ≤ 2 * (1 / 20) ^ 2 ^ k := by
  have hs4 : √(4 : ℝ) = 2 := by rw [show (4 : ℝ) = 2 ^ 2 by norm_num]; exact Real.sqrt_sq (by norm_num)
  have hL : Near Ex.C ((g (-2) 0 1).ops F Ex.C) [Ex.x] (at_ √2) (1 / 4) fun _ _ A => DampedUpTo (fun l => l * 16) s.linear A := by
    intro a c r A k1 k2 k3 k4 k5
    have hS := regular_sqrt_two.stiff a c r A k1 k2 k3 k4 k5
    have hwf := ((Jaxfg.Poly.sane (-2) 0 1).jacobian a a c r A k1 k2 k1 k2 k4 k5).1
    obtain ⟨w, rfl⟩ := at_of k1 k2
    rw [Jaxfg.Poly.cost_eq] at k4
    obtain ⟨-, rfl⟩ := Prod.mk.inj (Except.ok.inj k4)
    rw [Jaxfg.Poly.jac_eq] at k5
    cases Except.ok.inj k5
    rw [hs]
    refine C70_conjugate_gradient hwf (by simp) (σ := 4) (by norm_num) hS fun j => ?_
    rw [storageDist_at] at k3
    have h2 : √2 ≤ 1.5 := Real.sqrt_le_iff.2 ⟨by norm_num, by norm_num⟩
    have h1 : (1.4 : ℝ) ≤ √2 := Real.le_sqrt_of_sq_le (by norm_num)
    obtain rfl : j = (0 : Fin 1) := Subsingleton.elim (α := Fin 1) _ _
    show ∑ i : Fin 1, _ * _ ≤ _
    rw [Fin.sum_univ_one]
    simp only [transpose_apply]
    have hm : cooMatrix (⟨[0 + 2 * 1 * w], [0], [0], (1, 1)⟩ : Coo ℝ) 1 1 0 0 = 2 * w := by simp [cooMatrix, entries]
    show cooMatrix (⟨[0 + 2 * 1 * w], [0], [0], (1, 1)⟩ : Coo ℝ) 1 1 0 0 * cooMatrix (⟨[0 + 2 * 1 * w], [0], [0], (1, 1)⟩ : Coo ℝ) 1 1 0 0 ≤ 16
    rw [hm]
    have := abs_le.1 k3
    nlinarith
  obtain ⟨b, h1, h2, h3, h4⟩ := C76_quadratic (lifts (-2) 0 1) (Jaxfg.Poly.sane (-2) 0 1) (fun v _ => rfl) regular_sqrt_two (by norm_num)
    (by norm_num) (μ := fun l => l * 16) (by norm_num) (liftsGN_lift s) hL (Jaxfg.Poly.at_assignment v) rfl
    (by rw [storageDist_at]; linarith) (by rw [storageDist_at, hs4]; linarith) hi hr
  obtain ⟨w, rfl⟩ := at_of h2 h3
  rw [storageDist_at, storageDist_at, hs4] at h4
  refine ⟨w, h1, ?_⟩
  have : (2 / (2 * 2) * |v - √2|) ^ 2 ^ k ≤ (1 / 20 : ℝ) ^ 2 ^ k := pow_le_pow_left₀ (by positivity) (by linarith) _
  linarith

end Poly1

end Jaxfg.Props
