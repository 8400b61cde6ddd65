/-
Property C97: Gauss-Newton converges only to stationary points, but need not converge, even near the only minimum of a convex cost. See
Verif.Props.SolverReal for the setting: real arithmetic, inside a program that also knows infinities and NaNs.
-/
import Verif.Lemmas.ExampleStall
import Verif.Props.DoglegLimit
import Verif.Spec.GaussNewtonLimit
import Mathlib.Analysis.Convex.Deriv
import Mathlib.Data.Rat.Lemmas

namespace Jaxfg.Props
open Ext (fin)
open Spec Matrix

/-- Every matrix has a bound. -/
theorem eucl_bound {m n : Nat} (M : Matrix (Fin m) (Fin n) ℝ) : ∃ K, 0 ≤ K ∧ ∀ v, eucl (M *ᵥ v) ≤ K * eucl v := by
  have h0 : 0 ≤ ∑ i, (fun j => M i j) ⬝ᵥ (fun j => M i j) := Finset.sum_nonneg fun i _ => dot_self_nonneg _
  refine ⟨√(∑ i, (fun j => M i j) ⬝ᵥ (fun j => M i j)), Real.sqrt_nonneg _, fun v => ?_⟩
  unfold eucl
  rw [← Real.sqrt_mul h0]
  refine Real.sqrt_le_sqrt ?_
  rw [Finset.sum_mul]
  show ∑ i, _ ≤ _
  refine Finset.sum_le_sum fun i _ => ?_
  have := dot_sq_le (fun j => M i j) v
  rw [sq] at this
  exact this

section
variable {CE : Ty → VarClass Ext} {gE : GraphOps Ext} {C : Ty → VarClass ℝ} {g : GraphOps ℝ} {ws : List Var}

/-- Near `e` the Jacobian is bounded and the gradient changes by at most a multiple of the distance. -/
theorem gradient_near (hT : TotalGraph C g ws) (hE : UsesDefaultRetraction C ws) {e : Assign ℝ} (he : IsAssignmentOf C ws e)
    (hle : e.layout = g.layout) {m : Nat} (hD : DerivativeGraph C g ws m) {δ M : ℝ} (hδ : 0 < δ) (hM : 0 ≤ M)
    (hlip : LipschitzNear C g ws e δ M) :
    ∃ z κ K, GradientAt g e z ∧ 0 ≤ κ ∧ 0 ≤ K ∧ Near C g ws e (min δ 1) fun a r A => SoftAtMost (κ ^ 2) A ∧ r.length = A.shape.1 ∧
      a.storage.length = A.shape.2 ∧
      √(sqNorm z) ≤ eucl (descent (cooMatrix A A.shape.1 A.shape.2) (Spec.vec r A.shape.1)) + K * storageDist a e := by
  have hg := hT.sane
  obtain ⟨ce, re, hce⟩ := hT.cost e he hle
  obtain ⟨B, hB, hBr⟩ := hT.jacobian e e ce re he hle he hle hce
  obtain ⟨hBwf, hBdim⟩ := hg.jacobian _ _ _ _ _ he hle he hle hce hB
  obtain ⟨z, z1, -, z3⟩ := gradient_exists hce hB hBwf hBr.symm
  obtain ⟨κB, hκB0, hκB⟩ := eucl_bound (cooMatrix B B.shape.1 B.shape.2)
  refine ⟨z, κB + M, (κB + M) * (κB + M + M / 2) + M * eucl (Spec.vec re B.shape.1), z1, by positivity, ?_, ?_⟩
  · have := eucl_nonneg (Spec.vec re B.shape.1)
    positivity
  intro a c r A ha hla hdist hc hA
  obtain ⟨t, ht⟩ : ∃ t, t = storageDist a e := ⟨_, rfl⟩
  have ht0 : 0 ≤ t := by rw [ht]; exact storageDist_nonneg _ _
  have t1 : storageDist a e ≤ δ := hdist.trans (min_le_left _ _)
  have t2 : t ≤ 1 := by rw [ht]; exact hdist.trans (min_le_right _ _)
  obtain ⟨hAwf, hAdim⟩ := hg.jacobian _ _ _ _ _ ha hla ha hla hc hA
  obtain ⟨hAm, hrm⟩ := jac_rows hT hE hD ha hla hc hA
  obtain ⟨hBm, hrem⟩ := jac_rows hT hE hD he hle hce hB
  have hs1 : B.shape.1 = A.shape.1 := hBm.trans hAm.symm
  have hs2 : B.shape.2 = A.shape.2 := hBdim.trans hAdim.symm
  have hself : storageDist e e ≤ δ := by
    rw [storageDist_eq rfl rfl, sub_self]
    simpa [eucl] using hδ.le
  have hLip := hlip _ _ _ _ ha hla t1 hc hA _ _ _ _ he hle hself hce hB
  beta_reduce at hLip
  have hTay := taylor_near hT hE hD he hle hce hlip _ _ _ _ ha hla t1 hc hA
  beta_reduce at hTay
  have hal : a.storage.length = A.shape.2 := by
    obtain ⟨b, -, -, hb, -⟩ := hT.retract ha hla (d := List.replicate A.shape.2 0) (by simpa using hAdim)
    obtain ⟨l1, -⟩ := retract_storage hT.sane hE ha hla (by simpa using hAdim) hb
    simpa using l1
  have hel : e.storage.length = A.shape.2 := by rw [he.2.2, hle, ← hla, ← ha.2.2, hal]
  rw [← ht] at hLip hTay
  have htv := ht
  rw [storageDist_eq hal hel, ← eucl_neg, neg_sub, ← vec_sub_list hel hal] at htv
  rw [hs1, hs2] at hκB
  rw [hs1] at ⊢
  rw [hs1, hs2] at z3
  obtain ⟨MA, hMA⟩ : ∃ MA, MA = cooMatrix A A.shape.1 A.shape.2 := ⟨_, rfl⟩
  obtain ⟨MB, hMB⟩ : ∃ MB, MB = cooMatrix B A.shape.1 A.shape.2 := ⟨_, rfl⟩
  rw [← hMA, ← hMB] at hLip
  rw [← hMA] at hTay
  rw [← hMB] at z3 hκB
  have hA2 : ∀ v, eucl (MA *ᵥ v) ≤ (κB + M) * eucl v := by
    intro v
    have k1 := eucl_add_le ((MA - MB) *ᵥ v) (MB *ᵥ v)
    rw [sub_mulVec, sub_add_cancel, ← sub_mulVec] at k1
    have k2 := hLip v
    have k3 := hκB v
    have k4 := mul_le_mul_of_nonneg_right (mul_le_of_le_one_right hM t2) (eucl_nonneg v)
    linarith
  have hκ0 : 0 ≤ κB + M := by positivity
  refine ⟨fun v => ?_, hrm.trans hAm.symm, hal, ?_⟩
  · rw [← hMA, ← eucl_sq, ← eucl_sq, ← mul_pow]
    exact pow_le_pow_left₀ (eucl_nonneg _) (hA2 v) 2
  rw [← hMA, ← ht]
  obtain ⟨κ, hκ⟩ : ∃ κ, κ = κB + M := ⟨_, rfl⟩
  rw [← hκ] at hA2 hκ0 ⊢
  obtain ⟨ra, hra⟩ : ∃ ra, ra = Spec.vec r A.shape.1 := ⟨_, rfl⟩
  obtain ⟨rb, hrb⟩ : ∃ rb, rb = Spec.vec re A.shape.1 := ⟨_, rfl⟩
  obtain ⟨v, hv⟩ : ∃ v, v = Spec.vec (List.zipWith (· - ·) e.storage a.storage) A.shape.2 := ⟨_, rfl⟩
  rw [← hra] at hTay ⊢
  rw [← hrb] at hTay z3 ⊢
  rw [← hv] at hTay htv
  have b1 : eucl (rb - ra) ≤ κ * t + M / 2 * t ^ 2 := by
    have k1 := eucl_add_le (rb - ra - MA *ᵥ v) (MA *ᵥ v)
    rw [sub_add_cancel] at k1
    have k2 := hA2 v
    rw [← htv] at k2
    linarith
  have b2 : eucl (MAᵀ *ᵥ (rb - ra)) ≤ κ * (κ * t + M / 2 * t ^ 2) :=
    (eucl_transpose hκ0 hA2 _).trans (mul_le_mul_of_nonneg_left b1 hκ0)
  have b3 : eucl ((MA - MB)ᵀ *ᵥ rb) ≤ M * t * eucl rb := eucl_transpose (by positivity) hLip rb
  have b4 : √(sqNorm z) ≤ eucl (descent MA ra) + eucl (MAᵀ *ᵥ (rb - ra)) + eucl ((MA - MB)ᵀ *ᵥ rb) := by
    have e1 : descent MB rb = descent MA ra + -(MAᵀ *ᵥ (rb - ra)) + (MA - MB)ᵀ *ᵥ rb := by
      unfold descent
      rw [transpose_sub, sub_mulVec, mulVec_neg, mulVec_neg, mulVec_sub]
      abel
    rw [z3, e1]
    have k1 := eucl_add_le (descent MA ra + -(MAᵀ *ᵥ (rb - ra))) ((MA - MB)ᵀ *ᵥ rb)
    have k2 := eucl_add_le (descent MA ra) (-(MAᵀ *ᵥ (rb - ra)))
    rw [eucl_neg] at k2
    linarith
  have b5 : κ * (M / 2) * t ^ 2 ≤ κ * (M / 2) * t :=
    mul_le_mul_of_nonneg_left (by nlinarith only [ht0, t2]) (by positivity)
  linarith

variable {μ : ℝ → ℝ} {u : Nat → State ℝ}

/-- Steps whose linear systems are solved up to damping `μ 0` and that become short come to points with a small gradient. -/
theorem steps_stationary (hT : TotalGraph C g ws) (hE : UsesDefaultRetraction C ws) {L : LinSolver ℝ} (hμ : 0 ≤ μ 0)
    (hU : AllJacobians C g ws (DampedUpTo μ L))
    (hgood : ∀ j, GoodState C g ws (u j) ∧ g.computeCost (u j).assignments = .ok ((u j).cost, (u j).residual))
    (hstep : ∀ j, ∃ A ATr d, g.jacobian (u j).assignments (u j).residual = .ok A ∧ A.T.matmul (u j).residual = .ok ATr ∧
      L A (ATr.map fun x => -x) 0 (u j).iterations = .ok d ∧
      (u j).assignments.manifoldRetract C ⟨d, g.localLayout⟩ = .ok (u (j + 1)).assignments)
    {e : Assign ℝ} (he : IsAssignmentOf C ws e) (hle : e.layout = g.layout) (hconv : ConvergesTo (fun j => (u j).assignments) e)
    {m : Nat} (hD : DerivativeGraph C g ws m) {δ M : ℝ} (hδ : 0 < δ) (hM : 0 ≤ M) (hlip : LipschitzNear C g ws e δ M) :
    ∃ z, GradientAt g e z ∧ ∀ y ∈ z, y = 0 := by
  obtain ⟨z, κ, K, z1, hκ, hK, hnear⟩ := gradient_near hT hE he hle hD hδ hM hlip
  refine ⟨z, z1, ?_⟩
  by_contra hne
  have hpos : 0 < √(sqNorm z) := by
    refine Real.sqrt_pos.2 (lt_of_le_of_ne (sqNorm_nonneg z) fun h0 => hne ?_)
    have := sqNorm_eq_zero.1 h0.symm
    intro y hy
    rw [this] at hy
    exact (List.mem_replicate.1 hy).2
  obtain ⟨G, hG⟩ : ∃ G, G = √(sqNorm z) := ⟨_, rfl⟩
  rw [← hG] at hpos
  obtain ⟨Q, hQ⟩ : ∃ Q, Q = κ ^ 2 + μ 0 := ⟨_, rfl⟩
  have hQ0 : 0 ≤ Q := by rw [hQ]; positivity
  obtain ⟨n, hn⟩ := hconv (min (min δ 1) (G / (2 * (2 * Q + K + 1)))) (lt_min (lt_min hδ one_pos) (by positivity))
  have hn0 := hn n le_rfl
  have hn1 := hn (n + 1) (Nat.le_succ n)
  obtain ⟨i1, i2⟩ := hgood n
  obtain ⟨A, ATr, d, s1, s2, s3, s4⟩ := hstep n
  obtain ⟨w1, w2, w3, w4⟩ := hnear _ _ _ _ i1.assignment i1.layout (hn0.trans (min_le_left _ _)) i2 s1
  obtain ⟨hwf, hdim⟩ := i1.jac hT.sane s1
  obtain ⟨-, hbl, hbv⟩ := descent_ok hwf (matmul_neg (cooWF_T hwf) s2)
  obtain ⟨hdl, D, hD1, hD2, hD3⟩ := i1.all hU s1 _ _ _ _ hbl le_rfl s3
  rw [hbv] at hD3
  have r1 := damped_rhs_le hD1 (by rw [← hQ]; exact hQ0) w1 hD2 hD3
  obtain ⟨k1, k2⟩ := retract_storage hT.sane hE i1.assignment i1.layout (hdl.trans hdim) s4
  have hel : e.storage.length = A.shape.2 := by rw [he.2.2, hle, ← i1.layout, ← i1.assignment.2.2, w3]
  have hbl' : (u (n + 1)).assignments.storage.length = A.shape.2 := by rw [k2]; simp [w3, hdl]
  have d1 : eucl (Spec.vec d A.shape.2) ≤ storageDist (u (n + 1)).assignments e + storageDist (u n).assignments e := by
    rw [storageDist_eq hbl' hel, storageDist_eq w3 hel, k2, vec_add_list w3 hdl]
    have := eucl_add_le (Spec.vec (u n).assignments.storage A.shape.2 + Spec.vec d A.shape.2 - Spec.vec e.storage A.shape.2)
      (-(Spec.vec (u n).assignments.storage A.shape.2 - Spec.vec e.storage A.shape.2))
    rw [eucl_neg] at this
    refine le_trans (le_of_eq ?_) this
    congr 1; abel
  obtain ⟨t, ht⟩ : ∃ t, t = G / (2 * (2 * Q + K + 1)) := ⟨_, rfl⟩
  have ht' : t * (2 * (2 * Q + K + 1)) = G := by rw [ht]; field_simp
  have hp0 := hn0.trans (min_le_right _ _)
  have hp1 := hn1.trans (min_le_right _ _)
  rw [← ht] at hp0 hp1
  have f1 := mul_le_mul_of_nonneg_left (d1.trans (add_le_add hp1 hp0)) hQ0
  have f2 := mul_le_mul_of_nonneg_left hp0 hK
  have r1' : eucl (descent (cooMatrix A A.shape.1 A.shape.2) (Spec.vec (u n).residual A.shape.1)) ≤ Q * eucl (Spec.vec d A.shape.2) := by
    rw [hQ]; exact r1
  rw [← hG] at w4
  have ht0 : 0 < t := by rw [ht]; positivity
  linarith

/-- **C97**, Gauss-Newton. Let variables have the default retraction, the linear solver add at most `μ 0`, the Jacobian be the derivative
of the residual and Lipschitz continuous near `e`. If the iterates of Gauss-Newton converge to `e`, whatever its stopping tests would
say, then the gradient of the cost is zero at `e`. -/
theorem C97_gauss_newton_stationary (h : Lifts CE gE C g) (hT : TotalGraph C g ws) (hE : UsesDefaultRetraction C ws)
    {sE : GaussNewton Ext} {s : GaussNewton ℝ} (hs : LiftsGN sE s) (hμ : 0 ≤ μ 0) (hU : AllJacobians C g ws (DampedUpTo μ s.linear))
    (ha : IsAssignmentOf C ws (u 0).assignments) (hl : (u 0).assignments.layout = g.layout)
    (hrun : EndlessSteps gE (sE.step CE gE) u) {e : Assign ℝ} (he : IsAssignmentOf C ws e) (hle : e.layout = g.layout)
    (hconv : ConvergesTo (fun j => (u j).assignments) e) {m : Nat} (hD : DerivativeGraph C g ws m) {δ M : ℝ} (hδ : 0 < δ) (hM : 0 ≤ M)
    (hlip : LipschitzNear C g ws e δ M) : ∃ z, GradientAt g e z ∧ ∀ y ∈ z, y = 0 := by
  have hgood : ∀ j, GoodState C g ws (u j) ∧ g.computeCost (u j).assignments = .ok ((u j).cost, (u j).residual) := by
    intro j
    induction j with
    | zero =>
      obtain ⟨c, r, h1, h2⟩ := (initState_fin h).1 hrun.start
      have h2 := state_map_inj h2
      have hc : g.computeCost (u 0).assignments = .ok ((u 0).cost, (u 0).residual) := by rw [h1, h2]
      exact ⟨⟨ha, hl, ⟨_, hc⟩, _, _, ha, hl, hc⟩, hc⟩
    | succ j ih =>
      obtain ⟨log, hst⟩ := hrun.step j
      obtain ⟨A, ATr, d, b, c, r, conv, h1, h2, h3, h4, h5, -, h7, -⟩ := (gnStep_fin h hs).1 hst
      have h7 := state_map_inj h7
      exact ⟨ih.1.next h4 h5 true (by rw [h7]; rfl) (by rw [h7]; rfl) (by rw [h7]), by rw [h7]; exact h5⟩
  refine steps_stationary hT hE hμ hU hgood (fun j => ?_) he hle hconv hD hδ hM hlip
  obtain ⟨log, hst⟩ := hrun.step j
  obtain ⟨A, ATr, d, b, c, r, conv, h1, h2, h3, h4, h5, -, h7, -⟩ := (gnStep_fin h hs).1 hst
  have h7 := state_map_inj h7
  exact ⟨A, ATr, d, h1, h2, h3, by rw [h7]; exact h4⟩

/-- **C97** for the steps of `FixedIterationGaussNewtonSolver`. -/
theorem C97_fixed_iteration_stationary (h : Lifts CE gE C g) (hT : TotalGraph C g ws) (hE : UsesDefaultRetraction C ws)
    {sE : FixedIteration Ext} {L : LinSolver ℝ} (hs : LiftsSolver sE.linear L) (hμ : 0 ≤ μ 0) (hU : AllJacobians C g ws (DampedUpTo μ L))
    (ha : IsAssignmentOf C ws (u 0).assignments) (hl : (u 0).assignments.layout = g.layout)
    (hrun : EndlessSteps gE (sE.step CE gE) u) {e : Assign ℝ} (he : IsAssignmentOf C ws e) (hle : e.layout = g.layout)
    (hconv : ConvergesTo (fun j => (u j).assignments) e) {m : Nat} (hD : DerivativeGraph C g ws m) {δ M : ℝ} (hδ : 0 < δ) (hM : 0 ≤ M)
    (hlip : LipschitzNear C g ws e δ M) : ∃ z, GradientAt g e z ∧ ∀ y ∈ z, y = 0 := by
  have hgood : ∀ j, GoodState C g ws (u j) ∧ g.computeCost (u j).assignments = .ok ((u j).cost, (u j).residual) := by
    intro j
    induction j with
    | zero =>
      obtain ⟨c, r, h1, h2⟩ := (initState_fin h).1 hrun.start
      have h2 := state_map_inj h2
      have hc : g.computeCost (u 0).assignments = .ok ((u 0).cost, (u 0).residual) := by rw [h1, h2]
      exact ⟨⟨ha, hl, ⟨_, hc⟩, _, _, ha, hl, hc⟩, hc⟩
    | succ j ih =>
      obtain ⟨log, hst⟩ := hrun.step j
      obtain ⟨A, ATr, d, b, c, r, h1, h2, h3, h4, h5, h7, -⟩ := (fixedStep_fin h hs).1 hst
      have h7 := state_map_inj h7
      exact ⟨ih.1.next h4 h5 true (by rw [h7]; rfl) (by rw [h7]; rfl) (by rw [h7]), by rw [h7]; exact h5⟩
  refine steps_stationary hT hE hμ hU hgood (fun j => ?_) he hle hconv hD hδ hM hlip
  obtain ⟨log, hst⟩ := hrun.step j
  obtain ⟨A, ATr, d, b, c, r, h1, h2, h3, h4, h5, h7, -⟩ := (fixedStep_fin h hs).1 hst
  have h7 := state_map_inj h7
  exact ⟨A, ATr, d, h1, h2, h3, by rw [h7]; exact h4⟩

end

/-! ### A case in which Gauss-Newton does not converge -/

namespace Repelled
open Curve
open Poly (at_)

/-- The residuals. -/
def u : ℝ → ℝ := fun x => x + 1
def w : ℝ → ℝ := fun x => -2 * x ^ 2 + x - 1

theorem cost_poly (x : ℝ) : u x ^ 2 + w x ^ 2 = 4 * x ^ 4 - 4 * x ^ 3 + 6 * x ^ 2 + 2 := by unfold u w; ring

theorem deriv_u (x : ℝ) : deriv u x = 1 := by
  have : HasDerivAt u 1 x := (hasDerivAt_id x).add_const 1
  exact this.deriv

theorem deriv_w (x : ℝ) : deriv w x = 1 - 4 * x := by
  have h1 := (((hasDerivAt_pow 2 x).const_mul (-2)).add (hasDerivAt_id x)).sub_const 1
  have : HasDerivAt w (1 - 4 * x) x := h1.congr_deriv (by norm_num; ring)
  exact this.deriv

theorem convex : StrictConvexOn ℝ Set.univ fun x => u x ^ 2 + w x ^ 2 := by
  have e : (fun x => u x ^ 2 + w x ^ 2) = fun x => 4 * x ^ 4 - 4 * x ^ 3 + 6 * x ^ 2 + 2 := funext cost_poly
  rw [e]
  have d1 : deriv (fun x : ℝ => 4 * x ^ 4 - 4 * x ^ 3 + 6 * x ^ 2 + 2) = fun x => 16 * x ^ 3 - 12 * x ^ 2 + 12 * x := by
    funext x
    have := ((((hasDerivAt_pow 4 x).const_mul 4).sub ((hasDerivAt_pow 3 x).const_mul 4)).add ((hasDerivAt_pow 2 x).const_mul 6)).add_const 2
    exact (this.congr_deriv (by norm_num; ring) : HasDerivAt _ (16 * x ^ 3 - 12 * x ^ 2 + 12 * x) x).deriv
  have d2 : deriv (fun x : ℝ => 16 * x ^ 3 - 12 * x ^ 2 + 12 * x) = fun x => 48 * x ^ 2 - 24 * x + 12 := by
    funext x
    have := (((hasDerivAt_pow 3 x).const_mul 16).sub ((hasDerivAt_pow 2 x).const_mul 12)).add ((hasDerivAt_id x).const_mul 12)
    exact (this.congr_deriv (by norm_num; ring) : HasDerivAt _ (48 * x ^ 2 - 24 * x + 12) x).deriv
  refine strictConvexOn_univ_of_deriv2_pos (by fun_prop) fun x => ?_
  show 0 < deriv (deriv _) x
  rw [d1, d2]
  nlinarith [sq_nonneg (x - 1 / 4)]

/-- What a Gauss-Newton step does, with the diagonal that CHOLMOD adds. -/
noncomputable def next (x : ℝ) : ℝ := x + (-8 * x ^ 3 + 6 * x ^ 2 - 6 * x) / (16 * x ^ 2 - 8 * x + 2 + 1 / 100000)

theorem den_pos (x : ℝ) : 0 < 16 * x ^ 2 - 8 * x + 2 + 1 / 100000 := by nlinarith [sq_nonneg (4 * x - 1)]

variable (stale : Pattern → ScipyCoo ℝ → ℝ → List ℝ → Py (List ℝ)) (addr : Nat)

theorem gn_step (S : GaussNewton ℝ) (hS : S.linear = Poly.chol stale addr) {p : State ℝ} {x : ℝ} (hp : p.assignments = at_ x)
    (hr : p.residual = [u x, w x]) :
    (∃ dn log, S.lift.step CE (gE u w) (p.map fin) =
      .ok (State.map fin ⟨p.iterations + 1, at_ (next x), u (next x) ^ 2 + w (next x) ^ 2, [u (next x), w (next x)], dn⟩, log)) ∧
    ∀ q log, S.lift.step CE (gE u w) (p.map fin) = .ok (State.map fin q, log) →
      q.assignments = at_ (next x) ∧ q.residual = [u (next x), w (next x)] := by
  obtain ⟨d, hd⟩ : ∃ d, d = (-8 * x ^ 3 + 6 * x ^ 2 - 6 * x) / (16 * x ^ 2 - 8 * x + 2 + 1 / 100000) := ⟨_, rfl⟩
  have hn : x + d = next x := by rw [hd]; rfl
  have j1 : (g.ops (F u w) Ex.C).jacobian p.assignments p.residual = .ok (J 1 (1 - 4 * x)) := by
    rw [hp, hr, jac_eq, deriv_u, deriv_w]
  have j2 : (J 1 (1 - 4 * x)).T.matmul p.residual = .ok [1 * u x + (1 - 4 * x) * w x] := by rw [hr]; exact matmul_T_eq _ _ _ _
  have j3 : S.linear (J 1 (1 - 4 * x)) ([1 * u x + (1 - 4 * x) * w x].map fun x => -x) 0 p.iterations = .ok [d] := by
    rw [hS, List.map_singleton, chol_eq stale addr _ _ _ 0 le_rfl, hd]
    unfold u w
    congr 3
    · ring
    · ring
  have j4 : p.assignments.manifoldRetract Ex.C ⟨[d], (g.ops (F u w) Ex.C).localLayout⟩ = .ok (at_ (next x)) := by
    rw [hp, ← hn]; exact Poly.retract_eq x d
  have j5 := cost_eq u w (next x)
  refine ⟨?_, fun q log h => ?_⟩
  · obtain ⟨conv, hconv⟩ : ∃ conv, convergedTest Ex.C S.toCriteria p (u (next x) ^ 2 + w (next x) ^ 2) [d]
        (g.ops (F u w) Ex.C).localLayout ([1 * u x + (1 - 4 * x) * w x].map fun x => -x) = .ok conv := by
      obtain ⟨i, a, c, r, dn⟩ := p
      have hp : a = at_ x := hp
      subst hp
      exact ⟨_, rfl⟩
    exact ⟨_, _, (gnStep_fin (lifts u w) (liftsGN_lift S)).2 ⟨_, _, _, _, _, _, conv, j1, j2, j3, j4, j5, hconv, rfl, rfl⟩⟩
  · obtain ⟨A, ATr, d', b, c, r, conv, h1, h2, h3, h4, h5, -, h7, -⟩ := (gnStep_fin (lifts u w) (liftsGN_lift S)).1 h
    have h7 := state_map_inj h7
    rw [j1] at h1
    cases Except.ok.inj h1
    rw [j2] at h2
    cases Except.ok.inj h2
    rw [j3] at h3
    cases Except.ok.inj h3
    rw [j4] at h4
    cases Except.ok.inj h4
    rw [j5] at h5
    cases Except.ok.inj h5
    rw [h7]
    exact ⟨rfl, rfl⟩

/-- The step, as a multiple. -/
theorem next_eq (x : ℝ) : next x = x * (1 - (8 * x ^ 2 - 6 * x + 6) / (16 * x ^ 2 - 8 * x + 2 + 1 / 100000)) := by
  unfold next
  have := (den_pos x).ne'
  field_simp
  ring

/-- Near the minimum, steps lead away from it. -/
theorem next_grows {x : ℝ} (h : |x| ≤ 1 / 20) : 3 / 2 * |x| ≤ |next x| := by
  obtain ⟨h1, h2⟩ := abs_le.1 h
  rw [next_eq, abs_mul, mul_comm]
  refine mul_le_mul_of_nonneg_left ?_ (abs_nonneg x)
  have : (5 : ℝ) / 2 ≤ (8 * x ^ 2 - 6 * x + 6) / (16 * x ^ 2 - 8 * x + 2 + 1 / 100000) := by
    rw [le_div_iff₀ (den_pos x)]
    nlinarith
  rw [abs_of_neg (by linarith)]
  linarith

/-- The only point at which a step stays. -/
theorem next_fixed {x : ℝ} (h : next x = x) : x = 0 := by
  unfold next at h
  have h1 : (-8 * x ^ 3 + 6 * x ^ 2 - 6 * x) / (16 * x ^ 2 - 8 * x + 2 + 1 / 100000) = 0 := by linarith
  rw [div_eq_zero_iff, or_iff_left (den_pos x).ne'] at h1
  have h2 : x * (8 * x ^ 2 - 6 * x + 6) = 0 := by linarith
  rcases mul_eq_zero.1 h2 with h3 | h3
  · exact h3
  · nlinarith [sq_nonneg (x - 3 / 8)]

theorem next_continuous : Continuous next := by
  unfold next
  refine continuous_id.add (Continuous.div (by fun_prop) (by fun_prop) fun x => (den_pos x).ne')

/-- No step from a rational number other than 0 meets the minimum. -/
theorem next_rat {q : ℚ} (hq : q ≠ 0) : ∃ q' : ℚ, q' ≠ 0 ∧ next q = q' := by
  refine ⟨q + (-8 * q ^ 3 + 6 * q ^ 2 - 6 * q) / (16 * q ^ 2 - 8 * q + 2 + 1 / 100000), fun h => ?_, by unfold next; push_cast; rfl⟩
  have hd : (0 : ℚ) < 16 * q ^ 2 - 8 * q + 2 + 1 / 100000 := by nlinarith [sq_nonneg (4 * q - 1)]
  have h1 : q * (16 * q ^ 2 - 8 * q + 2 + 1 / 100000) + (-8 * q ^ 3 + 6 * q ^ 2 - 6 * q) = 0 := by
    have := mul_div_cancel₀ (-8 * q ^ 3 + 6 * q ^ 2 - 6 * q) hd.ne'
    rw [← this]
    linear_combination (16 * q ^ 2 - 8 * q + 2 + 1 / 100000) * h
  have h2 : q * (8 * q ^ 2 - 2 * q - 4 + 1 / 100000) = 0 := by linear_combination h1
  rcases mul_eq_zero.1 h2 with h3 | h3
  · exact hq h3
  · have h4 : IsSquare ((2062495 : Nat) : ℚ) := ⟨250 * (8 * q - 1), by push_cast; linear_combination -500000 * h3⟩
    obtain ⟨k, hk⟩ := Rat.isSquare_natCast_iff.1 h4
    rcases Nat.lt_or_ge k 1437 with h5 | h5
    · nlinarith
    · nlinarith

/-- The states of an execution from a rational number. -/
theorem run_rat {S : GaussNewton ℝ} (hS : S.linear = Poly.chol stale addr) {v : Nat → State ℝ} {q : ℚ} (hq : q ≠ 0)
    (hrun : EndlessSteps (gE u w) (S.lift.step CE (gE u w)) v) (h0 : (v 0).assignments = at_ q) (j : Nat) :
    ∃ q' : ℚ, q' ≠ 0 ∧ (v j).assignments = at_ q' ∧ (v j).residual = [u q', w q'] ∧ (v (j + 1)).assignments = at_ (next q') := by
  induction j with
  | zero =>
    obtain ⟨c, r, h1, h2⟩ := (initState_fin (lifts u w)).1 hrun.start
    have h2 := state_map_inj h2
    rw [h0, cost_eq] at h1
    have hr : (v 0).residual = [u q, w q] := by
      rw [h2, ← (Prod.mk.inj (Except.ok.inj h1)).2]
    obtain ⟨log, hst⟩ := hrun.step 0
    exact ⟨q, hq, h0, hr, ((gn_step stale addr S hS h0 hr).2 _ _ hst).1⟩
  | succ j ih =>
    obtain ⟨q', h1, h2, h3, h4⟩ := ih
    obtain ⟨log, hst⟩ := hrun.step j
    obtain ⟨k1, k2⟩ := (gn_step stale addr S hS h2 h3).2 _ _ hst
    obtain ⟨q2, n1, n2⟩ := next_rat h1
    rw [n2] at k1 k2
    obtain ⟨log', hst'⟩ := hrun.step (j + 1)
    exact ⟨q2, n1, k1, k2, ((gn_step stale addr S hS k1 k2).2 _ _ hst').1⟩

end Repelled

section
open Curve Repelled
open Poly (at_)
variable (stale : Pattern → ScipyCoo ℝ → ℝ → List ℝ → Py (List ℝ)) (addr : Nat)

/-- **C97**, Gauss-Newton need not converge. There is a problem with one scalar variable and two polynomial residuals whose cost is strictly
convex, with its minimum at 0, such that Gauss-Newton with CHOLMOD converges to no point from any rational number other than 0 itself,
however close; the steps from within 1/20 go away from the minimum by half the distance or more. (Executions exist, so this is not for
want of a step.) -/
theorem C97_need_not_converge : ∃ u w : ℝ → ℝ, ContDiff ℝ (⊤ : ℕ∞) u ∧ ContDiff ℝ (⊤ : ℕ∞) w ∧
    StrictConvexOn ℝ Set.univ (fun x => u x ^ 2 + w x ^ 2) ∧ (∀ x, x ≠ 0 → u 0 ^ 2 + w 0 ^ 2 < u x ^ 2 + w x ^ 2) ∧
    ∃ G, Graph.make Ex.C [Curve.f] = .ok G ∧ FactorWF (Curve.F u w) Ex.C Curve.f ∧ ∃ CE gE, Lifts CE gE Ex.C (G.ops (Curve.F u w) Ex.C) ∧
    (∀ x, (G.ops (Curve.F u w) Ex.C).computeCost (at_ x) = .ok (u x ^ 2 + w x ^ 2, [u x, w x])) ∧
    ∀ s : GaussNewton ℝ, s.linear = Poly.chol stale addr → ∃ sE, LiftsGN sE s ∧ ∀ q : ℚ, q ≠ 0 →
      (∃ v, EndlessSteps gE (sE.step CE gE) v ∧ (v 0).assignments = at_ q) ∧
      ∀ v, EndlessSteps gE (sE.step CE gE) v → (v 0).assignments = at_ q →
        (∀ j, ∃ x y : ℝ, (v j).assignments = at_ x ∧ (v (j + 1)).assignments = at_ y ∧ (|x| ≤ 1 / 20 → 3 / 2 * |x| ≤ |y|)) ∧
        ∀ e, IsAssignmentOf Ex.C [Ex.x] e → e.layout = G.layout → ¬ ConvergesTo (fun j => (v j).assignments) e := by
  refine ⟨u, w, ?_, ?_, convex, fun x hx => ?_, Curve.g, Curve.make_eq, f_wf _ _, CE, gE u w, lifts u w, cost_eq u w, fun S hS =>
    ⟨S.lift, liftsGN_lift S, fun q hq => ⟨?_, fun v hrun h0 => ⟨fun j => ?_, fun e he hle hconv => ?_⟩⟩⟩⟩
  · unfold u; fun_prop
  · unfold w; fun_prop
  · rw [cost_poly, cost_poly]
    have : 0 < x ^ 2 := by positivity
    nlinarith [sq_nonneg (2 * x - 1), sq_nonneg x]
  · obtain ⟨x, hx0, hx⟩ : ∃ x : Nat → ℝ, x 0 = q ∧ ∀ j, x (j + 1) = next (x j) := ⟨Nat.rec (q : ℝ) fun _ => next, rfl, fun _ => rfl⟩
    have hstep : ∀ (j : Nat) (dn : Bool), ∃ dn' log, S.lift.step CE (gE u w)
        (State.map fin ⟨j, at_ (x j), u (x j) ^ 2 + w (x j) ^ 2, [u (x j), w (x j)], dn⟩) =
        .ok (State.map fin ⟨j + 1, at_ (x (j + 1)), u (x (j + 1)) ^ 2 + w (x (j + 1)) ^ 2, [u (x (j + 1)), w (x (j + 1))], dn'⟩, log) := by
      intro j dn
      rw [hx]
      exact (gn_step stale addr S hS (p := ⟨j, at_ (x j), u (x j) ^ 2 + w (x j) ^ 2, [u (x j), w (x j)], dn⟩) rfl rfl).1
    choose D log hD using hstep
    obtain ⟨dn, hdn0, hdn⟩ : ∃ dn : Nat → Bool, dn 0 = false ∧ ∀ j, dn (j + 1) = D j (dn j) := ⟨Nat.rec false D, rfl, fun _ => rfl⟩
    refine ⟨fun j => ⟨j, at_ (x j), u (x j) ^ 2 + w (x j) ^ 2, [u (x j), w (x j)], dn j⟩, ⟨?_, fun j => ⟨log j (dn j), ?_⟩⟩, by
      show at_ (x 0) = _; rw [hx0]⟩
    · exact (initState_fin (lifts u w)).2 ⟨_, _, cost_eq u w (x 0), by simp only [hdn0]⟩
    · simp only [hdn]; exact hD j (dn j)
  · obtain ⟨q', -, h2, -, h4⟩ := run_rat stale addr hS hq hrun h0 j
    exact ⟨q', next q', h2, h4, next_grows⟩
  · obtain ⟨y, rfl⟩ := at_of he hle
    have hrat := run_rat stale addr hS hq hrun h0
    choose x hne hx _ hnext using hrat
    have hstep : ∀ j, (x (j + 1) : ℝ) = next (x j) := by
      intro j
      have := (hx (j + 1)).symm.trans (hnext j)
      exact (List.cons.inj (congrArg Assign.storage this)).1
    have hlim : Filter.Tendsto (fun j => (x j : ℝ)) Filter.atTop (nhds y) := by
      rw [Metric.tendsto_atTop]
      intro ε hε
      obtain ⟨n, hn⟩ := hconv (ε / 2) (by positivity)
      refine ⟨n, fun j hj => ?_⟩
      have := hn j hj
      beta_reduce at this
      rw [hx j, Poly1.storageDist_at] at this
      rw [Real.dist_eq]
      linarith
    have hy : next y = y := by
      have h1 := (next_continuous.tendsto y).comp hlim
      have h2 := hlim.comp (Filter.tendsto_add_atTop_nat 1)
      refine tendsto_nhds_unique (h1.congr fun j => ?_) h2
      exact (hstep j).symm
    rw [next_fixed hy] at hconv
    obtain ⟨n, hn⟩ := hconv (1 / 20) (by norm_num)
    have hsmall : ∀ j, n ≤ j → |(x j : ℝ)| ≤ 1 / 20 := fun j hj => by
      have := hn j hj
      beta_reduce at this
      rw [hx j, Poly1.storageDist_at, sub_zero] at this
      exact this
    have hgrow : ∀ k, (3 / 2 : ℝ) ^ k * |(x n : ℝ)| ≤ |(x (n + k) : ℝ)| := by
      intro k
      induction k with
      | zero => simp
      | succ k ih =>
        have := next_grows (hsmall (n + k) (by omega))
        rw [← hstep] at this
        rw [pow_succ', mul_assoc, ← Nat.add_assoc]
        linarith
    have hpos : 0 < |(x n : ℝ)| := abs_pos.2 (by exact_mod_cast hne n)
    obtain ⟨k, hk⟩ := pow_unbounded_of_one_lt (1 / 20 / |(x n : ℝ)|) (show (1 : ℝ) < 3 / 2 by norm_num)
    rw [div_lt_iff₀ hpos] at hk
    linarith [hgrow k, hsmall (n + k) (by omega)]

end

/-! ### Example -/

namespace Poly1
open Jaxfg.Poly

/-- A case of `C97_gauss_newton_stationary`: the residual `1 + x` from `x = 0`, with CHOLMOD and any stopping tests. The residual after `j`
steps is `100001⁻ʲ`, and the limit `-1` is stationary. -/
example (stale : Pattern → ScipyCoo ℝ → ℝ → List ℝ → Py (List ℝ)) (addr : Nat) (S : GaussNewton ℝ) (hS : S.linear = chol stale addr) :
    ∃ u : Nat → State ℝ, EndlessSteps (gE 1 1 0) (S.lift.step CE (gE 1 1 0)) u ∧
      ConvergesTo (fun j => (u j).assignments) (at_ (-1)) ∧ (∀ j, (u j).assignments ≠ at_ (-1)) ∧
      ∃ z, GradientAt ((g 1 1 0).ops F Ex.C) (at_ (-1)) z ∧ ∀ y ∈ z, y = 0 := by
  have hsane := Jaxfg.Poly.sane 1 1 0
  obtain ⟨e, he⟩ : ∃ e : Nat → ℝ, e = fun j => (1 / 100001) ^ j := ⟨_, rfl⟩
  have hes : ∀ j, e (j + 1) = e j / 100001 := fun j => by rw [he]; simp only [pow_succ]; ring
  have hpos : ∀ j, 0 < e j := fun j => by rw [he]; positivity
  have hstep : ∀ (j : Nat) (dn : Bool), ∃ (dn' : Bool) (log : List (Msg Ext)),
      S.lift.step CE (gE 1 1 0) (State.map fin ⟨j, at_ (e j - 1), e j ^ 2, [e j], dn⟩) =
        .ok (State.map fin ⟨j + 1, at_ (e (j + 1) - 1), e (j + 1) ^ 2, [e (j + 1)], dn'⟩, log) := by
    intro j dn
    obtain ⟨conv, log, -, h⟩ := gn_step stale addr S hS 1 1 0 j (v := e j - 1) (c := e j ^ 2) (r := e j) (j := 1)
      (d := -(e j * (100000 / 100001))) (v' := e (j + 1) - 1) (r' := e (j + 1)) dn (by ring) (by ring) (by rw [hes]; ring) (by ring)
    exact ⟨_, _, h⟩
  choose D log hD using hstep
  obtain ⟨dn, hdn0, hdn⟩ : ∃ dn : Nat → Bool, dn 0 = false ∧ ∀ j, dn (j + 1) = D j (dn j) := ⟨Nat.rec false D, rfl, fun _ => rfl⟩
  obtain ⟨u, hu⟩ : ∃ u : Nat → State ℝ, u = fun j => ⟨j, at_ (e j - 1), e j ^ 2, [e j], dn j⟩ := ⟨_, rfl⟩
  have hrun : EndlessSteps (gE 1 1 0) (S.lift.step CE (gE 1 1 0)) u := by
    refine ⟨(initState_fin (lifts 1 1 0)).2 ⟨e 0 ^ 2, [e 0], ?_, ?_⟩, fun j => ?_⟩
    · rw [hu]
      show ((g 1 1 0).ops F Ex.C).computeCost (at_ (e 0 - 1)) = _
      rw [Jaxfg.Poly.cost_eq]
      norm_num
    · rw [hu]; simp only [hdn0]
    · rw [hu]; simp only [hdn]; exact ⟨_, hD j (dn j)⟩
  have hconv : ConvergesTo (fun j => (u j).assignments) (at_ (-1)) := by
    intro η hη
    obtain ⟨n, hn⟩ := exists_pow_lt_of_lt_one hη (show (1 / 100001 : ℝ) < 1 by norm_num)
    refine ⟨n, fun j hj => ?_⟩
    rw [hu]
    show storageDist (at_ (e j - 1)) (at_ (-1)) ≤ η
    rw [storageDist_at, show e j - 1 - -1 = e j by ring, abs_of_pos (hpos j), he]
    exact (pow_le_pow_of_le_one (by norm_num) (by norm_num) hj).trans hn.le
  obtain ⟨G, hG, hT, hDer⟩ := C76_derivative F Ex.C Ex.good [f 1 1 0] (by simp) (by simpa using f_wf 1 1 0)
    (by simp [f]; trivial) (by simpa using fun vals hv => f_correct 1 1 0 hv)
  rw [Jaxfg.Poly.make_eq] at hG
  cases Except.ok.inj hG
  have hlip : LipschitzNear Ex.C ((g 1 1 0).ops F Ex.C) [Ex.x] (at_ (-1)) 1 0 := by
    intro a c r A h1 h2 _ h4 h5 a' c' r' A' k1 k2 _ k4 k5 v
    obtain ⟨x, rfl⟩ := at_of h1 h2
    obtain ⟨y, rfl⟩ := at_of k1 k2
    rw [Jaxfg.Poly.cost_eq] at h4 k4
    obtain ⟨-, rfl⟩ := Prod.mk.inj (Except.ok.inj h4)
    obtain ⟨-, rfl⟩ := Prod.mk.inj (Except.ok.inj k4)
    rw [Jaxfg.Poly.jac_eq] at h5 k5
    cases Except.ok.inj h5
    cases Except.ok.inj k5
    simp [eucl]
  refine ⟨u, hrun, hconv, fun j hj => ?_, ?_⟩
  · rw [hu] at hj
    have hj : [e j - 1] = [-1] := congrArg Assign.storage hj
    have := (List.cons.inj hj).1
    have := hpos j
    linarith
  · exact C97_gauss_newton_stationary (μ := fun l => l + 1 / 100000) (lifts 1 1 0) (total 1 1 0) (fun v _ => rfl) (liftsGN_lift S)
      (by norm_num)
      (by
        rw [hS]
        exact fun a a' c r A h1 h2 h3 h4 h5 h6 => C70_cholmod stale .empty addr (hsane.jacobian a a' c r A h1 h2 h3 h4 h5 h6).1
          (fun p hp => by cases hp))
      (by rw [hu]; exact Jaxfg.Poly.at_assignment _) (by rw [hu]; rfl) hrun (Jaxfg.Poly.at_assignment _) rfl hconv hDer one_pos le_rfl hlip

end Poly1

end Jaxfg.Props
