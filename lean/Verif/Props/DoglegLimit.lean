/-
Property C96: the dogleg solver converges only to stationary points. See Verif.Props.SolverReal for the setting: real arithmetic,
inside a program that also knows infinities and NaNs.
-/
import Verif.Lemmas.DoglegLimit
import Verif.Props.Rejections
import Verif.Spec.DoglegLimit

namespace Jaxfg.Props
open Ext (fin)
open Spec Matrix

section
variable {CE : Ty → VarClass Ext} {gE : GraphOps Ext} {C : Ty → VarClass ℝ} {g : GraphOps ℝ} {ws : List Var}

/-- The gradient, as a matrix product. -/
theorem gradient_exists {a : Assign ℝ} {c : ℝ} {r : List ℝ} {A : Coo ℝ} (hc : g.computeCost a = .ok (c, r))
    (hA : g.jacobian a r = .ok A) (hwf : CooWF A) (hr : r.length = A.shape.1) :
    ∃ z, GradientAt g a z ∧ A.T.matmul (r.map fun x => -x) = .ok (z.map fun x => -x) ∧
      √(sqNorm z) = eucl (descent (cooMatrix A A.shape.1 A.shape.2) (Spec.vec r A.shape.1)) := by
  obtain ⟨z, z1, z2, z3⟩ := matmul_ok (cooWF_T hwf) (x := r) hr
  have hneg := matmul_neg (cooWF_T hwf) z1
  refine ⟨z, ⟨c, r, A, hc, hA, z1⟩, hneg, ?_⟩
  obtain ⟨-, k1, k2⟩ := descent_ok hwf hneg
  rw [← k2]
  show _ = √(_ ⬝ᵥ _)
  rw [← sqNorm_eq k1]
  congr 1
  simp [sqNorm, List.map_map, Function.comp_def]

variable {sE : Dogleg Ext} {s : Dogleg ℝ} {μ : ℝ → ℝ} {u : Nat → DoglegState ℝ} {c₀ κ δ M : ℝ}

/-- The states of an execution. -/
theorem run_good (h : Lifts CE gE C g) (hT : TotalGraph C g ws) (hs : LiftsDogleg sE s) (hq : 0 < s.stepQualityMin)
    (hρ : 0 < s.radiusInitial) (hL : AllJacobians C g ws (SolvesRegular s.linear)) (hμ : 0 ≤ μ 0)
    (hU : AllJacobians C g ws (DampedUpTo μ s.linear)) (ha : IsAssignmentOf C ws (u 0).assignments)
    (hl : (u 0).assignments.layout = g.layout) (hrun : EndlessDogleg sE CE gE u) (hc₀ : ∀ j, (u j).cost ≤ c₀)
    (htame : TameBelow C g ws c₀ κ δ M) (j : Nat) :
    GoodState C g ws (u j).toState ∧ 0 < (u j).radius ∧ ∃ i, i ≤ j ∧ g.computeCost (u i).assignments = .ok ((u i).cost, (u i).residual) ∧
      ∀ l, i ≤ l → l < j → (u (l + 1)).assignments = (u l).assignments := by
  induction j with
  | zero =>
    obtain ⟨c, r, h1, h2⟩ := (doglegInit_fin h hs).1 hrun.start
    have h2 := doglegState_map_inj h2
    have hc : g.computeCost (u 0).assignments = .ok ((u 0).cost, (u 0).residual) := by
      rw [h1, h2]
    refine ⟨⟨ha, hl, ⟨_, hc⟩, _, _, ha, hl, hc⟩, by rw [h2]; exact hρ, 0, le_rfl, hc, fun l _ hl => absurd hl (by omega)⟩
  | succ j ih =>
    obtain ⟨i1, i2, i, hij, hcur, hrow⟩ := ih
    obtain ⟨r, hr⟩ := i1.cost
    obtain ⟨A, hA, hκ, -⟩ := htame _ _ _ i1.assignment i1.layout hr (hc₀ j)
    obtain ⟨log, hst⟩ := hrun.step j
    obtain ⟨k1, -, -, -, d, a', c, pred, -, -, -, -, k6, -, -, -, k9, k10⟩ := dogleg_any h hT hs hq hL hμ hU i1 i2 hA hκ hst
    refine ⟨k1, by rw [k9]; exact nextRadius_pos i2, ?_⟩
    rcases k10 with ⟨-, e1, e2, -⟩ | ⟨-, e1, -⟩
    · exact ⟨j + 1, le_rfl, by rw [e1, e2]; exact k6, fun l h1 h2 => absurd h1 (by omega)⟩
    · refine ⟨i, by omega, hcur, fun l h1 h2 => ?_⟩
      rcases Nat.lt_succ_iff_lt_or_eq.1 h2 with h3 | h3
      · exact hrow l h1 h3
      · rw [h3]; exact e1

/-- A rejected step has a radius that is not small. -/
theorem rejected_large (h : Lifts CE gE C g) (hT : TotalGraph C g ws) (hs : LiftsDogleg sE s) (hq : 0 < s.stepQualityMin)
    (hq1 : s.stepQualityMin ≤ 7 / 80)
    (hρ : 0 < s.radiusInitial) (hL : AllJacobians C g ws (SolvesRegular s.linear)) (hμ : 0 ≤ μ 0)
    (hU : AllJacobians C g ws (DampedUpTo μ s.linear)) (ha : IsAssignmentOf C ws (u 0).assignments)
    (hl : (u 0).assignments.layout = g.layout) (hrun : EndlessDogleg sE CE gE u) (hc₀ : ∀ j, (u j).cost ≤ c₀)
    (hκ0 : 0 ≤ κ) (hδ : 0 < δ) (hM : 0 ≤ M) (htame : TameBelow C g ws c₀ κ δ M) {ε : ℝ} (hε : 0 < ε) {j : Nat}
    (hsteep : ∀ z, GradientAt g (u j).assignments z → ε ≤ √(sqNorm z)) (hrej : (u (j + 1)).assignments = (u j).assignments) :
    min (δ / 4) (min (ε / (16 * secondOrder κ M δ c₀ + 1)) (ε / (2 * (κ ^ 2 + μ 0) + 1))) ≤ (u j).radius := by
  obtain ⟨g1, g2, i, hij, hcur, hrow⟩ := run_good h hT hs hq hρ hL hμ hU ha hl hrun hc₀ htame j
  obtain ⟨gi1, gi2, -⟩ := run_good h hT hs hq hρ hL hμ hU ha hl hrun hc₀ htame i
  obtain ⟨A, hA, hκ, htay⟩ := htame _ _ _ gi1.assignment gi1.layout hcur (hc₀ i)
  have hJ := hA _ _ _ gi1.assignment gi1.layout hcur
  have hsame : ∀ t, t ≤ j - i → (u (i + t)).assignments = (u i).assignments := by
    intro t ht
    induction t with
    | zero => rfl
    | succ t ih => rw [← ih (by omega)]; exact hrow (i + t) (by omega) (by omega)
  have hji := hsame (j - i) le_rfl
  rw [show i + (j - i) = j by omega] at hji
  obtain ⟨z, hz1, hz2, hz3⟩ := gradient_exists hcur hJ (gi1.jac hT.sane hJ).1
    (residual_length hT gi1.assignment gi1.layout hA gi1.assignment gi1.layout hcur)
  have hbig := hsteep z (by rw [hji]; exact hz1)
  have hzz : sqNorm (z.map fun x => -x) = sqNorm z := by simp [sqNorm, List.map_map, Function.comp_def]
  have hrows : RejectedDogleg sE CE gE (fun t => u (i + t)) (j - i + 1) := by
    intro t ht
    refine ⟨hrun.step (i + t), ?_⟩
    rcases Nat.lt_succ_iff_lt_or_eq.1 ht with h3 | h3
    · exact hrow (i + t) (by omega) (by omega)
    · have : i + t = j := by omega
      show (u (i + t + 1)).assignments = (u (i + t)).assignments
      rw [this]; exact hrej
  have key := C92_dogleg h hT hs hq hq1 hL hμ hU hrows gi1 hcur gi2 hA hκ0 hκ hM htay ⟨A, hJ, hz2⟩ (by
    rw [hzz]
    intro h0
    rw [h0, Real.sqrt_zero] at hbig
    linarith) (j := j - i) (by omega)
  simp only [show i + (j - i) = j by omega, hzz, Nat.add_zero] at key
  have hso : secondOrder κ M δ (u i).cost ≤ secondOrder κ M δ c₀ := by
    unfold secondOrder
    have := mul_le_mul_of_nonneg_left (Real.sqrt_le_sqrt (hc₀ i)) hM
    linarith
  have hso0 : 0 ≤ secondOrder κ M δ c₀ := by
    unfold secondOrder
    have := Real.sqrt_nonneg c₀
    positivity
  rcases key with k | k | k
  · exact (min_le_left _ _).trans (by linarith)
  · refine (min_le_right _ _).trans ((min_le_left _ _).trans ?_)
    rw [div_le_iff₀ (by linarith)]
    have := mul_le_mul_of_nonneg_right hso g2.le
    nlinarith
  · refine (min_le_right _ _).trans ((min_le_right _ _).trans ?_)
    have : 0 ≤ κ ^ 2 + μ 0 := by positivity
    rw [div_le_iff₀ (by linarith)]
    nlinarith

/-- A step from a current state with a small radius does not shrink the radius. -/
theorem small_keeps (h : Lifts CE gE C g) (hT : TotalGraph C g ws) (hs : LiftsDogleg sE s) (hq : 0 < s.stepQualityMin)
    (hL : AllJacobians C g ws (SolvesRegular s.linear)) (hμ : 0 ≤ μ 0)
    (hU : AllJacobians C g ws (DampedUpTo μ s.linear)) {p p' : DoglegState ℝ} (hp : GoodState C g ws p.toState) (hρ : 0 < p.radius)
    (hcur : g.computeCost p.assignments = .ok (p.cost, p.residual)) (hc₀ : p.cost ≤ c₀)
    (hM : 0 ≤ M) (htame : TameBelow C g ws c₀ κ δ M) {ε : ℝ} (hε : 0 < ε)
    (hsteep : ∀ z, GradientAt g p.assignments z → ε ≤ √(sqNorm z))
    {log : List (Msg Ext)} (hstep : sE.step CE gE (p.map fin) = .ok (p'.map fin, log)) {E : ℝ} (hE : E = M * √c₀ + M ^ 2 / 4 * δ ^ 2 + 1)
    (hsmall : p.radius ≤ min (min δ 1) (min (3 * ε ^ 2 / (4 * E * (κ ^ 2 + μ 0 + 1))) (3 * ε / (4 * E)))) :
    p.radius ≤ p'.radius := by
  obtain ⟨A, hA, hκ, htay⟩ := htame _ _ _ hp.assignment hp.layout hcur hc₀
  have hJ := hA _ _ _ hp.assignment hp.layout hcur
  obtain ⟨-, hrl, hwf, hdim, d, a', c, pred, hpred, hdl, hdρ, h5, h6, k1, -, k3, k4, -⟩ := dogleg_any h hT hs hq hL hμ hU hp hρ hA hκ hstep
  obtain ⟨z, hz1, -, hz3⟩ := gradient_exists hcur hJ hwf hrl
  have hbig := hsteep z hz1
  rw [hz3] at hbig
  obtain ⟨b, hb⟩ : ∃ b, b = descent (cooMatrix A A.shape.1 A.shape.2) (Spec.vec p.residual A.shape.1) := ⟨_, rfl⟩
  rw [← hb] at hbig k1 k3
  have hcost : p.cost = sqNorm p.residual := hT.sane.cost _ _ _ hcur
  rw [← hcost] at k1 k3
  have hb0 : b ≠ 0 := by
    rintro rfl
    simp [eucl] at hbig
    linarith
  have hlt := k1 hb0
  have hb1 := isAssignment_retract hp.assignment h5
  have hb2 := (manifoldRetract_shape h5).1.trans hp.layout
  have hrn : p'.residual.length = A.shape.1 := residual_length hT hp.assignment hp.layout hA hb1 hb2 h6
  have s1 : p.radius ≤ δ := hsmall.trans ((min_le_left _ _).trans (min_le_left _ _))
  have s2 : p.radius ≤ 1 := hsmall.trans ((min_le_left _ _).trans (min_le_right _ _))
  have hE1 : 1 ≤ E := by
    rw [hE]
    have := Real.sqrt_nonneg c₀
    have : 0 ≤ M * √c₀ + M ^ 2 / 4 * δ ^ 2 := by positivity
    linarith
  have hK : 0 < κ ^ 2 + μ 0 + 1 := by positivity
  have s3 : p.radius * (4 * E * (κ ^ 2 + μ 0 + 1)) ≤ 3 * ε ^ 2 := by
    rw [← le_div_iff₀ (by positivity)]
    exact hsmall.trans ((min_le_right _ _).trans (min_le_left _ _))
  have s4 : p.radius * (4 * E) ≤ 3 * ε := by
    rw [← le_div_iff₀ (by positivity)]
    exact hsmall.trans ((min_le_right _ _).trans (min_le_right _ _))
  have htay' := htay d a' c p'.residual hdl (hdρ.trans s1) h5 h6
  have hd0 := sqNorm_nonneg d
  have hc0 : 0 ≤ c := by rw [hT.sane.cost _ _ _ h6]; exact sqNorm_nonneg _
  have hpr0 : 0 ≤ pred := by rw [hpred]; exact dot_self_nonneg _
  have hroot : √c ≤ √pred + M / 2 * sqNorm d := by
    have e1 : √c = eucl (Spec.vec p'.residual A.shape.1) := by rw [hT.sane.cost _ _ _ h6, sqNorm_eq hrn]; rfl
    have e2 : √pred = eucl (cooMatrix A A.shape.1 A.shape.2 *ᵥ Spec.vec d A.shape.2 + Spec.vec p.residual A.shape.1) := by rw [hpred]; rfl
    have e3 := eucl_add_le (cooMatrix A A.shape.1 A.shape.2 *ᵥ Spec.vec d A.shape.2 + Spec.vec p.residual A.shape.1)
      (Spec.vec p'.residual A.shape.1 - Spec.vec p.residual A.shape.1 - cooMatrix A A.shape.1 A.shape.2 *ᵥ Spec.vec d A.shape.2)
    have e4 : cooMatrix A A.shape.1 A.shape.2 *ᵥ Spec.vec d A.shape.2 + Spec.vec p.residual A.shape.1 +
        (Spec.vec p'.residual A.shape.1 - Spec.vec p.residual A.shape.1 - cooMatrix A A.shape.1 A.shape.2 *ᵥ Spec.vec d A.shape.2) =
        Spec.vec p'.residual A.shape.1 := by abel
    rw [e4] at e3
    rw [e1, e2]
    linarith
  have hafter := cost_after hpr0 hlt.le hM hd0 hc0 hroot
  have hdρ2 : sqNorm d ≤ p.radius ^ 2 := (Real.sqrt_le_left hρ.le).1 hdρ
  have hdδ2 : sqNorm d ≤ δ ^ 2 := hdρ2.trans (pow_le_pow_left₀ hρ.le s1 2)
  have herr : sqNorm d * (M * √p.cost + M ^ 2 / 4 * sqNorm d) ≤ p.radius ^ 2 * E := by
    have e1 : M * √p.cost + M ^ 2 / 4 * sqNorm d ≤ E := by
      rw [hE]
      have := mul_le_mul_of_nonneg_left (Real.sqrt_le_sqrt hc₀) hM
      have := mul_le_mul_of_nonneg_left hdδ2 (show 0 ≤ M ^ 2 / 4 by positivity)
      linarith
    have := Real.sqrt_nonneg p.cost
    exact mul_le_mul hdρ2 e1 (by positivity) (by positivity)
  have hgap : p.radius ^ 2 * E ≤ 3 / 4 * (p.cost - pred) := by
    rcases k3 with k | k
    · have e1 : ε ^ 2 ≤ (κ ^ 2 + μ 0 + 1) * (p.cost - pred) := by
        have := pow_le_pow_left₀ hε.le hbig 2
        linarith
      have e2 : p.radius ^ 2 * E ≤ p.radius * E := by
        have : p.radius ^ 2 ≤ p.radius := by nlinarith
        exact mul_le_mul_of_nonneg_right this (by linarith)
      have e3 : (κ ^ 2 + μ 0 + 1) * (p.radius * E) ≤ (κ ^ 2 + μ 0 + 1) * (3 / 4 * (p.cost - pred)) := by nlinarith
      exact e2.trans (le_of_mul_le_mul_left e3 hK)
    · have e1 := mul_le_mul_of_nonneg_left hbig hρ.le
      have e2 := mul_le_mul_of_nonneg_left s4 hρ.le
      nlinarith
  rw [k4]
  exact nextRadius_keeps (by linarith) (by linarith)

/-- If the gradient stays away from zero, so does the radius. -/
theorem floor_of_steep (h : Lifts CE gE C g) (hT : TotalGraph C g ws) (hs : LiftsDogleg sE s) (hq : 0 < s.stepQualityMin)
    (hq1 : s.stepQualityMin ≤ 7 / 80)
    (hρ : 0 < s.radiusInitial) (hL : AllJacobians C g ws (SolvesRegular s.linear)) (hμ : 0 ≤ μ 0)
    (hU : AllJacobians C g ws (DampedUpTo μ s.linear)) (ha : IsAssignmentOf C ws (u 0).assignments)
    (hl : (u 0).assignments.layout = g.layout) (hrun : EndlessDogleg sE CE gE u) (hc₀ : ∀ j, (u j).cost ≤ c₀)
    (hκ0 : 0 ≤ κ) (hδ : 0 < δ) (hM : 0 ≤ M) (htame : TameBelow C g ws c₀ κ δ M) {ε : ℝ} (hε : 0 < ε) {n : Nat}
    (hsteep : ∀ j, n ≤ j → ∀ z, GradientAt g (u j).assignments z → ε ≤ √(sqNorm z)) :
    ∃ ρ, 0 < ρ ∧ ∀ j, n ≤ j → ρ ≤ (u j).radius := by
  have hgood := run_good h hT hs hq hρ hL hμ hU ha hl hrun hc₀ htame
  obtain ⟨E, hE⟩ : ∃ E, E = M * √c₀ + M ^ 2 / 4 * δ ^ 2 + 1 := ⟨_, rfl⟩
  have hE1 : 0 < E := by
    rw [hE]
    have := Real.sqrt_nonneg c₀
    positivity
  have hso0 : 0 ≤ secondOrder κ M δ c₀ := by
    unfold secondOrder
    have := Real.sqrt_nonneg c₀
    positivity
  have hK : 0 < κ ^ 2 + μ 0 + 1 := by positivity
  refine radius_floor (R := fun j => (u j).radius) (acc := fun j => (u (j + 1)).assignments ≠ (u j).assignments)
    (cur := fun j => g.computeCost (u j).assignments = .ok ((u j).cost, (u j).residual)) (n := n)
    (ρ₁ := min (δ / 4) (min (ε / (16 * secondOrder κ M δ c₀ + 1)) (ε / (2 * (κ ^ 2 + μ 0) + 1))))
    (ρ₂ := min (min δ 1) (min (3 * ε ^ 2 / (4 * E * (κ ^ 2 + μ 0 + 1))) (3 * ε / (4 * E)))) ?_ ?_ (hgood n).2.1 ?_ ?_ ?_ ?_
  · have : 0 ≤ κ ^ 2 + μ 0 := by positivity
    exact lt_min (by linarith) (lt_min (by positivity) (by positivity))
  · exact lt_min (lt_min hδ one_pos) (lt_min (by positivity) (by positivity))
  · intro j hj
    obtain ⟨i1, i2, -⟩ := hgood j
    obtain ⟨r, hr⟩ := i1.cost
    obtain ⟨A, hA, hκ, -⟩ := htame _ _ _ i1.assignment i1.layout hr (hc₀ j)
    obtain ⟨log, hst⟩ := hrun.step j
    obtain ⟨-, -, -, -, d, a', c, pred, -, -, -, -, -, -, -, -, k9, -⟩ := dogleg_any h hT hs hq hL hμ hU i1 i2 hA hκ hst
    show (u j).radius / 2 ≤ (u (j + 1)).radius
    rw [k9]
    exact nextRadius_half i2
  · intro j hj hacc
    obtain ⟨i1, i2, -⟩ := hgood j
    obtain ⟨r, hr⟩ := i1.cost
    obtain ⟨A, hA, hκ, -⟩ := htame _ _ _ i1.assignment i1.layout hr (hc₀ j)
    obtain ⟨log, hst⟩ := hrun.step j
    obtain ⟨-, -, -, -, d, a', c, pred, -, -, -, -, k6, -, -, -, -, k10⟩ := dogleg_any h hT hs hq hL hμ hU i1 i2 hA hκ hst
    rcases k10 with ⟨-, e1, e2, -⟩ | ⟨-, e1, -⟩
    · show g.computeCost (u (j + 1)).assignments = _
      rw [e1, e2]; exact k6
    · exact absurd e1 hacc
  · intro j hj hrej
    exact rejected_large h hT hs hq hq1 hρ hL hμ hU ha hl hrun hc₀ hκ0 hδ hM htame hε (hsteep j hj) (not_not.1 hrej)
  · intro j hj hcur hsm
    obtain ⟨i1, i2, -⟩ := hgood j
    obtain ⟨log, hst⟩ := hrun.step j
    exact small_keeps h hT hs hq hL hμ hU i1 i2 hcur (hc₀ j) hM htame hε (hsteep j hj) hst hE hsm

/-- **C96**, the general form. Let the dogleg solver run without end, with bounded cost, on a problem that is tame there. If from some
iteration on the radius does not grow, then the gradient comes below any `ε > 0` again and again. -/
theorem C96_dogleg_radius (h : Lifts CE gE C g) (hT : TotalGraph C g ws) (hz : ZeroRetract C) (hs : LiftsDogleg sE s)
    (hq : 0 < s.stepQualityMin) (hq1 : s.stepQualityMin ≤ 7 / 80)
    (hρ : 0 < s.radiusInitial) (hL : AllJacobians C g ws (SolvesRegular s.linear)) (hμ : 0 ≤ μ 0)
    (hU : AllJacobians C g ws (DampedUpTo μ s.linear)) (ha : IsAssignmentOf C ws (u 0).assignments)
    (hl : (u 0).assignments.layout = g.layout) (hrun : EndlessDogleg sE CE gE u) (hc₀ : ∀ j, (u j).cost ≤ c₀)
    (hκ0 : 0 ≤ κ) (hδ : 0 < δ) (hM : 0 ≤ M) (htame : TameBelow C g ws c₀ κ δ M)
    (hgrow : ∃ m, ∀ j ≥ m, (u (j + 1)).radius ≤ (u j).radius) {ε : ℝ} (hε : 0 < ε) (n : Nat) :
    ∃ j ≥ n, ∃ z, GradientAt g (u j).assignments z ∧ √(sqNorm z) < ε := by
  by_contra hno
  push Not at hno
  obtain ⟨m, hm⟩ := hgrow
  have hgood := run_good h hT hs hq hρ hL hμ hU ha hl hrun hc₀ htame
  obtain ⟨ρ, hρ0, hfloor⟩ := floor_of_steep h hT hs hq hq1 hρ hL hμ hU ha hl hrun hc₀ hκ0 hδ hM htame hε hno
  have hdata : ∀ j, ∃ r A, g.computeCost (u j).assignments = .ok ((u j).cost, r) ∧ JacobianIs C g ws (u j).assignments A ∧
      SoftAtMost (κ ^ 2) A := by
    intro j
    obtain ⟨i1, -⟩ := hgood j
    obtain ⟨r, hr⟩ := i1.cost
    obtain ⟨A, hA, hκ, -⟩ := htame _ _ _ i1.assignment i1.layout hr (hc₀ j)
    exact ⟨r, A, hr, hA, hκ⟩
  choose r A hr hA hκ using hdata
  have hK : 0 < κ ^ 2 + μ 0 + 1 := by positivity
  have hsteps := fun j => dogleg_any h hT hs hq hL hμ hU (hgood j).1 (hgood j).2.1 (hA j) (hκ j) (hrun.step j).choose_spec
  have hcurb : ∀ j, n ≤ j → g.computeCost (u j).assignments = .ok ((u j).cost, (u j).residual) →
      ε ≤ eucl (descent (cooMatrix (A j) (A j).shape.1 (A j).shape.2) (Spec.vec (u j).residual (A j).shape.1)) := by
    intro j hj hcur
    obtain ⟨-, k1, k2, -⟩ := hsteps j
    obtain ⟨z, z1, -, z3⟩ := gradient_exists hcur (hA j _ _ _ (hgood j).1.assignment (hgood j).1.layout hcur) k2 k1
    rw [← z3]
    exact hno j hj z z1
  refine no_endless (R := fun j => (u j).radius) (c := fun j => (u j).cost)
    (acc := fun j => (u (j + 1)).assignments ≠ (u j).assignments)
    (cur := fun j => g.computeCost (u j).assignments = .ok ((u j).cost, (u j).residual))
    (sq := fun j => sqNorm (u j).residual = (u j).cost)
    (flat := fun j => descent (cooMatrix (A j) (A j).shape.1 (A j).shape.2) (Spec.vec (u j).residual (A j).shape.1) = 0)
    (n := max n m) (ρ := ρ) (η := s.stepQualityMin * min (ε ^ 2 / (κ ^ 2 + μ 0 + 1)) (ρ * ε)) hρ0
    (mul_pos hq (lt_min (by positivity) (by positivity)))
    (fun j hj => hfloor j ((le_max_left _ _).trans hj)) (fun j hj => hm j ((le_max_right _ _).trans hj)) ?_ ?_ ?_ ?_ ?_ ?_ ?_
  · intro j _
    show 0 ≤ (u j).cost
    rw [hT.sane.cost _ _ _ (hr j)]
    exact sqNorm_nonneg _
  · intro j _ hacc
    obtain ⟨-, -, -, -, d, a', c, pred, -, -, -, -, k6, -, -, -, -, k10⟩ := hsteps j
    rcases k10 with ⟨-, e1, e2, -⟩ | ⟨-, e1, -⟩
    · show g.computeCost (u (j + 1)).assignments = _
      rw [e1, e2]; exact k6
    · exact absurd e1 hacc
  · intro j _ hrej hhalf
    obtain ⟨-, -, -, -, d, a', c, pred, -, -, -, -, k6, -, -, -, k9, k10⟩ := hsteps j
    rcases k10 with ⟨-, -, -, e1⟩ | ⟨e0, -, e2⟩
    · exact absurd e1 hrej
    · rcases reject_radius (ρ := (u j).radius) (d := d) (by linarith) e0 with e | ⟨-, e, -⟩
      · exact absurd (k9.trans e) hhalf
      · show sqNorm (u (j + 1)).residual = (u (j + 1)).cost
        rw [e2, ← hT.sane.cost _ _ _ k6]
        linarith
  · intro j hj hcur
    refine ⟨(hT.sane.cost _ _ _ hcur).symm, fun h0 => ?_⟩
    have := hcurb j ((le_max_left _ _).trans hj) hcur
    rw [h0] at this
    simp [eucl] at this
    linarith
  · intro j _ hrej hsq hsteep
    obtain ⟨-, -, -, -, d, a', c, pred, -, -, -, -, -, k7, -, -, k9, k10⟩ := hsteps j
    rcases k10 with ⟨-, -, -, e1⟩ | ⟨e0, -, -⟩
    · exact absurd e1 hrej
    · rcases reject_radius (ρ := (u j).radius) (d := d) (by linarith) e0 with e | ⟨-, -, e⟩
      · exact k9.trans e
      · have := k7 hsteep
        rw [hsq] at this
        linarith
  · intro j _ hrej hflat
    obtain ⟨-, -, -, hdim, d, a', c, pred, -, k3, -, k5, k6, -, k8, -, -, k10⟩ := hsteps j
    rcases k10 with ⟨-, -, -, e1⟩ | ⟨-, e1, e2⟩
    · exact absurd e1 hrej
    · have hstay := hT.sane.zero_stays hz (hgood j).1.assignment (hgood j).1.layout ((mem_zero_vec k3).2 (k8 hflat)) (k3.trans hdim)
      rw [hstay] at k5
      cases Except.ok.inj k5
      have : c = (u j).cost := by
        rw [hr j] at k6
        exact (Prod.mk.inj (Except.ok.inj k6)).1.symm
      show g.computeCost (u (j + 1)).assignments = _
      rw [e1, e2, k6, this]
  · intro j hj hacc hcur
    have hbig := hcurb j ((le_max_left _ _).trans hj) hcur
    have hfl := hfloor j ((le_max_left _ _).trans hj)
    obtain ⟨-, -, -, -, d, a', c, pred, -, -, -, -, -, k7, -, k8, -, k10⟩ := hsteps j
    have hcost : (u j).cost = sqNorm (u j).residual := hT.sane.cost _ _ _ hcur
    rw [← hcost] at k7 k8
    rcases k10 with ⟨e0, -, e2, -⟩ | ⟨-, e1, -⟩
    · have hlt := k7 (fun h0 => by rw [h0] at hbig; simp [eucl] at hbig; linarith)
      have hshare := accepted_share e0 hlt
      have hΔ : min (ε ^ 2 / (κ ^ 2 + μ 0 + 1)) (ρ * ε) ≤ (u j).cost - pred := by
        rcases k8 with k | k
        · refine (min_le_left _ _).trans ?_
          rw [div_le_iff₀ hK]
          have := pow_le_pow_left₀ hε.le hbig 2
          linarith
        · exact (min_le_right _ _).trans ((mul_le_mul hfl hbig hε.le (hgood j).2.1.le).trans k)
      show (u (j + 1)).cost ≤ (u j).cost - _
      rw [e2]
      have := mul_le_mul_of_nonneg_left hΔ hq.le
      linarith
    · exact absurd e1 hacc

/-- **C96**. Let the variables have the default retraction (vectors). If a dogleg execution without end, with bounded cost, on a problem
that is tame there, converges, then the gradient comes below any `ε > 0` again and again on the way. -/
theorem C96_dogleg_gradient (h : Lifts CE gE C g) (hT : TotalGraph C g ws) (hz : ZeroRetract C) (hE : UsesDefaultRetraction C ws)
    (hs : LiftsDogleg sE s) (hq : 0 < s.stepQualityMin) (hq1 : s.stepQualityMin ≤ 7 / 80)
    (hρ : 0 < s.radiusInitial) (hL : AllJacobians C g ws (SolvesRegular s.linear)) (hμ : 0 ≤ μ 0)
    (hU : AllJacobians C g ws (DampedUpTo μ s.linear)) (ha : IsAssignmentOf C ws (u 0).assignments)
    (hl : (u 0).assignments.layout = g.layout) (hrun : EndlessDogleg sE CE gE u) (hc₀ : ∀ j, (u j).cost ≤ c₀)
    (hκ0 : 0 ≤ κ) (hδ : 0 < δ) (hM : 0 ≤ M) (htame : TameBelow C g ws c₀ κ δ M) {e : Assign ℝ} (he : IsAssignmentOf C ws e)
    (hle : e.layout = g.layout) (hconv : ConvergesTo (fun j => (u j).assignments) e) {ε : ℝ} (hε : 0 < ε) (n : Nat) :
    ∃ j ≥ n, ∃ z, GradientAt g (u j).assignments z ∧ √(sqNorm z) < ε := by
  by_contra hno
  have hno' := hno
  push Not at hno
  have hgood := run_good h hT hs hq hρ hL hμ hU ha hl hrun hc₀ htame
  obtain ⟨ρ, hρ0, hfloor⟩ := floor_of_steep h hT hs hq hq1 hρ hL hμ hU ha hl hrun hc₀ hκ0 hδ hM htame hε hno
  obtain ⟨m, hm⟩ := hconv (ρ / 6) (by positivity)
  refine hno' (C96_dogleg_radius h hT hz hs hq hq1 hρ hL hμ hU ha hl hrun hc₀ hκ0 hδ hM htame ⟨max n m, fun j hj => ?_⟩ hε n)
  obtain ⟨i1, i2, -⟩ := hgood j
  obtain ⟨r, hr⟩ := i1.cost
  obtain ⟨A, hA, hκ, -⟩ := htame _ _ _ i1.assignment i1.layout hr (hc₀ j)
  obtain ⟨log, hst⟩ := hrun.step j
  obtain ⟨-, -, -, hdim, d, a', c, pred, -, k3, -, k5, -, -, -, -, k9, k10⟩ := dogleg_any h hT hs hq hL hμ hU i1 i2 hA hκ hst
  rcases k10 with ⟨-, e1, -, -⟩ | ⟨e0, -, -⟩
  · rw [k9]
    refine (nextRadius_le i2).trans (max_le le_rfl ?_)
    obtain ⟨l1, l2⟩ := retract_storage hT.sane hE i1.assignment i1.layout (k3.trans hdim) k5
    have hal : (u j).assignments.storage.length = A.shape.2 := l1.trans k3
    have hbl : (u (j + 1)).assignments.storage.length = A.shape.2 := by rw [e1, l2]; simp [hal, k3]
    have hel : e.storage.length = A.shape.2 := by rw [he.2.2, hle, ← i1.layout, ← i1.assignment.2.2, hal]
    have d0 : nrm d = eucl (Spec.vec (u (j + 1)).assignments.storage A.shape.2 - Spec.vec (u j).assignments.storage A.shape.2) := by
      rw [nrm_eq k3, e1, l2, vec_add_list hal k3, add_sub_cancel_left]; rfl
    have d1 := hm j ((le_max_right _ _).trans hj)
    have d2 := hm (j + 1) (((le_max_right _ _).trans hj).trans (Nat.le_succ j))
    rw [storageDist_eq hal hel] at d1
    rw [storageDist_eq hbl hel] at d2
    have d3 := eucl_add_le (Spec.vec (u (j + 1)).assignments.storage A.shape.2 - Spec.vec e.storage A.shape.2)
      (-(Spec.vec (u j).assignments.storage A.shape.2 - Spec.vec e.storage A.shape.2))
    rw [eucl_neg, ← sub_eq_add_neg, sub_sub_sub_cancel_right] at d3
    have := hfloor j ((le_max_left _ _).trans hj)
    rw [d0]
    linarith
  · rcases reject_radius (ρ := (u j).radius) (d := d) (by linarith) e0 with e' | ⟨e', -⟩
    · rw [k9, e']; linarith
    · rw [k9, e']

/-- **C96**. Under these conditions, if the Jacobian is the derivative of the residual and Lipschitz continuous near the limit, then the
limit is a stationary point: the gradient of the cost is zero there. -/
theorem C96_dogleg_stationary (h : Lifts CE gE C g) (hT : TotalGraph C g ws) (hz : ZeroRetract C) (hE : UsesDefaultRetraction C ws)
    (hs : LiftsDogleg sE s) (hq : 0 < s.stepQualityMin) (hq1 : s.stepQualityMin ≤ 7 / 80)
    (hρ : 0 < s.radiusInitial) (hL : AllJacobians C g ws (SolvesRegular s.linear)) (hμ : 0 ≤ μ 0)
    (hU : AllJacobians C g ws (DampedUpTo μ s.linear)) (ha : IsAssignmentOf C ws (u 0).assignments)
    (hl : (u 0).assignments.layout = g.layout) (hrun : EndlessDogleg sE CE gE u) (hc₀ : ∀ j, (u j).cost ≤ c₀)
    (hκ0 : 0 ≤ κ) (hδ : 0 < δ) (hM : 0 ≤ M) (htame : TameBelow C g ws c₀ κ δ M) {e : Assign ℝ} (he : IsAssignmentOf C ws e)
    (hle : e.layout = g.layout) (hconv : ConvergesTo (fun j => (u j).assignments) e) {m : Nat} (hD : DerivativeGraph C g ws m)
    {δ' M' : ℝ} (hδ' : 0 < δ') (hM' : 0 ≤ M') (hlip : LipschitzNear C g ws e δ' M') :
    ∃ z, GradientAt g e z ∧ ∀ y ∈ z, y = 0 := by
  have hg := hT.sane
  have hgood := run_good h hT hs hq hρ hL hμ hU ha hl hrun hc₀ htame
  obtain ⟨ce, re, hce⟩ := hT.cost e he hle
  obtain ⟨B, hB, hBr⟩ := hT.jacobian e e ce re he hle he hle hce
  obtain ⟨hBwf, hBdim⟩ := hg.jacobian _ _ _ _ _ he hle he hle hce hB
  obtain ⟨z, z1, -, z3⟩ := gradient_exists hce hB hBwf hBr.symm
  refine ⟨z, z1, ?_⟩
  by_contra hne
  have hpos : 0 < √(sqNorm z) := by
    refine Real.sqrt_pos.2 (lt_of_le_of_ne (sqNorm_nonneg z) fun h0 => hne ?_)
    have := sqNorm_eq_zero.1 h0.symm
    intro y hy
    rw [this] at hy
    exact (List.mem_replicate.1 hy).2
  obtain ⟨G, hG⟩ : ∃ G, G = √(sqNorm z) := ⟨_, rfl⟩
  rw [← hG] at hpos
  obtain ⟨K, hK⟩ : ∃ K, K = κ * (κ + M' / 2) + M' * eucl (Spec.vec re B.shape.1) := ⟨_, rfl⟩
  have hK0 : 0 ≤ K := by rw [hK]; have := eucl_nonneg (Spec.vec re B.shape.1); positivity
  obtain ⟨n, hn⟩ := hconv (min (min δ' 1) (G / (4 * (K + 1)))) (lt_min (lt_min hδ' one_pos) (by positivity))
  obtain ⟨j, hj, w, ⟨c, r, A, w1, w2, w3⟩, hw⟩ :=
    C96_dogleg_gradient h hT hz hE hs hq hq1 hρ hL hμ hU ha hl hrun hc₀ hκ0 hδ hM htame he hle hconv (ε := G / 2) (by positivity) n
  obtain ⟨i1, i2, -⟩ := hgood j
  obtain ⟨t, ht⟩ : ∃ t, t = storageDist (u j).assignments e := ⟨_, rfl⟩
  have ht0 : 0 ≤ t := by rw [ht]; exact storageDist_nonneg _ _
  have hdist := hn j hj
  have t1 : t ≤ δ' := by rw [ht]; exact hdist.trans ((min_le_left _ _).trans (min_le_left _ _))
  have t2 : t ≤ 1 := by rw [ht]; exact hdist.trans ((min_le_left _ _).trans (min_le_right _ _))
  have t3 : t * (4 * (K + 1)) ≤ G := by
    rw [← le_div_iff₀ (by positivity), ht]
    exact hdist.trans (min_le_right _ _)
  have hccost : c ≤ c₀ := by
    obtain ⟨r', hr'⟩ := i1.cost
    rw [hr'] at w1
    rw [← (Prod.mk.inj (Except.ok.inj w1)).1]
    exact hc₀ j
  obtain ⟨A', hA', hκ, -⟩ := htame _ _ _ i1.assignment i1.layout w1 hccost
  have e0 := hA' _ _ _ i1.assignment i1.layout w1
  rw [w2] at e0
  cases Except.ok.inj e0
  obtain ⟨hAwf, hAdim⟩ := hg.jacobian _ _ _ _ _ i1.assignment i1.layout i1.assignment i1.layout w1 w2
  obtain ⟨hAm, hrm⟩ := jac_rows hT hE hD i1.assignment i1.layout w1 w2
  obtain ⟨hBm, hrem⟩ := jac_rows hT hE hD he hle hce hB
  have hs1 : B.shape.1 = A.shape.1 := hBm.trans hAm.symm
  have hs2 : B.shape.2 = A.shape.2 := hBdim.trans hAdim.symm
  have hwneg := matmul_neg (cooWF_T hAwf) w3
  obtain ⟨-, f1, f2⟩ := descent_ok hAwf hwneg
  have hw' : eucl (descent (cooMatrix A A.shape.1 A.shape.2) (Spec.vec r A.shape.1)) < G / 2 := by
    rw [← f2]
    show √(_ ⬝ᵥ _) < _
    rw [← sqNorm_eq f1]
    have : sqNorm (w.map fun x => -x) = sqNorm w := by simp [sqNorm, List.map_map, Function.comp_def]
    rw [this]; exact hw
  have hself : storageDist e e ≤ δ' := by
    rw [storageDist_eq rfl rfl, sub_self]
    simpa [eucl] using hδ'.le
  have hLip := hlip _ _ _ _ i1.assignment i1.layout (ht ▸ t1) w1 w2 _ _ _ _ he hle hself hce hB
  beta_reduce at hLip
  rw [← ht] at hLip
  have hTay := taylor_near hT hE hD he hle hce hlip _ _ _ _ i1.assignment i1.layout (ht ▸ t1) w1 w2
  beta_reduce at hTay
  rw [← ht] at hTay
  rw [hs1] at hK
  rw [← hG, hs1, hs2] at z3
  have hal : (u j).assignments.storage.length = A.shape.2 := by
    obtain ⟨l1, -⟩ := retract_storage (d := List.replicate A.shape.2 0) hT.sane hE i1.assignment i1.layout (by simpa using hAdim)
      (hg.zero_stays hz i1.assignment i1.layout (fun y hy => (List.mem_replicate.1 hy).2) (by simpa using hAdim))
    simpa using l1
  have hel : e.storage.length = A.shape.2 := by rw [he.2.2, hle, ← i1.layout, ← i1.assignment.2.2, hal]
  rw [storageDist_eq hal hel, ← eucl_neg, neg_sub, ← vec_sub_list hel hal] at ht
  have hA2 := softAtMost_eucl hκ0 hκ
  obtain ⟨MA, hMA⟩ : ∃ MA, MA = cooMatrix A A.shape.1 A.shape.2 := ⟨_, rfl⟩
  obtain ⟨MB, hMB⟩ : ∃ MB, MB = cooMatrix B A.shape.1 A.shape.2 := ⟨_, rfl⟩
  obtain ⟨ra, hra⟩ : ∃ ra, ra = Spec.vec r A.shape.1 := ⟨_, rfl⟩
  obtain ⟨rb, hrb⟩ : ∃ rb, rb = Spec.vec re A.shape.1 := ⟨_, rfl⟩
  obtain ⟨v, hv⟩ : ∃ v, v = Spec.vec (List.zipWith (· - ·) e.storage (u j).assignments.storage) A.shape.2 := ⟨_, rfl⟩
  rw [← hMA] at hw' hLip hTay hA2
  rw [← hMB] at hLip z3
  rw [← hra] at hw' hTay
  rw [← hrb] at hK hTay z3
  rw [← hv] at hTay ht
  have b1 : eucl (rb - ra) ≤ κ * t + M' / 2 * t ^ 2 := by
    have k1 := eucl_add_le (rb - ra - MA *ᵥ v) (MA *ᵥ v)
    rw [sub_add_cancel] at k1
    have k2 := hA2 v
    rw [← ht] at k2
    linarith
  have b2 : eucl (MAᵀ *ᵥ (rb - ra)) ≤ κ * (κ * t + M' / 2 * t ^ 2) :=
    (eucl_transpose hκ0 hA2 _).trans (mul_le_mul_of_nonneg_left b1 hκ0)
  have b3 : eucl ((MA - MB)ᵀ *ᵥ rb) ≤ M' * t * eucl rb := eucl_transpose (by positivity) hLip rb
  have b4 : G ≤ eucl (descent MA ra) + eucl (MAᵀ *ᵥ (rb - ra)) + eucl ((MA - MB)ᵀ *ᵥ rb) := by
    have e1 : descent MB rb = descent MA ra + -(MAᵀ *ᵥ (rb - ra)) + (MA - MB)ᵀ *ᵥ rb := by
      unfold descent
      rw [transpose_sub, sub_mulVec, mulVec_neg, mulVec_neg, mulVec_sub]
      abel
    rw [z3, e1]
    have k1 := eucl_add_le (descent MA ra + -(MAᵀ *ᵥ (rb - ra))) ((MA - MB)ᵀ *ᵥ rb)
    have k2 := eucl_add_le (descent MA ra) (-(MAᵀ *ᵥ (rb - ra)))
    rw [eucl_neg] at k2
    linarith
  have b5 : κ * (κ * t + M' / 2 * t ^ 2) + M' * t * eucl rb ≤ K * t := by
    have : t ^ 2 ≤ t := by nlinarith only [ht0, t2]
    have := mul_le_mul_of_nonneg_left this (show 0 ≤ κ * (M' / 2) by positivity)
    rw [hK]
    linarith
  nlinarith only [b2, b3, b4, b5, t3, hw', hpos, ht0, hK0]

end

/-! ### Example -/

namespace Poly1
open Jaxfg.Poly

/-- Where the residual is linear, the problem is tame. -/
theorem tame (p q c₀ δ : ℝ) : TameBelow Ex.C ((g p q 0).ops F Ex.C) [Ex.x] c₀ |q| δ 0 := by
  intro a c r h1 h2 h3 _
  obtain ⟨v, rfl⟩ := at_of h1 h2
  rw [Jaxfg.Poly.cost_eq] at h3
  obtain ⟨-, rfl⟩ := Prod.mk.inj (Except.ok.inj h3)
  have := predictsFrom p q 0 v δ
  rw [show 2 * |(0 : ℝ)| = 0 by simp] at this
  exact ⟨_, jacobianIs p q 0 v, softAtMost (by rw [mul_zero, zero_mul, add_zero, sq_abs]), this⟩

/-- A case of `C96_dogleg_stationary`: the residual `1 + x` from `x = 0`, with CHOLMOD and default settings. The residual after `j` steps
is `100001⁻ʲ`, the radius grows from 1 to just below 3 and stays there, and the limit `-1` is stationary. -/
example (stale : Pattern → ScipyCoo ℝ → ℝ → List ℝ → Py (List ℝ)) (addr : Nat) :
    ∃ u : Nat → DoglegState ℝ, EndlessDogleg (Dogleg.defaults (chol stale addr)).lift CE (gE 1 1 0) u ∧
      ConvergesTo (fun j => (u j).assignments) (at_ (-1)) ∧ (∀ j, (u j).assignments ≠ at_ (-1)) ∧
      ∃ z, GradientAt ((g 1 1 0).ops F Ex.C) (at_ (-1)) z ∧ ∀ y ∈ z, y = 0 := by
  obtain ⟨S, hS⟩ : ∃ S, S = Dogleg.defaults (chol stale addr) := ⟨_, rfl⟩
  have hlin : S.linear = chol stale addr := by rw [hS]; rfl
  have hq : S.stepQualityMin = 1 / 1000 := by rw [hS]; rfl
  have hρ : S.radiusInitial = 1 := by rw [hS]; rfl
  have hsane := Jaxfg.Poly.sane 1 1 0
  obtain ⟨e, he⟩ : ∃ e : Nat → ℝ, e = fun j => (1 / 100001) ^ j := ⟨_, rfl⟩
  have he0 : e 0 = 1 := by rw [he]; simp
  have hes : ∀ j, e (j + 1) = e j / 100001 := fun j => by rw [he]; simp only [pow_succ]; ring
  have hpos : ∀ j, 0 < e j := fun j => by rw [he]; positivity
  have hle : ∀ j, e j ≤ 1 := fun j => by rw [he]; exact pow_le_one₀ (by norm_num) (by norm_num)
  obtain ⟨ρ, hρ'⟩ : ∃ ρ : Nat → ℝ, ρ = fun j => if j = 0 then 1 else 300000 / 100001 := ⟨_, rfl⟩
  have hρ1 : ∀ j, 1 ≤ ρ j := fun j => by rw [hρ']; dsimp only; split <;> norm_num
  have hstep : ∀ (j : Nat) (dn : Bool), ∃ (dn' : Bool) (log : List (Msg Ext)),
      S.lift.step CE (gE 1 1 0) (DoglegState.map fin ⟨⟨j, at_ (e j - 1), e j ^ 2, [e j], dn⟩, ρ j⟩) =
        .ok (DoglegState.map fin ⟨⟨j + 1, at_ (e (j + 1) - 1), e (j + 1) ^ 2, [e (j + 1)], dn'⟩, ρ (j + 1)⟩, log) := by
    intro j dn
    have h0 := hpos j
    have h1 := hle j
    obtain ⟨d, hd⟩ : ∃ d, d = -(e j * (100000 / 100001)) := ⟨_, rfl⟩
    have hnrm : nrm [d] = e j * (100000 / 100001) := by
      unfold nrm
      rw [sqNorm_single, Real.sqrt_sq_eq_abs, hd, abs_neg, abs_of_pos (by positivity)]
    have hd1 : doglegStep (Coo.map fin ⟨[1], [0], [0], (1, 1)⟩) [fin (1 * -(e j))] [fin d] (fin (ρ j)) = .ok [fin d] :=
      (doglegStep_fin (A := ⟨[1], [0], [0], (1, 1)⟩) (hsane.jacobian _ _ _ _ _ (Jaxfg.Poly.at_assignment 0) rfl
        (Jaxfg.Poly.at_assignment 0) rfl (Jaxfg.Poly.cost_eq 1 1 0 0) (by
          have := Jaxfg.Poly.jac_eq 1 1 0 0 (1 + 1 * 0 + 0 * 0 ^ 2)
          rw [show (1 : ℝ) + 2 * 0 * 0 = 1 by norm_num] at this
          exact this)).1 (r := [e j]) (b := [1 * -(e j)])
        (gn := [d]) (matmul_T_eq 1 (-(e j))) rfl (ρ := ρ j) (by linarith [hρ1 j])).1 (by
          rw [hnrm]
          have := hρ1 j
          linarith)
    obtain ⟨conv, log, h⟩ := dogleg_step stale addr S hlin 1 1 0 j (v := e j - 1) (c := e j ^ 2) (r := e j) (ρ := ρ j) (j := 1)
      (gn := d) (d := d) (v' := e (j + 1) - 1) (r' := e (j + 1)) dn (by ring) (by rw [hd]; ring) hd1 (by rw [hd, hes]; ring) (by ring)
    have e2 : (1 * d + e j : ℝ) = e (j + 1) := by rw [hd, hes]; ring
    have hne : e (j + 1) ^ 2 - e j ^ 2 ≠ 0 := by
      rw [hes]
      have : 0 < e j ^ 2 := by positivity
      have : (e j / 100001) ^ 2 - e j ^ 2 = -(10000200000 / 10000200001) * e j ^ 2 := by ring
      rw [this]
      nlinarith
    rw [e2, fin_div hne, div_self hne] at h
    have hacc : Scal.le (fin S.stepQualityMin) (fin 1) = true := by rw [hq]; exact (fin_le _ _).2 (by norm_num)
    rw [hacc] at h
    refine ⟨decide (S.maxIterations - 1 ≤ (j : Int)) || (true && conv), log, h.trans ?_⟩
    have e3 : nextRadius (fin 1) (ρ j) [d] = ρ (j + 1) := by
      unfold nextRadius
      rw [if_neg (by rw [fin_lt]; norm_num), if_pos ((fin_lt _ _).2 (by norm_num)), hnrm, hρ']
      by_cases hj : j = 0
      · subst hj
        rw [he0]
        norm_num
      · simp only [hj, if_false, Nat.add_one_ne_zero]
        exact max_eq_left (by linarith)
    show Except.ok (DoglegState.map fin ⟨⟨j + 1, at_ (e (j + 1) - 1), e (j + 1) ^ 2, [e (j + 1)], _⟩, nextRadius (fin 1) (ρ j) [d]⟩, log) = _
    rw [e3]
  choose D log hD using hstep
  obtain ⟨dn, hdn0, hdn⟩ : ∃ dn : Nat → Bool, dn 0 = false ∧ ∀ j, dn (j + 1) = D j (dn j) := ⟨Nat.rec false D, rfl, fun _ => rfl⟩
  obtain ⟨u, hu⟩ : ∃ u : Nat → DoglegState ℝ, u = fun j => ⟨⟨j, at_ (e j - 1), e j ^ 2, [e j], dn j⟩, ρ j⟩ := ⟨_, rfl⟩
  have hrun : EndlessDogleg S.lift CE (gE 1 1 0) u := by
    refine ⟨(doglegInit_fin (lifts 1 1 0) (liftsDogleg_lift S)).2 ⟨e 0 ^ 2, [e 0], ?_, ?_⟩, fun j => ?_⟩
    · rw [hu]
      show ((g 1 1 0).ops F Ex.C).computeCost (at_ (e 0 - 1)) = _
      rw [Jaxfg.Poly.cost_eq]
      norm_num
    · rw [hu]; simp only [hdn0, hρ, hρ', if_true]
    · rw [hu]; simp only [hdn]; exact ⟨_, hD j (dn j)⟩
  have hconv : ConvergesTo (fun j => (u j).assignments) (at_ (-1)) := by
    intro η hη
    obtain ⟨n, hn⟩ := exists_pow_lt_of_lt_one hη (show (1 / 100001 : ℝ) < 1 by norm_num)
    refine ⟨n, fun j hj => ?_⟩
    rw [hu]
    show storageDist (at_ (e j - 1)) (at_ (-1)) ≤ η
    rw [storageDist_at, show e j - 1 - -1 = e j by ring, abs_of_pos (hpos j), he]
    exact (pow_le_pow_of_le_one (by norm_num) (by norm_num) hj).trans hn.le
  obtain ⟨G, hG, hT, hDer⟩ := C76_derivative F Ex.C Ex.good [f 1 1 0] (by simp) (by simpa using f_wf 1 1 0)
    (by simp [f]; trivial) (by simpa using fun vals hv => f_correct 1 1 0 hv)
  rw [Jaxfg.Poly.make_eq] at hG
  cases Except.ok.inj hG
  have hlip : LipschitzNear Ex.C ((g 1 1 0).ops F Ex.C) [Ex.x] (at_ (-1)) 1 0 := by
    intro a c r A h1 h2 _ h4 h5 a' c' r' A' k1 k2 _ k4 k5 v
    obtain ⟨x, rfl⟩ := at_of h1 h2
    obtain ⟨y, rfl⟩ := at_of k1 k2
    rw [Jaxfg.Poly.cost_eq] at h4 k4
    obtain ⟨-, rfl⟩ := Prod.mk.inj (Except.ok.inj h4)
    obtain ⟨-, rfl⟩ := Prod.mk.inj (Except.ok.inj k4)
    rw [Jaxfg.Poly.jac_eq] at h5 k5
    cases Except.ok.inj h5
    cases Except.ok.inj k5
    simp [eucl]
  rw [← hS]
  refine ⟨u, hrun, hconv, fun j hj => ?_, ?_⟩
  · rw [hu] at hj
    have hj : [e j - 1] = [-1] := congrArg Assign.storage hj
    have := (List.cons.inj hj).1
    have := hpos j
    linarith
  · exact C96_dogleg_stationary (μ := fun l => l + 1 / 100000) (c₀ := 1) (κ := |1|) (δ := 1) (M := 0) (lifts 1 1 0) (total 1 1 0)
      Jaxfg.Poly.zeroRetract (fun v _ => rfl) (liftsDogleg_lift S) (by rw [hq]; norm_num) (by rw [hq]; norm_num) (by rw [hρ]; norm_num)
      (by rw [hlin]; exact cholmod_graph hsane stale addr) (by norm_num)
      (by
        rw [hlin]
        exact fun a a' c r A h1 h2 h3 h4 h5 h6 => C70_cholmod stale .empty addr (hsane.jacobian a a' c r A h1 h2 h3 h4 h5 h6).1
          (fun p hp => by cases hp))
      (by rw [hu]; exact Jaxfg.Poly.at_assignment _) (by rw [hu]; rfl) hrun
      (fun j => by
        rw [hu]
        show e j ^ 2 ≤ 1
        have := hpos j
        have := hle j
        nlinarith)
      (abs_nonneg _) one_pos le_rfl (tame 1 1 1 1) (Jaxfg.Poly.at_assignment _) rfl hconv hDer one_pos le_rfl hlip

end Poly1

end Jaxfg.Props
