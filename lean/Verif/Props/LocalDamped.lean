/-
Property C93: Levenberg-Marquardt and dogleg converge near a solution of a nonlinear problem. See Verif.Props.SolverReal for the setting.
-/
import Verif.Lemmas.LocalDamped
import Verif.Props.LocalRate
import Verif.Props.Rejections

namespace Jaxfg.Props
open Ext (fin)
open Spec Matrix

section
variable {CE : Ty → VarClass Ext} {gE : GraphOps Ext} {C : Ty → VarClass ℝ} {g : GraphOps ℝ} {ws : List Var}

/-- A step of length zero changes nothing. -/
theorem zero_step (hg : SaneGraph C g ws) (hE : UsesDefaultRetraction C ws) {a b : Assign ℝ} (ha : IsAssignmentOf C ws a)
    (hla : a.layout = g.layout) {d : List ℝ} (hd : d.length = g.localLayout.dim)
    (hb : a.manifoldRetract C ⟨d, g.localLayout⟩ = .ok b) (h0 : sqNorm d = 0) : b = a := by
  obtain ⟨k1, k2⟩ := retract_storage hg hE ha hla hd hb
  have hz : ∀ y ∈ d, y = 0 := by
    intro y hy
    have h1 : y ^ 2 ≤ sqNorm d :=
      List.single_le_sum (l := d.map fun x => x ^ 2) (by simpa using fun x _ => sq_nonneg x) _ (List.mem_map.2 ⟨y, hy, rfl⟩)
    exact pow_eq_zero_iff (two_ne_zero) |>.1 (le_antisymm (h1.trans h0.le) (sq_nonneg y))
  have hbs : b.storage = a.storage := by
    rw [k2]
    apply List.ext_getElem
    · simp [k1]
    · intro i i1 i2
      simp [hz _ (List.getElem_mem (by omega : i < d.length))]
  have hbl := (manifoldRetract_shape hb).1
  cases a; cases b
  simp_all

/-- One damped step near a solution: how near it leads, how long it is, and that it achieves its share of the predicted decrease. -/
theorem damped_near (hg : SaneGraph C g ws) (hE : UsesDefaultRetraction C ws) {e : Assign ℝ} {re : List ℝ} {ρ σ M τ : ℝ}
    (hR : RegularNear C g ws e re ρ σ M τ) (hP : PredictsNear C g ws e ρ M) (hσ : 0 < σ) (hM : 0 ≤ M) {l μ : ℝ} (hμ : 0 ≤ μ)
    {L : LinSolver ℝ} (hL : Near C g ws e ρ fun _ _ A => DampedAt l μ L A) {p : State ℝ} (hp : GoodState C g ws p)
    (hcur : g.computeCost p.assignments = .ok (p.cost, p.residual)) (hρ : storageDist p.assignments e ≤ ρ) {A : Coo ℝ}
    (hA : g.jacobian p.assignments p.residual = .ok A) {ATb : List ℝ} (hT : A.T.matmul (p.residual.map fun x => -x) = .ok ATb) {i : Nat}
    {d : List ℝ} (hd : L A ATb l i = .ok d) {b : Assign ℝ} (hb : p.assignments.manifoldRetract C ⟨d, g.localLayout⟩ = .ok b) :
    storageDist b e ≤ dampedRate σ M τ μ (storageDist p.assignments e) * storageDist p.assignments e ∧
      nrm d ≤ storageDist p.assignments e + storageDist b e ∧ (sqNorm d = 0 → b = p.assignments) ∧
      (storageDist b e ≤ ρ → ∀ c r As, g.computeCost b = .ok (c, r) → A.matmul d = .ok As →
        ∀ q, 0 ≤ q → q ≤ 1 → M * √p.cost ≤ 3 / 4 * (1 - q) * σ → q * (p.cost - predicted As p.residual) ≤ p.cost - c ∧
          predicted As p.residual + σ * sqNorm d ≤ p.cost) := by
  obtain ⟨hwf, hdim⟩ := hp.jac hg hA
  obtain ⟨hrl, hbl, hbv⟩ := descent_ok hwf hT
  obtain ⟨hdl, hD⟩ := hL _ _ _ _ hp.assignment hp.layout hρ hcur hA _ _ _ hbl hd
  obtain ⟨k1, k2⟩ := retract_storage hg hE hp.assignment hp.layout (hdl.trans hdim) hb
  have hal : p.assignments.storage.length = A.shape.2 := k1.trans hdl
  have hel : e.storage.length = A.shape.2 := by rw [hR.assignment.2.2, hR.layout, ← hp.layout, ← hp.assignment.2.2, hal]
  have hbl' : b.storage.length = A.shape.2 := by rw [k2]; simp [hal, hdl]
  have hba := isAssignment_retract hp.assignment hb
  have hblay : b.layout = g.layout := by rw [(manifoldRetract_shape hb).1, hp.layout]
  rw [hbv] at hD
  have hst := hR.stiff _ _ _ _ hp.assignment hp.layout hρ hcur hA
  have key := local_damped hσ hμ hst hD
    (Spec.vec (List.zipWith (· - ·) e.storage p.assignments.storage) A.shape.2) (Spec.vec re A.shape.1)
  have t1 := hR.taylor _ _ _ _ hp.assignment hp.layout hρ hcur hA
  have t2 := hR.gradient _ _ _ _ hp.assignment hp.layout hρ hcur hA
  have hs : 0 < √σ := Real.sqrt_pos.2 hσ
  have d1 : storageDist b e = eucl (Spec.vec d A.shape.2 - Spec.vec (List.zipWith (· - ·) e.storage p.assignments.storage) A.shape.2) := by
    rw [storageDist_eq hbl' hel, k2, vec_add_list hal hdl, vec_sub_list hel hal]
    congr 1; abel
  have d2 : eucl (Spec.vec (List.zipWith (· - ·) e.storage p.assignments.storage) A.shape.2) = storageDist p.assignments e := by
    rw [storageDist_eq hal hel, vec_sub_list hel hal, ← eucl_neg, neg_sub]
  have hdiff : List.zipWith (· - ·) b.storage p.assignments.storage = d := by
    rw [k2]
    apply List.ext_getElem
    · simp [k1]
    · intro i i1 i2; simp
  have d3 : storageDist p.assignments b = nrm d := by
    rw [storageDist_eq hal hbl', ← eucl_neg, neg_sub, ← vec_sub_list hbl' hal, hdiff, nrm_eq hdl]
    rfl
  have d4 : nrm d ≤ storageDist p.assignments e + storageDist b e := by
    have e1 := eucl_add_le (Spec.vec d A.shape.2 - Spec.vec (List.zipWith (· - ·) e.storage p.assignments.storage) A.shape.2)
      (Spec.vec (List.zipWith (· - ·) e.storage p.assignments.storage) A.shape.2)
    rw [sub_add_cancel, ← d1, d2] at e1
    rw [nrm_eq hdl]
    exact e1.trans (by rw [add_comm])
  refine ⟨?_, d4, zero_step hg hE hp.assignment hp.layout (hdl.trans hdim) hb, ?_⟩
  · rw [d2, ← d1] at key
    refine key.trans ?_
    have s1 := div_le_div_of_nonneg_right t1 hs.le
    have s2 : (eucl ((cooMatrix A A.shape.1 A.shape.2)ᵀ *ᵥ Spec.vec re A.shape.1) + μ * storageDist p.assignments e) / (σ + μ) ≤
        (τ * storageDist p.assignments e + μ * storageDist p.assignments e) / (σ + μ) :=
      div_le_div_of_nonneg_right (by linarith) (by linarith)
    refine (add_le_add s1 s2).trans (le_of_eq ?_)
    unfold dampedRate
    have : σ + μ ≠ 0 := by linarith
    field_simp
    ring
  · intro hbρ c r As hc hAs q hq0 hq1 hbig
    have hcost : p.cost = Spec.vec p.residual A.shape.1 ⬝ᵥ Spec.vec p.residual A.shape.1 := by
      rw [hg.cost _ _ _ hcur, sqNorm_eq hrl]
    have hpred := predicted_ok hwf hrl hAs
    obtain ⟨b1, b2⟩ := stiff_bounds hμ hst hD
    rw [← hcost, ← hpred, ← sqNorm_eq hdl] at b1
    rw [← hcost, ← sqNorm_eq hdl] at b2
    have hd0 := sqNorm_nonneg d
    obtain ⟨hrl', hlin⟩ := hP _ _ _ _ hp.assignment hp.layout hρ hcur hA b c r hba hblay hbρ hc
    rw [hdiff, d3] at hlin
    have hc0 : 0 ≤ c := by rw [hg.cost _ _ _ hc]; exact sqNorm_nonneg _
    have hpr0 : 0 ≤ predicted As p.residual := by rw [hpred]; exact dot_self_nonneg _
    have hlin' : √c ≤ √(predicted As p.residual) + M / 2 * sqNorm d := by
      have hsq : nrm d ^ 2 = sqNorm d := Real.sq_sqrt (sqNorm_nonneg _)
      rw [hsq] at hlin
      rw [hpred, hg.cost _ _ _ hc, sqNorm_eq hrl']
      obtain ⟨u, hu⟩ : ∃ u, u = cooMatrix A A.shape.1 A.shape.2 *ᵥ Spec.vec d A.shape.2 + Spec.vec p.residual A.shape.1 := ⟨_, rfl⟩
      have e1 : Spec.vec r A.shape.1 = u + (Spec.vec r A.shape.1 - Spec.vec p.residual A.shape.1 -
          cooMatrix A A.shape.1 A.shape.2 *ᵥ Spec.vec d A.shape.2) := by rw [hu]; abel
      have e2 := eucl_add_le u (Spec.vec r A.shape.1 - Spec.vec p.residual A.shape.1 -
        cooMatrix A A.shape.1 A.shape.2 *ᵥ Spec.vec d A.shape.2)
      rw [← e1] at e2
      have e3 : √(modelCost (cooMatrix A A.shape.1 A.shape.2) (Spec.vec p.residual A.shape.1) (Spec.vec d A.shape.2)) = eucl u := by
        rw [hu]; rfl
      rw [e3]
      exact e2.trans (by linarith)
    exact ⟨stiff_share hpr0 hM hd0 hc0 hσ hq0 hq1 b1 b2 hlin' hbig, by linarith⟩

theorem dampedRate_nonneg {σ M τ μ δ : ℝ} (hσ : 0 < σ) (hM : 0 ≤ M) (hτ : 0 ≤ τ) (hμ : 0 ≤ μ) (hδ : 0 ≤ δ) :
    0 ≤ dampedRate σ M τ μ δ := by
  unfold dampedRate; positivity

/-- Less damping and less distance give a better rate. -/
theorem dampedRate_mono {σ M τ μ μ' δ δ' : ℝ} (hσ : 0 < σ) (hM : 0 ≤ M) (hτ : τ ≤ σ) (hμ : 0 ≤ μ) (hμμ : μ ≤ μ') (hδ : δ ≤ δ') :
    dampedRate σ M τ μ δ ≤ dampedRate σ M τ μ' δ' := by
  unfold dampedRate
  refine add_le_add ?_ (mul_le_mul_of_nonneg_left hδ (by positivity))
  rw [div_le_div_iff₀ (by linarith) (by linarith)]
  nlinarith

/-- A rate below one implies `τ < σ`. -/
theorem dampedRate_lt_one {σ M τ μ δ : ℝ} (hσ : 0 < σ) (hM : 0 ≤ M) (hμ : 0 ≤ μ) (hδ : 0 ≤ δ) (h : dampedRate σ M τ μ δ < 1) : τ < σ := by
  unfold dampedRate at h
  have h1 : 0 ≤ M / (2 * √σ) * δ := by positivity
  have h2 : (τ + μ) / (σ + μ) < 1 := by linarith
  rw [div_lt_one (by linarith)] at h2
  linarith

/-- **C93**, Levenberg-Marquardt. Let `e` be a point near which the problem is regular and linearizations are accurate, variables having
the default retraction, and let the linear solver, called with damping `l`, add `μ l` to the diagonal. From a start `a` at distance `δ₀`
within the radius, with a rate `(τ + μ) / (σ + μ) + M δ₀ / (2 √σ)` below one and a cost with `M √c₀ ≤ 3/4 (1 - step_quality_min) σ`, the
distance to `e` is after `k` steps at most `δ₀` times the product of the rates with the damping `λ₀, λ₀ / f, λ₀ / f², …`. Unless `e` is
reached, all steps are accepted. -/
theorem C93_levenberg_marquardt (h : Lifts CE gE C g) (hg : SaneGraph C g ws) (hE : UsesDefaultRetraction C ws) {e : Assign ℝ}
    {re : List ℝ} {ρ σ M τ : ℝ} (hR : RegularNear C g ws e re ρ σ M τ) (hP : PredictsNear C g ws e ρ M) (hσ : 0 < σ) (hM : 0 ≤ M)
    (hτ : 0 ≤ τ) {μ : ℝ → ℝ} (hμ : ∀ l, 0 ≤ l → 0 ≤ μ l) (hmono : ∀ l l', 0 ≤ l → l ≤ l' → μ l ≤ μ l')
    {sE : LevenbergMarquardt Ext} {s : LevenbergMarquardt ℝ} (hs : LiftsLM sE s) (hf : 1 ≤ s.lambdaFactor) (hmin : 0 ≤ s.lambdaMin)
    (hl0 : 0 ≤ s.lambdaInitial) (hq : 0 ≤ s.stepQualityMin) (hq1 : s.stepQualityMin ≤ 1)
    (hL : ∀ l, 0 ≤ l → Near C g ws e ρ fun _ _ A => DampedAt l (μ l) s.linear A)
    {a : Assign ℝ} (ha : IsAssignmentOf C ws a) (hl : a.layout = g.layout) {c₀ : ℝ} {r₀ : List ℝ} (hc₀ : g.computeCost a = .ok (c₀, r₀))
    (hρ : storageDist a e ≤ ρ) (hκ : dampedRate σ M τ (μ s.lambdaInitial) (storageDist a e) < 1)
    (hsmall : M * √c₀ ≤ 3 / 4 * (1 - s.stepQualityMin) * σ) {st st' : LMState Ext} {k : Nat} {log : List (Msg Ext)}
    (hi : sE.init gE (a.map fin) = .ok st) (hr : Runs (fun s => s.done) (sE.step CE gE) k st st' log) :
    ∃ q : LMState ℝ, st' = q.map fin ∧ IsAssignmentOf C ws q.assignments ∧ q.assignments.layout = g.layout ∧
      g.computeCost q.assignments = .ok (q.cost, q.residual) ∧ q.cost ≤ c₀ ∧
      storageDist q.assignments e ≤
        (∏ j ∈ Finset.range k, dampedRate σ M τ (μ (s.lambdaInitial / s.lambdaFactor ^ j)) (storageDist a e)) * storageDist a e ∧
      (q.lambd = s.lambdaInitial / s.lambdaFactor ^ k ∨ storageDist q.assignments e = 0) := by
  have hf0 : s.lambdaFactor ≠ 0 := by linarith
  obtain ⟨c, r, hc, rfl⟩ := (lmInit_fin h hs).1 hi
  rw [hc₀] at hc
  obtain ⟨rfl, rfl⟩ := Prod.mk.inj (Except.ok.inj hc)
  have h0 := storageDist_nonneg a e
  have hτσ := dampedRate_lt_one hσ hM (hμ _ hl0) h0 hκ
  -- the rates
  have hlam : ∀ j, 0 ≤ s.lambdaInitial / s.lambdaFactor ^ j ∧ s.lambdaInitial / s.lambdaFactor ^ j ≤ s.lambdaInitial := fun j =>
    ⟨div_nonneg hl0 (pow_nonneg (by linarith) j), div_le_self hl0 (one_le_pow₀ hf)⟩
  have hθ0 : ∀ j, 0 ≤ dampedRate σ M τ (μ (s.lambdaInitial / s.lambdaFactor ^ j)) (storageDist a e) := fun j =>
    dampedRate_nonneg hσ hM hτ (hμ _ (hlam j).1) h0
  have hθ1 : ∀ j, dampedRate σ M τ (μ (s.lambdaInitial / s.lambdaFactor ^ j)) (storageDist a e) < 1 := fun j =>
    (dampedRate_mono hσ hM hτσ.le (hμ _ (hlam j).1) (hmono _ _ (hlam j).1 (hlam j).2) le_rfl).trans_lt hκ
  have hprod0 : ∀ k, 0 ≤ ∏ j ∈ Finset.range k, dampedRate σ M τ (μ (s.lambdaInitial / s.lambdaFactor ^ j)) (storageDist a e) := fun k =>
    Finset.prod_nonneg fun j _ => hθ0 j
  have hprod1 : ∀ k, ∏ j ∈ Finset.range k, dampedRate σ M τ (μ (s.lambdaInitial / s.lambdaFactor ^ j)) (storageDist a e) ≤ 1 := fun k =>
    Finset.prod_le_one (fun j _ => hθ0 j) fun j _ => (hθ1 j).le
  suffices H : ∃ q : LMState ℝ, st' = q.map fin ∧ GoodState C g ws q.toState ∧
      g.computeCost q.assignments = .ok (q.cost, q.residual) ∧ q.cost ≤ c₀ ∧ 0 ≤ q.lambd ∧
      storageDist q.assignments e ≤
        (∏ j ∈ Finset.range k, dampedRate σ M τ (μ (s.lambdaInitial / s.lambdaFactor ^ j)) (storageDist a e)) * storageDist a e ∧
      (q.lambd = s.lambdaInitial / s.lambdaFactor ^ k ∨ storageDist q.assignments e = 0) by
    obtain ⟨q, h1, h2, h3, h4, -, h5⟩ := H
    exact ⟨q, h1, h2.assignment, h2.layout, h3, h4, h5⟩
  generalize hst : LMState.map fin _ = st at hr
  induction hr with
  | refl s =>
    exact ⟨_, hst.symm, GoodState.start ha hl hc₀ _ _, hc₀, le_rfl, hl0, by simp, .inl (by simp)⟩
  | @step k _ _ _ _ _ h1 h2 h3 ih =>
    obtain ⟨q, rfl, hgood, hcur, hcost, hlq, hdist, hlam'⟩ := ih hst
    obtain ⟨A, ATb, d, b, c, r, As, acc, conv, e1, e2, e3, e4, e5, e6, -, e8, -, rfl, -⟩ := (lmStep_fin h hs hf0).1 h3
    have hd0 := storageDist_nonneg q.assignments e
    have hda : storageDist q.assignments e ≤ storageDist a e := hdist.trans (mul_le_of_le_one_left h0 (hprod1 k))
    obtain ⟨n1, n2, n3, n4⟩ := damped_near hg hE hR hP hσ hM (hμ _ hlq) (hL _ hlq) hgood hcur (hda.trans hρ) e1 e2 e3 e4
    have hgood' : ∀ q', q' = lmNextReal s q b c r acc conv → GoodState C g ws q'.toState := by
      rintro _ rfl
      exact hgood.next e4 e5 acc rfl rfl rfl
    have hlq' : 0 ≤ (lmNextReal s q b c r acc conv).lambd := by
      show 0 ≤ nextLambda s acc q.lambd
      unfold nextLambda
      split
      · exact div_nonneg hlq (by linarith)
      · exact le_max_of_le_left hmin
    have hres : 0 ≤ (∏ j ∈ Finset.range (k + 1), dampedRate σ M τ (μ (s.lambdaInitial / s.lambdaFactor ^ j)) (storageDist a e)) *
        storageDist a e := mul_nonneg (hprod0 _) h0
    -- a step of length zero
    have hzero : sqNorm d = 0 → storageDist q.assignments e = 0 → ∃ q' : LMState ℝ, (lmNextReal s q b c r acc conv).map fin = q'.map fin ∧
        GoodState C g ws q'.toState ∧ g.computeCost q'.assignments = .ok (q'.cost, q'.residual) ∧ q'.cost ≤ c₀ ∧ 0 ≤ q'.lambd ∧
        storageDist q'.assignments e ≤
          (∏ j ∈ Finset.range (k + 1), dampedRate σ M τ (μ (s.lambdaInitial / s.lambdaFactor ^ j)) (storageDist a e)) *
            storageDist a e ∧
        (q'.lambd = s.lambdaInitial / s.lambdaFactor ^ (k + 1) ∨ storageDist q'.assignments e = 0) := by
      intro hz hde
      obtain rfl := n3 hz
      rw [hcur] at e5
      obtain ⟨e51, e52⟩ := Prod.mk.inj (Except.ok.inj e5)
      have ha' : (lmNextReal s q q.assignments c r acc conv).assignments = q.assignments := by simp [lmNextReal]
      refine ⟨_, rfl, hgood' _ rfl, ?_, ?_, hlq', ?_, .inr ?_⟩
      · rw [ha', hcur, e51, e52]
        simp [lmNextReal, e51]
      · simp only [lmNextReal, ← e51, ite_self]
        exact hcost
      · rw [ha', hde]; exact hres
      · rw [ha', hde]
    by_cases hz : sqNorm d = 0
    · refine hzero hz ?_
      obtain hlam' | hlam' := hlam'
      · rw [n3 hz, hlam'] at n1
        have hlt := (dampedRate_mono hσ hM hτσ.le (hμ _ (hlam k).1) le_rfl hda).trans_lt (hθ1 k)
        by_contra hne
        have : 0 < storageDist q.assignments e := lt_of_le_of_ne hd0 (Ne.symm hne)
        nlinarith
      · exact hlam'
    · obtain hlam' | hlam' := hlam'
      · have hlt := (dampedRate_mono hσ hM hτσ.le (hμ _ (hlam k).1) le_rfl hda)
        rw [hlam'] at n1
        have hbe : storageDist b e ≤ dampedRate σ M τ (μ (s.lambdaInitial / s.lambdaFactor ^ k)) (storageDist a e) *
            storageDist q.assignments e := n1.trans (mul_le_mul_of_nonneg_right hlt hd0)
        have hbρ : storageDist b e ≤ ρ :=
          hbe.trans ((mul_le_of_le_one_left hd0 (hθ1 k).le).trans (hda.trans hρ))
        obtain ⟨n5, n6⟩ := n4 hbρ _ _ _ e5 e6 _ hq hq1 ((mul_le_mul_of_nonneg_left (Real.sqrt_le_sqrt hcost) hM).trans hsmall)
        have hdpos : 0 < σ * sqNorm d := mul_pos hσ (lt_of_le_of_ne (sqNorm_nonneg d) (Ne.symm hz))
        have hacc : acc = true := by rw [e8]; exact accepts_share (by linarith) n5
        have hlow : c ≤ q.cost := by nlinarith [mul_nonneg hq (sub_nonneg.2 (by linarith : predicted As q.residual ≤ q.cost))]
        subst hacc
        refine ⟨_, rfl, hgood' _ rfl, by simpa [lmNextReal] using e5, by simpa [lmNextReal] using hlow.trans hcost, hlq', ?_, .inl ?_⟩
        · simp only [lmNextReal, if_true]
          rw [Finset.prod_range_succ, mul_comm (∏ j ∈ _, _), mul_assoc]
          exact hbe.trans (mul_le_mul_of_nonneg_left hdist (hθ0 k))
        · simp only [lmNextReal, nextLambda, if_true]
          rw [hlam', pow_succ, div_div]
      · exfalso
        rw [hlam', mul_zero] at n1
        rw [hlam', zero_add] at n2
        have hn : nrm d ≤ 0 := n2.trans n1
        have : nrm d = 0 := le_antisymm hn (nrm_nonneg d)
        apply hz
        rw [← Real.sq_sqrt (sqNorm_nonneg d)]
        show nrm d ^ 2 = 0
        rw [this]; norm_num

/-- **C93**, dogleg. As for Levenberg-Marquardt, with a linear solver that, called without damping, adds `μ` to the diagonal. If the
initial radius is at least twice the initial distance, all steps are Gauss-Newton steps, the radius never shrinks, and the distance after
`k` steps is at most `κᵏ δ₀`. -/
theorem C93_dogleg (h : Lifts CE gE C g) (hg : SaneGraph C g ws) (hE : UsesDefaultRetraction C ws) {e : Assign ℝ}
    {re : List ℝ} {ρ σ M τ : ℝ} (hR : RegularNear C g ws e re ρ σ M τ) (hP : PredictsNear C g ws e ρ M) (hσ : 0 < σ) (hM : 0 ≤ M)
    (hτ : 0 ≤ τ) {μ : ℝ} (hμ : 0 ≤ μ) {sE : Dogleg Ext} {s : Dogleg ℝ} (hs : LiftsDogleg sE s) (hq1 : s.stepQualityMin ≤ 1)
    (hL : Near C g ws e ρ fun _ _ A => DampedAt 0 μ s.linear A)
    {a : Assign ℝ} (ha : IsAssignmentOf C ws a) (hl : a.layout = g.layout) {c₀ : ℝ} {r₀ : List ℝ} (hc₀ : g.computeCost a = .ok (c₀, r₀))
    (hρ : storageDist a e ≤ ρ) (hκ : dampedRate σ M τ μ (storageDist a e) < 1) (hrad : 0 < s.radiusInitial)
    (hrad2 : 2 * storageDist a e ≤ s.radiusInitial)
    (hsmall : M * √c₀ ≤ 3 / 4 * (1 - max s.stepQualityMin (1 / 4)) * σ) {st st' : DoglegState Ext} {k : Nat} {log : List (Msg Ext)}
    (hi : sE.init gE (a.map fin) = .ok st) (hr : Runs (fun s => s.done) (sE.step CE gE) k st st' log) :
    ∃ q : DoglegState ℝ, st' = q.map fin ∧ IsAssignmentOf C ws q.assignments ∧ q.assignments.layout = g.layout ∧
      g.computeCost q.assignments = .ok (q.cost, q.residual) ∧ q.cost ≤ c₀ ∧ s.radiusInitial ≤ q.radius ∧
      storageDist q.assignments e ≤ dampedRate σ M τ μ (storageDist a e) ^ k * storageDist a e := by
  obtain ⟨c, r, hc, rfl⟩ := (doglegInit_fin h hs).1 hi
  rw [hc₀] at hc
  obtain ⟨rfl, rfl⟩ := Prod.mk.inj (Except.ok.inj hc)
  have h0 := storageDist_nonneg a e
  have hτσ := dampedRate_lt_one hσ hM hμ h0 hκ
  have hθ0 := dampedRate_nonneg (δ := storageDist a e) hσ hM hτ hμ h0
  have hm1 : max s.stepQualityMin (1 / 4) ≤ 1 := max_le hq1 (by norm_num)
  have hm0 : 0 ≤ max s.stepQualityMin (1 / 4) := le_max_of_le_right (by norm_num)
  suffices H : ∃ q : DoglegState ℝ, st' = q.map fin ∧ GoodState C g ws q.toState ∧
      g.computeCost q.assignments = .ok (q.cost, q.residual) ∧ q.cost ≤ c₀ ∧ s.radiusInitial ≤ q.radius ∧
      storageDist q.assignments e ≤ dampedRate σ M τ μ (storageDist a e) ^ k * storageDist a e by
    obtain ⟨q, h1, h2, h3, h4⟩ := H
    exact ⟨q, h1, h2.assignment, h2.layout, h3, h4⟩
  generalize hst : DoglegState.map fin _ = st at hr
  induction hr with
  | refl s =>
    exact ⟨_, hst.symm, GoodState.start ha hl hc₀ _ _, hc₀, le_rfl, le_rfl, by simp⟩
  | @step k _ _ _ _ _ h1 h2 h3 ih =>
    obtain ⟨q, rfl, hgood, hcur, hcost, hradq, hdist⟩ := ih hst
    have hd0 := storageDist_nonneg q.assignments e
    have hda : storageDist q.assignments e ≤ storageDist a e := hdist.trans (mul_le_of_le_one_left h0 (pow_le_one₀ hθ0 hκ.le))
    have hlt := dampedRate_mono hσ hM hτσ.le hμ le_rfl hda
    have hrq : 0 < q.radius := hrad.trans_le hradq
    -- the Gauss-Newton step is inside the trust region
    have hgn : ∀ A ATb gn, g.jacobian q.assignments q.residual = .ok A → A.T.matmul (q.residual.map fun x => -x) = .ok ATb →
        s.linear A ATb 0 q.iterations = .ok gn → doglegStep (A.map fin) (ATb.map fin) (gn.map fin) (fin q.radius) = .ok (gn.map fin) := by
      intro A ATb gn h1 h2 h3
      obtain ⟨hwf, hdim⟩ := hgood.jac hg h1
      obtain ⟨-, hbl, -⟩ := descent_ok hwf h2
      obtain ⟨hgl, -⟩ := hL _ _ _ _ hgood.assignment hgood.layout (hda.trans hρ) hcur h1 _ _ _ hbl h3
      have hb := (retract_adds C hg.classes ws q.assignments ⟨gn, g.localLayout⟩ hgood.assignment
        (by rw [hgood.layout, hg.layout]; rfl) ⟨hg.nodup, by simp only [hg.localLayout, make_localFlag], hgl.trans hdim⟩
        (by simp only [hg.localLayout, make_localFlag]) hE).1
      obtain ⟨n1, n2, -⟩ := damped_near hg hE hR hP hσ hM hμ hL hgood hcur (hda.trans hρ) h1 h2 h3 hb
      refine (doglegStep_fin hwf h2 hgl hrq).1 (n2.trans ?_)
      have := n1.trans ((mul_le_mul_of_nonneg_right hlt hd0).trans (mul_le_of_le_one_left hd0 hκ.le))
      linarith
    obtain ⟨A, ATb, gn, d, b, c, r, As, y, conv, e1, e2, e3, e4, e5, e6, e7, -, rfl, -, rfl, -⟩ := (doglegSolverStep_fin h hs (by
      intro A ATb gn dE h1 h2 h3 h4
      rw [hgn A ATb gn h1 h2 h3] at h4
      exact ⟨gn, (Except.ok.inj h4).symm⟩)).1 h3
    rw [hgn A ATb gn e1 e2 e3] at e4
    obtain rfl : gn = d := List.map_injective_iff.2 fin_injective (Except.ok.inj e4)
    obtain ⟨n1, n2, n3, n4⟩ := damped_near hg hE hR hP hσ hM hμ hL hgood hcur (hda.trans hρ) e1 e2 e3 e5
    have hbe := n1.trans (mul_le_mul_of_nonneg_right hlt hd0)
    have hbρ : storageDist b e ≤ ρ := hbe.trans ((mul_le_of_le_one_left hd0 hκ.le).trans (hda.trans hρ))
    have hsm := (mul_le_mul_of_nonneg_left (Real.sqrt_le_sqrt hcost) hM).trans hsmall
    obtain ⟨n5, n6⟩ := n4 hbρ _ _ _ e6 e7 _ hm0 hm1 hsm
    have hdist' : storageDist b e ≤ dampedRate σ M τ μ (storageDist a e) ^ (k + 1) * storageDist a e := by
      rw [pow_succ', mul_assoc]
      exact hbe.trans (mul_le_mul_of_nonneg_left hdist hθ0)
    by_cases hz : sqNorm gn = 0
    · obtain rfl := n3 hz
      rw [hcur] at e6
      obtain ⟨e61, e62⟩ := Prod.mk.inj (Except.ok.inj e6)
      refine ⟨_, rfl, hgood.next e5 (c := c) (r := r) (by rw [hcur, e61, e62]) _ rfl rfl rfl, ?_, ?_, ?_, ?_⟩
      · have ha' : ∀ y acc, (doglegNextReal s q gn q.assignments c r y acc conv).assignments = q.assignments := by simp [doglegNextReal]
        have hc' : ∀ y acc, (doglegNextReal s q gn q.assignments c r y acc conv).cost = c := by simp [doglegNextReal, e61]
        have hr' : ∀ y acc, (doglegNextReal s q gn q.assignments c r y acc conv).residual = r := by simp [doglegNextReal]
        rw [ha', hc', hr', hcur, e61, e62]
      · simp only [doglegNextReal, ← e61, ite_self]
        exact hcost
      · show _ ≤ nextRadius _ _ _
        have hpc : predicted As q.residual = c := by
          rw [hz, mul_zero, add_zero] at n6
          refine le_antisymm (by linarith) ?_
          have : 1 / 4 ≤ max s.stepQualityMin (1 / 4) := le_max_right _ _
          nlinarith
        rw [hpc, e61, sub_self, fin_div_zero_zero]
        exact hradq
      · simpa [doglegNextReal] using hdist'
    · have hdpos : 0 < σ * sqNorm gn := mul_pos hσ (lt_of_le_of_ne (sqNorm_nonneg gn) (Ne.symm hz))
      have hneg : predicted As q.residual - q.cost < 0 := by linarith
      have hlow : c ≤ q.cost := by nlinarith [mul_nonneg hm0 (neg_nonneg.2 hneg.le)]
      have hquo : max s.stepQualityMin (1 / 4) ≤ (c - q.cost) / (predicted As q.residual - q.cost) := by
        rw [le_div_iff_of_neg hneg]; linarith
      have hacc : Scal.le (fin s.stepQualityMin) (fin (c - q.cost) / fin (predicted As q.residual - q.cost)) = true :=
        accept_fin.2 (.inl ⟨hneg.ne, (le_max_left _ _).trans hquo⟩)
      rw [hacc]
      refine ⟨_, rfl, hgood.next e5 e6 true rfl rfl rfl, by simpa [doglegNextReal] using e6, by simpa [doglegNextReal] using hlow.trans hcost,
        ?_, by simpa [doglegNextReal] using hdist'⟩
      show _ ≤ nextRadius _ _ _
      unfold nextRadius
      rw [fin_div hneg.ne, if_neg (by rw [fin_lt, not_lt]; exact (le_max_right _ _).trans hquo)]
      split
      · exact hradq.trans (le_max_left _ _)
      · exact hradq

/-- **C93**, the hypothesis on linearizations: it follows from a Lipschitz continuous Jacobian. -/
theorem C93_smooth (hT : TotalGraph C g ws) (hE : UsesDefaultRetraction C ws) {m : Nat} (hD : DerivativeGraph C g ws m) {e : Assign ℝ}
    (he : IsAssignmentOf C ws e) (hle : e.layout = g.layout) {ρ M : ℝ} (hlip : LipschitzNear C g ws e ρ M) :
    PredictsNear C g ws e ρ M := by
  intro a c r A ha hl hρ hc hA b c' r' hb hbl hbρ hc'
  obtain ⟨m1, -⟩ := jac_rows hT hE hD ha hl hc hA
  obtain ⟨A', hA', -⟩ := hT.jacobian b b c' r' hb hbl hb hbl hc'
  obtain ⟨-, m3⟩ := jac_rows hT hE hD hb hbl hc' hA'
  exact ⟨m3.trans m1.symm, taylor_between hT hE hD he hle hlip ha hl hρ hb hbl hbρ hc hA hc'⟩

/-- **C93**, the hypothesis on the linear solver: CHOLMOD adds `lambd + 1e-5`. -/
theorem C93_cholmod (stale : Pattern → ScipyCoo ℝ → ℝ → List ℝ → Py (List ℝ)) (cache : CholmodCache) (addr : Nat) {A : Coo ℝ}
    (hA : CooWF A) (hcache : CacheFits cache addr A) {l : ℝ} (hl : 0 ≤ l) :
    DampedAt l (l + 1 / 100000) (fun A b l _ => (cholmodSolve stale cache addr A b l).1) A := by
  intro b i x hb hx
  obtain ⟨-, x', h1, h2, h3, -⟩ := C35_cholmod stale cache addr A hA b hb l hl hcache
  have hx : (cholmodSolve stale cache addr A b l).1 = .ok x := hx
  rw [h1] at hx
  cases Except.ok.inj hx
  exact ⟨h2, h3⟩

end

/-! ### Examples -/

namespace Poly1
open Jaxfg.Poly

theorem predictsNear (p q s w ρ : ℝ) : PredictsNear Ex.C ((g p q s).ops F Ex.C) [Ex.x] (at_ w) ρ (2 * |s|) := by
  intro a c r A ha hl _ hc hA b c' r' hb hbl _ hc'
  obtain ⟨v, rfl⟩ := at_of ha hl
  obtain ⟨v', rfl⟩ := at_of hb hbl
  rw [Jaxfg.Poly.cost_eq] at hc hc'
  obtain ⟨-, rfl⟩ := Prod.mk.inj (Except.ok.inj hc)
  obtain ⟨-, rfl⟩ := Prod.mk.inj (Except.ok.inj hc')
  rw [Jaxfg.Poly.jac_eq] at hA
  cases Except.ok.inj hA
  refine ⟨rfl, ?_⟩
  have hd : ([v'] : List ℝ).length = 1 := rfl
  have key := predictsFrom p q s v (|v' - v|) [v' - v] (at_ v') _ _ rfl (by rw [sqNorm_single, Real.sqrt_sq_eq_abs]) (by
    have := retract_eq v (v' - v)
    rwa [show v + (v' - v) = v' by ring] at this) (Jaxfg.Poly.cost_eq p q s v')
  rw [sqNorm_single] at key
  rw [storageDist_at, sq_abs, show (v - v') ^ 2 = (v' - v) ^ 2 by ring]
  exact key

theorem cost_bound {v : ℝ} (hv : |v - √2| ≤ 1 / 10) : 2 * √((-2 + 0 * v + 1 * v ^ 2) ^ 2) ≤ 1 := by
  have h2 : √2 ≤ 1.5 := Real.sqrt_le_iff.2 ⟨by norm_num, by norm_num⟩
  have h1 : (1.4 : ℝ) ≤ √2 := Real.le_sqrt_of_sq_le (by norm_num)
  have h3 : √2 ^ 2 = (2 : ℝ) := Real.sq_sqrt (by norm_num)
  have := abs_le.1 hv
  rw [Real.sqrt_sq_eq_abs, show -2 + 0 * v + 1 * v ^ 2 = (v - √2) * (v + √2) by ring_nf; rw [h3]; ring, abs_mul,
    abs_of_nonneg (show 0 ≤ v + √2 by linarith)]
  nlinarith [abs_nonneg (v - √2)]

theorem sqrt_four : √(4 : ℝ) = 2 := by rw [show (4 : ℝ) = 2 ^ 2 by norm_num]; exact Real.sqrt_sq (by norm_num)

theorem damped_sqrt_two (stale : Pattern → ScipyCoo ℝ → ℝ → List ℝ → Py (List ℝ)) (addr : Nat) {l : ℝ} (hl : 0 ≤ l) :
    Near Ex.C ((g (-2) 0 1).ops F Ex.C) [Ex.x] (at_ √2) (1 / 4) fun _ _ A => DampedAt l (l + 1 / 100000) (chol stale addr) A :=
  fun a c r A k1 k2 _ k4 k5 => C93_cholmod stale .empty addr ((Jaxfg.Poly.sane (-2) 0 1).jacobian a a c r A k1 k2 k1 k2 k4 k5).1
    (fun p hp => by cases hp) hl

/-- `C93_levenberg_marquardt` for the residual `x² - 2`, with CHOLMOD and default settings, from a start within `1/10` of `√2`. Every
iteration gains more than one decimal digit, and the damping is halved each time. -/
example (stale : Pattern → ScipyCoo ℝ → ℝ → List ℝ → Py (List ℝ)) (addr : Nat) (v : ℝ) (hv : |v - √2| ≤ 1 / 10) (k : Nat) (st st' log)
    (hi : (LevenbergMarquardt.defaults (chol stale addr)).lift.init (gE (-2) 0 1) ((at_ v).map fin) = .ok st)
    (hr : Runs (fun s => s.done) ((LevenbergMarquardt.defaults (chol stale addr)).lift.step CE (gE (-2) 0 1)) k st st' log) :
    ∃ w l : ℝ, st'.assignments = (at_ w).map fin ∧ st'.lambd = fin l ∧ |w - √2| ≤ (1 / 18) ^ k * |v - √2| ∧
      (l = 1 / 2000 / 2 ^ k ∨ w = √2) := by
  obtain ⟨S, hS⟩ : ∃ S, S = LevenbergMarquardt.defaults (chol stale addr) := ⟨_, rfl⟩
  rw [← hS] at hi hr
  have hq : S.stepQualityMin = 1 / 1000 := by rw [hS]; rfl
  have hf : S.lambdaFactor = 2 := by rw [hS]; rfl
  have hmin : S.lambdaMin = 1 / 100000 := by rw [hS]; rfl
  have hini : S.lambdaInitial = 1 / 2000 := by rw [hS]; rfl
  have hlin : S.linear = chol stale addr := by rw [hS]; rfl
  have hP := predictsNear (-2) 0 1 √2 (1 / 4)
  rw [abs_one, mul_one] at hP
  have hrate : ∀ l : ℝ, 0 ≤ l → l ≤ 1 / 2000 → dampedRate 4 2 0 (l + 1 / 100000) |v - √2| ≤ 1 / 18 := by
    intro l h0 h1
    unfold dampedRate
    rw [sqrt_four]
    have : (0 + (l + 1 / 100000)) / (4 + (l + 1 / 100000)) ≤ (1 / 1000 : ℝ) := by
      rw [div_le_iff₀ (by linarith)]; linarith
    linarith
  obtain ⟨q, k1, k2, k3, k4, k5, k6, k7⟩ := C93_levenberg_marquardt (lifts (-2) 0 1) (Jaxfg.Poly.sane (-2) 0 1) (fun v _ => rfl)
    regular_sqrt_two hP (by norm_num) (by norm_num) le_rfl (μ := fun l => l + 1 / 100000) (fun l hl => by positivity)
    (fun l l' _ hl => by simpa using hl) (liftsLM_lift S) (by rw [hf]; norm_num) (by rw [hmin]; norm_num) (by rw [hini]; norm_num)
    (by rw [hq]; norm_num) (by rw [hq]; norm_num) (fun l hl => by rw [hlin]; exact damped_sqrt_two stale addr hl)
    (Jaxfg.Poly.at_assignment v) rfl (Jaxfg.Poly.cost_eq (-2) 0 1 v) (by rw [storageDist_at]; linarith)
    (by rw [storageDist_at, hini]; exact (hrate _ (by norm_num) le_rfl).trans_lt (by norm_num))
    (by rw [hq]; exact (cost_bound hv).trans (by norm_num)) hi hr
  obtain ⟨w, hw⟩ := at_of k2 k3
  refine ⟨w, q.lambd, by rw [k1, ← hw]; rfl, by rw [k1]; rfl, ?_, ?_⟩
  · rw [hw, storageDist_at, storageDist_at] at k6
    refine k6.trans (mul_le_mul_of_nonneg_right ?_ (abs_nonneg _))
    refine (Finset.prod_le_prod (fun j _ => ?_) fun j _ => hrate (S.lambdaInitial / S.lambdaFactor ^ j) ?_ ?_).trans ?_
    · rw [hini, hf]
      exact dampedRate_nonneg (by norm_num) (by norm_num) le_rfl (by positivity) (abs_nonneg _)
    · rw [hini, hf]; positivity
    · rw [hini, hf]; exact div_le_self (by norm_num) (one_le_pow₀ (by norm_num))
    · simp
  · rw [hini, hf, hw, storageDist_at, abs_eq_zero, sub_eq_zero] at k7
    exact k7

/-- `C93_dogleg` for the residual `x² - 2`, with CHOLMOD and default settings, from a start within `1/10` of `√2`. -/
example (stale : Pattern → ScipyCoo ℝ → ℝ → List ℝ → Py (List ℝ)) (addr : Nat) (v : ℝ) (hv : |v - √2| ≤ 1 / 10) (k : Nat) (st st' log)
    (hi : (Dogleg.defaults (chol stale addr)).lift.init (gE (-2) 0 1) ((at_ v).map fin) = .ok st)
    (hr : Runs (fun s => s.done) ((Dogleg.defaults (chol stale addr)).lift.step CE (gE (-2) 0 1)) k st st' log) :
    ∃ w R : ℝ, st'.assignments = (at_ w).map fin ∧ st'.radius = fin R ∧ 1 ≤ R ∧ |w - √2| ≤ (1 / 18) ^ k * |v - √2| := by
  obtain ⟨S, hS⟩ : ∃ S, S = Dogleg.defaults (chol stale addr) := ⟨_, rfl⟩
  rw [← hS] at hi hr
  have hq : S.stepQualityMin = 1 / 1000 := by rw [hS]; rfl
  have hini : S.radiusInitial = 1 := by rw [hS]; rfl
  have hlin : S.linear = chol stale addr := by rw [hS]; rfl
  have hP := predictsNear (-2) 0 1 √2 (1 / 4)
  rw [abs_one, mul_one] at hP
  have hrate : dampedRate 4 2 0 (0 + 1 / 100000) |v - √2| ≤ 1 / 18 := by
    unfold dampedRate
    rw [sqrt_four]
    norm_num
    linarith
  obtain ⟨q, k1, k2, k3, k4, k5, k6, k7⟩ := C93_dogleg (lifts (-2) 0 1) (Jaxfg.Poly.sane (-2) 0 1) (fun v _ => rfl)
    regular_sqrt_two hP (by norm_num) (by norm_num) le_rfl (μ := 0 + 1 / 100000) (by norm_num)
    (liftsDogleg_lift S) (by rw [hq]; norm_num) (by rw [hlin]; exact damped_sqrt_two stale addr le_rfl)
    (Jaxfg.Poly.at_assignment v) rfl (Jaxfg.Poly.cost_eq (-2) 0 1 v) (by rw [storageDist_at]; linarith)
    (by rw [storageDist_at]; exact hrate.trans_lt (by norm_num)) (by rw [hini]; norm_num) (by rw [hini, storageDist_at]; linarith)
    (by rw [hq]; exact (cost_bound hv).trans (by norm_num)) hi hr
  obtain ⟨w, hw⟩ := at_of k2 k3
  refine ⟨w, q.radius, by rw [k1, ← hw]; rfl, by rw [k1]; rfl, hini ▸ k6, ?_⟩
  rw [hw, storageDist_at, storageDist_at] at k7
  exact k7.trans (mul_le_mul_of_nonneg_right (pow_le_pow_left₀
    (dampedRate_nonneg (by norm_num) (by norm_num) le_rfl (by norm_num) (abs_nonneg _)) hrate _) (abs_nonneg _))

end Poly1

end Jaxfg.Props
