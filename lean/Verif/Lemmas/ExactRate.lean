/- Rates of Levenberg-Marquardt and dogleg where the linearized cost is exact in suitable coordinates. -/
import Verif.Props.LinearRate

namespace Jaxfg
open Spec Matrix
open Ext (fin)

/-- In the coordinates `X` of the assignments (`R`), the cost is `Φ` and every step changes it as the linearization says, as long as it is
at most `B`. -/
structure Exact {X : Type} (C : Ty → VarClass ℝ) (g : GraphOps ℝ) (Φ : X → ℝ) (R : X → Assign ℝ → Prop) (B : ℝ) : Prop where
  cost : ∀ x a c r, R x a → Φ x ≤ B → a.layout = g.layout → g.computeCost a = .ok (c, r) → c = Φ x
  step : ∀ x a c r A d, R x a → Φ x ≤ B → a.layout = g.layout → g.computeCost a = .ok (c, r) → g.jacobian a r = .ok A →
    d.length = g.localLayout.dim → ∃ x', (∀ b, a.manifoldRetract C ⟨d, g.localLayout⟩ = .ok b → R x' b) ∧
      modelCost (cooMatrix A A.shape.1 A.shape.2) (Spec.vec r A.shape.1) (Spec.vec d A.shape.2) = Φ x'
  reach : ∀ x a c r A, R x a → Φ x ≤ B → a.layout = g.layout → g.computeCost a = .ok (c, r) → g.jacobian a r = .ok A →
    ∀ y, ∃ d : List ℝ, modelCost (cooMatrix A A.shape.1 A.shape.2) (Spec.vec r A.shape.1) (Spec.vec d A.shape.2) = Φ y
  zero : ∀ x a d b, R x a → a.layout = g.layout → d.length = g.localLayout.dim → (∀ z ∈ d, z = 0) →
    a.manifoldRetract C ⟨d, g.localLayout⟩ = .ok b → R x b ∧ g.computeCost b = g.computeCost a

section
variable {X : Type} {CE : Ty → VarClass Ext} {gE : GraphOps Ext} {C : Ty → VarClass ℝ} {g : GraphOps ℝ} {ws : List Var} {Φ : X → ℝ}
  {R : X → Assign ℝ → Prop} {B : ℝ}

theorem zero_of_vec {n : Nat} {d : List ℝ} (hd : d.length = n) (h : Spec.vec d n = 0) : ∀ z ∈ d, z = 0 := by
  intro z hz
  obtain ⟨i, hi, rfl⟩ := List.getElem_of_mem hz
  have := congrFun h ⟨i, by omega⟩
  simpa [Spec.vec, hi] using this

/-- A damped step. -/
theorem exact_step (hg : SaneGraph C g ws) (hX : Exact C g Φ R B) {p : State ℝ} (hp : GoodState C g ws p)
    (hcur : g.computeCost p.assignments = .ok (p.cost, p.residual)) {x : X} (hx : R x p.assignments) (hB : Φ x ≤ B) {A : Coo ℝ}
    (hA : g.jacobian p.assignments p.residual = .ok A) {ATb : List ℝ} (hT : A.T.matmul (p.residual.map fun x => -x) = .ok ATb)
    {d : List ℝ} (hdl : d.length = A.shape.2) {b : Assign ℝ} (hb : p.assignments.manifoldRetract C ⟨d, g.localLayout⟩ = .ok b) {c : ℝ}
    {r : List ℝ} (hc : g.computeCost b = .ok (c, r)) :
    modelCost (cooMatrix A A.shape.1 A.shape.2) (Spec.vec p.residual A.shape.1) 0 = Φ x ∧
    ∃ x', R x' b ∧ modelCost (cooMatrix A A.shape.1 A.shape.2) (Spec.vec p.residual A.shape.1) (Spec.vec d A.shape.2) = Φ x' ∧
      (Φ x' ≤ B → c = Φ x') := by
  obtain ⟨hwf, hdim⟩ := hp.jac hg hA
  obtain ⟨hrl, -, -⟩ := descent_ok hwf hT
  have hbl := (manifoldRetract_shape hb).1.trans hp.layout
  have k3 : modelCost (cooMatrix A A.shape.1 A.shape.2) (Spec.vec p.residual A.shape.1) 0 = Φ x := by
    rw [modelCost_zero, ← sqNorm_eq hrl, ← hg.cost _ _ _ hcur]
    exact hX.cost _ _ _ _ hx hB hp.layout hcur
  obtain ⟨x', h1, h2⟩ := hX.step _ _ _ _ _ d hx hB hp.layout hcur hA (hdl.trans hdim)
  exact ⟨k3, x', h1 b hb, h2, fun hle => hX.cost _ _ _ _ (h1 b hb) hle hbl hc⟩

/-- Levenberg-Marquardt. -/
theorem exact_levenberg_marquardt (h : Lifts CE gE C g) (hg : SaneGraph C g ws) {σ : ℝ} (hσ : 0 < σ) {μ : ℝ → ℝ}
    (hμ : ∀ l, 0 ≤ l → 0 ≤ μ l) {sE : LevenbergMarquardt Ext} {s : LevenbergMarquardt ℝ} (hs : LiftsLM sE s)
    (hX : Exact C g Φ R B)
    (hL : ∀ x a c r A, R x a → Φ x ≤ B → IsAssignmentOf C ws a → a.layout = g.layout → g.computeCost a = .ok (c, r) → g.jacobian a r = .ok A →
      Contracts σ μ s.linear A)
    (hq : s.stepQualityMin ≤ 1) (p1 : 0 ≤ s.lambdaInitial) (p2 : 1 ≤ s.lambdaFactor)
    (p3 : 0 ≤ s.lambdaMin) {a : Assign ℝ} (ha : IsAssignmentOf C ws a) (hl : a.layout = g.layout) {c₀ : ℝ} {r₀ : List ℝ}
    (hc₀ : g.computeCost a = .ok (c₀, r₀)) {x₀ : X} (hx₀ : R x₀ a) (hB : Φ x₀ ≤ B)
    {st' : LMState Ext} {k : Nat} {log : List (Msg Ext)}
    (hr : Runs (fun s => s.done) (sE.step CE gE) k (LMState.map fin ⟨⟨0, a, c₀, r₀, false⟩, s.lambdaInitial⟩) st' log) :
    ∃ (q : LMState ℝ) (x : X), st' = q.map fin ∧ GoodState C g ws q.toState ∧ R x q.assignments ∧ Φ x ≤ Φ x₀ ∧
      q.iterations = k ∧ q.cost = Φ x ∧ 0 ≤ q.lambd ∧
      g.computeCost q.assignments = .ok (q.cost, q.residual) ∧
      (q.lambd = s.lambdaInitial / s.lambdaFactor ^ k ∨ ∀ y, Φ x ≤ Φ y) ∧
      ∀ y, Φ x - Φ y ≤ (∏ i ∈ Finset.range k, (μ (s.lambdaInitial / s.lambdaFactor ^ i) /
          (σ + μ (s.lambdaInitial / s.lambdaFactor ^ i))) ^ 2) * (Φ x₀ - Φ y) := by
  have hf : s.lambdaFactor ≠ 0 := by linarith
  generalize hst : LMState.map fin ⟨⟨0, a, c₀, r₀, false⟩, s.lambdaInitial⟩ = st at hr
  induction hr with
  | refl s' => exact ⟨_, x₀, hst.symm, GoodState.start ha hl hc₀ _ _, hx₀, le_rfl, rfl, hX.cost _ _ _ _ hx₀ hB hl hc₀, p1, hc₀, .inl (by simp), fun y => by simp⟩
  | @step k _ _ _ _ _ h1 h2 h3 ih =>
    obtain ⟨q, x, rfl, hq', hR, hle0, hit, hqc, hlam, hcur, hsched, hgap⟩ := ih hst
    obtain ⟨A, ATb, d, b, c, r, As, acc, conv, hA, hT, hx, hb, hc, hAs, hAl, hacc, -, rfl, -⟩ := (lmStep_fin h hs hf).1 h3
    obtain ⟨hwf, hdim⟩ := hq'.jac hg hA
    obtain ⟨hrl, hbl, hbv⟩ := descent_ok hwf hT
    obtain ⟨hdl, hsd, hcon, -⟩ := hL _ _ _ _ _ hR (hle0.trans hB) hq'.assignment hq'.layout hcur hA ATb _ _ d _ hbl hlam hx hbv
    obtain ⟨k1, k2⟩ := SolvesDamped.descends hsd
    obtain ⟨e0, x', hR', e1, e2⟩ := exact_step hg hX hq' hcur hR (hle0.trans hB) hA hT hdl hb hc
    have hpred := predicted_ok hwf hrl hAs
    have hcost : q.cost = Spec.vec q.residual A.shape.1 ⬝ᵥ Spec.vec q.residual A.shape.1 := by
      rw [hg.cost _ _ _ hcur, sqNorm_eq hrl]
    have hnn : 0 ≤ ∏ i ∈ Finset.range k, (μ (s.lambdaInitial / s.lambdaFactor ^ i) / (σ + μ (s.lambdaInitial / s.lambdaFactor ^ i))) ^ 2 :=
      Finset.prod_nonneg fun i _ => sq_nonneg _
    have hgain : ∀ y, Φ x' - Φ y ≤ (μ q.lambd / (σ + μ q.lambd)) ^ 2 * (Φ x - Φ y) := by
      intro y
      obtain ⟨dy, hdy⟩ := hX.reach _ _ _ _ _ hR (hle0.trans hB) hq'.layout hcur hA y
      have := hcon (Spec.vec dy A.shape.2)
      rwa [e0, e1, hdy] at this
    have hdec : Φ x' ≤ Φ x := by
      have := hgain x
      rw [sub_self, mul_zero] at this
      linarith
    have hcx := e2 (hdec.trans (hle0.trans hB))
    rw [hpred, e1, hcx] at hacc
    by_cases h0 : descent (cooMatrix A A.shape.1 A.shape.2) (Spec.vec q.residual A.shape.1) = 0
    · -- nothing left to gain: the step is zero and counts as rejected
      obtain ⟨hRb, hcb⟩ := hX.zero _ _ _ _ hR hq'.layout (hdl.trans hdim) (zero_of_vec hdl (k1 h0)) hb
      rw [hcb, hcur] at hc
      obtain ⟨hce, hr'⟩ := Prod.mk.inj (Except.ok.inj hc)
      have hxx : Φ x' = Φ x := by rw [← hcx, ← hce, hqc]
      have hmin : ∀ y, Φ x ≤ Φ y := by
        intro y
        obtain ⟨dy, hdy⟩ := hX.reach _ _ _ _ _ hR (hle0.trans hB) hq'.layout hcur hA y
        rw [← e0, ← hdy]
        exact normal_minimizes (by rw [mulVec_zero, h0]) _
      have hrej : acc = false := by
        rw [hacc, hxx, hqc, sub_self, ← Bool.not_eq_true, accept_fin]
        simp
      subst hrej hr'
      refine ⟨_, x, rfl, hq'.next hb (c := c) (r := q.residual) (by rw [hcb, hcur, hce]) false rfl rfl rfl, hR, hle0, congrArg (· + 1) hit, hqc, ?_, hcur, .inr hmin, fun y => ?_⟩
      · exact le_max_of_le_left p3
      · have g1 : Φ x - Φ y ≤ 0 := sub_nonpos.2 (hmin y)
        rcases le_total (Φ y) (Φ x₀) with g2 | g2
        · exact g1.trans (mul_nonneg (Finset.prod_nonneg fun i _ => sq_nonneg _) (sub_nonneg.2 g2))
        · refine (hgap y).trans (mul_le_mul_of_nonpos_right ?_ (sub_nonpos.2 g2))
          rw [Finset.prod_range_succ]
          have hm := hμ (s.lambdaInitial / s.lambdaFactor ^ k) (by positivity)
          apply mul_le_of_le_one_right hnn
          apply pow_le_one₀ (by positivity)
          rw [div_le_one (by linarith)]; linarith
    · have hlt : Φ x' < Φ x := by
        have := k2 h0
        rwa [e1, ← hcost, hqc] at this
      have hac : acc = true := by
        rw [hacc, accept_fin]
        left
        have : Φ x' - q.cost ≠ 0 := by rw [hqc]; linarith
        exact ⟨this, by rw [div_self this]; exact hq⟩
      subst hac
      have hlam' : q.lambd = s.lambdaInitial / s.lambdaFactor ^ k := by
        rcases hsched with hl | hl
        · exact hl
        · exact absurd (hl x') (not_le.2 hlt)
      refine ⟨_, x', rfl, hq'.next hb hc true rfl rfl rfl, hR', hdec.trans hle0, congrArg (· + 1) hit, hcx, ?_, hc, .inl ?_, fun y => ?_⟩
      · exact div_nonneg hlam (by linarith)
      · show q.lambd / s.lambdaFactor = _
        rw [hlam', pow_succ, div_div]
      · refine (hgain y).trans ?_
        rw [Finset.prod_range_succ, mul_comm (∏ i ∈ Finset.range k, _), mul_assoc, hlam']
        exact mul_le_mul_of_nonneg_left (hgap y) (sq_nonneg _)

/-- Dogleg. -/
theorem exact_dogleg (h : Lifts CE gE C g) (hg : SaneGraph C g ws) {σ : ℝ} (hσ : 0 < σ) {μ : ℝ → ℝ}
    (hμ : ∀ l, 0 ≤ l → 0 ≤ μ l) {sE : Dogleg Ext} {s : Dogleg ℝ} (hs : LiftsDogleg sE s)
    (hX : Exact C g Φ R B)
    (hL : ∀ x a c r A, R x a → Φ x ≤ B → IsAssignmentOf C ws a → a.layout = g.layout → g.computeCost a = .ok (c, r) → g.jacobian a r = .ok A →
      Contracts σ μ s.linear A)
    (hq : s.stepQualityMin ≤ 1) (hρ : 0 < s.radiusInitial) {a : Assign ℝ} (ha : IsAssignmentOf C ws a) (hl : a.layout = g.layout)
    {c₀ : ℝ} {r₀ : List ℝ} (hc₀ : g.computeCost a = .ok (c₀, r₀)) {x₀ : X} (hx₀ : R x₀ a) (hB : Φ x₀ ≤ B)
    {st' : DoglegState Ext} {log : List (Msg Ext)} {j : Nat}
    (hr : Runs (fun s => s.done) (sE.step CE gE) j (DoglegState.map fin ⟨⟨0, a, c₀, r₀, false⟩, s.radiusInitial⟩) st' log) :
    ∃ (q : DoglegState ℝ) (x : X), st' = q.map fin ∧ GoodState C g ws q.toState ∧ R x q.assignments ∧ Φ x ≤ Φ x₀ ∧
      q.iterations = j ∧ q.cost = Φ x ∧ g.computeCost q.assignments = .ok (q.cost, q.residual) ∧
      ∀ K : Nat, Φ x₀ ≤ σ * (3 ^ K * s.radiusInitial) ^ 2 → ∀ y, Φ x - Φ y ≤ ((μ 0 / (σ + μ 0)) ^ 2) ^ (j - K) * (Φ x₀ - Φ y) := by
  have hm0 := hμ 0 le_rfl
  have hθ0 : 0 ≤ (μ 0 / (σ + μ 0)) ^ 2 := sq_nonneg _
  have hθ1 : (μ 0 / (σ + μ 0)) ^ 2 ≤ 1 := by
    apply pow_le_one₀ (by positivity)
    rw [div_le_one (by linarith)]; linarith
  obtain ⟨θ, hθ⟩ : ∃ θ, θ = (μ 0 / (σ + μ 0)) ^ 2 := ⟨_, rfl⟩
  rw [← hθ] at hθ0 hθ1 ⊢
  suffices H : ∃ (q : DoglegState ℝ) (x : X), st' = q.map fin ∧ GoodState C g ws q.toState ∧ R x q.assignments ∧ Φ x ≤ Φ x₀ ∧
      q.iterations = j ∧ q.cost = Φ x ∧ g.computeCost q.assignments = .ok (q.cost, q.residual) ∧ 0 < q.radius ∧
      ((∀ y, Φ x ≤ Φ y) ∨
        ∃ i, i ≤ j ∧ (∀ K : Nat, Φ x₀ ≤ σ * (3 ^ K * s.radiusInitial) ^ 2 → i ≤ K) ∧ 3 ^ i * s.radiusInitial ≤ q.radius ∧ ∀ y, Φ x - Φ y ≤ θ ^ (j - i) * (Φ x₀ - Φ y)) by
    obtain ⟨q, x, rfl, h1, h2, h3, h4, h5, h6, -, h7⟩ := H
    refine ⟨q, x, rfl, h1, h2, h3, h4, h5, h6, fun K hK y => ?_⟩
    have hk1 : θ ^ (j - K) ≤ 1 := pow_le_one₀ hθ0 hθ1
    have hk0 : 0 ≤ θ ^ (j - K) := pow_nonneg hθ0 _
    rcases le_total (Φ y) (Φ x₀) with g2 | g2
    · rcases h7 with h7 | ⟨i, i1, i2, -, h7⟩
      · exact (sub_nonpos.2 (h7 y)).trans (mul_nonneg hk0 (sub_nonneg.2 g2))
      · refine (h7 y).trans (mul_le_mul_of_nonneg_right ?_ (sub_nonneg.2 g2))
        have := i2 K hK
        exact pow_le_pow_of_le_one hθ0 hθ1 (by omega)
    · nlinarith
  generalize hst : DoglegState.map fin ⟨⟨0, a, c₀, r₀, false⟩, s.radiusInitial⟩ = st at hr
  induction hr with
  | refl s' => exact ⟨_, x₀, hst.symm, GoodState.start ha hl hc₀ _ _, hx₀, le_rfl, rfl, hX.cost _ _ _ _ hx₀ hB hl hc₀, hc₀, hρ, .inr ⟨0, le_rfl, fun _ _ => by omega, by simp, fun y => by simp⟩⟩
  | @step j _ _ _ _ _ h1 h2 h3 ih =>
    obtain ⟨q, x, rfl, hq', hR, hle0, hit, hqc, hcur, hrad, hinv⟩ := ih hst
    have hfit : ∀ A ATb gn, g.jacobian q.assignments q.residual = .ok A → A.T.matmul (q.residual.map fun x => -x) = .ok ATb →
        s.linear A ATb 0 q.iterations = .ok gn → gn.length = A.shape.2 ∧
        SolvesDamped (cooMatrix A A.shape.1 A.shape.2) (Spec.vec q.residual A.shape.1) (Spec.vec gn A.shape.2) ∧
        σ * (Spec.vec gn A.shape.2 ⬝ᵥ Spec.vec gn A.shape.2) ≤ Spec.vec q.residual A.shape.1 ⬝ᵥ Spec.vec q.residual A.shape.1 ∧
        ∀ y : Fin A.shape.2 → ℝ, modelCost (cooMatrix A A.shape.1 A.shape.2) (Spec.vec q.residual A.shape.1) (Spec.vec gn A.shape.2) -
          modelCost (cooMatrix A A.shape.1 A.shape.2) (Spec.vec q.residual A.shape.1) y ≤ (μ 0 / (σ + μ 0)) ^ 2 *
          (modelCost (cooMatrix A A.shape.1 A.shape.2) (Spec.vec q.residual A.shape.1) 0 -
            modelCost (cooMatrix A A.shape.1 A.shape.2) (Spec.vec q.residual A.shape.1) y) := by
      intro A ATb gn h1 h2 h3
      obtain ⟨hwf, hdim⟩ := hq'.jac hg h1
      obtain ⟨hrl, hbl, hbv⟩ := descent_ok hwf h2
      obtain ⟨hdl, hsd, hc, hno⟩ := hL _ _ _ _ _ hR (hle0.trans hB) hq'.assignment hq'.layout hcur h1 ATb 0 _ gn _ hbl le_rfl h3 hbv
      exact ⟨hdl, hsd, hno, hc⟩
    have hzero : ∀ {n : Nat} {gn : List ℝ}, gn.length = n → Spec.vec gn n = 0 → nrm gn ≤ q.radius := by
      intro n gn hn h0
      rw [nrm_eq hn, h0]
      simp [hrad.le]
    have hfin : ∀ A ATb gn dE, g.jacobian q.assignments q.residual = .ok A → A.T.matmul (q.residual.map fun x => -x) = .ok ATb →
        s.linear A ATb 0 q.iterations = .ok gn → doglegStep (A.map fin) (ATb.map fin) (gn.map fin) (fin q.radius) = .ok dE →
        ∃ d : List ℝ, dE = d.map fin := by
      intro A ATb gn dE h1 h2 h3 h4
      obtain ⟨hlen, hsd, -⟩ := hfit A ATb gn h1 h2 h3
      have : √(sqNorm gn) ≤ q.radius ∨ descent (cooMatrix A A.shape.1 A.shape.2) (Spec.vec q.residual A.shape.1) ≠ 0 := by
        by_cases h0 : descent (cooMatrix A A.shape.1 A.shape.2) (Spec.vec q.residual A.shape.1) = 0
        · exact .inl (hzero hlen ((SolvesDamped.descends hsd).1 h0))
        · exact .inr h0
      obtain ⟨d, e1, -⟩ := Props.C46_step (hq'.jac hg h1).1 h2 hlen hrad this
      rw [e1] at h4
      exact ⟨d, (Except.ok.inj h4).symm⟩
    obtain ⟨A, ATb, gn, d, b, c, r, As, Q, conv, hA, hT, hx, hd, hb, hc, hAs, hAl, hQ, -, rfl, -⟩ :=
      (doglegSolverStep_fin h hs hfin).1 h3
    obtain ⟨hlen, hsd, b1, hcon⟩ := hfit A ATb gn hA hT hx
    obtain ⟨hwf, hdim⟩ := hq'.jac hg hA
    obtain ⟨hrl, hbl, hbv⟩ := descent_ok hwf hT
    obtain ⟨f1, f2⟩ := doglegStep_fin hwf hT hlen hrad
    have hcost : q.cost = Spec.vec q.residual A.shape.1 ⬝ᵥ Spec.vec q.residual A.shape.1 := by
      rw [hg.cost _ _ _ hcur, sqNorm_eq hrl]
    have hdl : d.length = A.shape.2 := (matmul_vec hwf hAs).1
    obtain ⟨e0, x', hR', e1, e2⟩ := exact_step hg hX hq' hcur hR (hle0.trans hB) hA hT hdl hb hc
    by_cases h0 : descent (cooMatrix A A.shape.1 A.shape.2) (Spec.vec q.residual A.shape.1) = 0
    · have hv := (SolvesDamped.descends hsd).1 h0
      rw [f1 (hzero hlen hv)] at hd
      have hd' : gn = d := List.map_injective_iff.2 fin_injective (Except.ok.inj hd)
      subst hd'
      obtain ⟨hRb, hcb⟩ := hX.zero _ _ _ _ hR hq'.layout (hdl.trans hdim) (zero_of_vec hdl hv) hb
      rw [hcb, hcur] at hc
      obtain ⟨hce, hr'⟩ := Prod.mk.inj (Except.ok.inj hc)
      have hmin : ∀ y, Φ x ≤ Φ y := by
        intro y
        obtain ⟨dy, hdy⟩ := hX.reach _ _ _ _ _ hR (hle0.trans hB) hq'.layout hcur hA y
        rw [← e0, ← hdy]
        exact normal_minimizes (by rw [mulVec_zero, h0]) _
      have hrej : Scal.le (fin s.stepQualityMin) Q = false := by
        rw [hQ, predicted_ok hwf hrl hAs, hv, modelCost_zero, ← hcost, ← hce, sub_self, ← Bool.not_eq_true, accept_fin]
        simp
      rw [hrej]
      subst hr'
      exact ⟨_, x, rfl, hq'.next hb (c := c) (r := q.residual) (by rw [hcb, hcur, hce]) false rfl rfl rfl, hR, hle0, congrArg (· + 1) hit, hqc, hcur, nextRadius_pos hrad, .inl hmin⟩
    · have hlt : Φ x' < Φ x := by
        rw [← e1, ← e0, modelCost_zero]
        by_cases hn : nrm gn ≤ q.radius
        · rw [f1 hn] at hd
          rw [← List.map_injective_iff.2 fin_injective (Except.ok.inj hd)]
          exact (SolvesDamped.descends hsd).2 h0
        · obtain ⟨d', e1, e2, -, e4⟩ := f2 (not_le.1 hn) h0
          rw [e1] at hd
          rw [← List.map_injective_iff.2 fin_injective (Except.ok.inj hd)]
          exact path_descends hsd h0 e4
      have hcx := e2 (hlt.le.trans (hle0.trans hB))
      have hQ1 : Q = fin 1 := by
        rw [hQ, predicted_ok hwf hrl hAs, e1, hcx, hqc, fin_div (by linarith), div_self (by linarith)]
      have hac : Scal.le (fin s.stepQualityMin) Q = true := by
        rw [hQ1, fin_le]; exact hq
      have hrd : nextRadius Q q.radius d = max q.radius (3 * nrm d) := by
        rw [hQ1]; unfold nextRadius
        rw [if_neg (by rw [fin_lt]; norm_num), if_pos ((fin_lt _ _).2 (by norm_num))]
      rw [hac]
      refine ⟨_, x', rfl, hq'.next hb hc true rfl rfl rfl, hR', hlt.le.trans hle0, congrArg (· + 1) hit, hcx, hc, nextRadius_pos hrad, .inr ?_⟩
      show ∃ i, i ≤ j + 1 ∧ (∀ K : Nat, Φ x₀ ≤ σ * (3 ^ K * s.radiusInitial) ^ 2 → i ≤ K) ∧ 3 ^ i * s.radiusInitial ≤ nextRadius Q q.radius d ∧ ∀ y,
        Φ x' - Φ y ≤ θ ^ (j + 1 - i) * (Φ x₀ - Φ y)
      rw [hrd]
      obtain ⟨i, i1, i2, i3, i4⟩ := hinv.resolve_left fun hmin => absurd (hmin x') (not_le.2 hlt)
      by_cases hn : nrm gn ≤ q.radius
      · rw [f1 hn] at hd
        have hd' : gn = d := List.map_injective_iff.2 fin_injective (Except.ok.inj hd)
        subst hd'
        refine ⟨i, by omega, i2, i3.trans (le_max_left _ _), fun y => ?_⟩
        obtain ⟨dy, hdy⟩ := hX.reach _ _ _ _ _ hR (hle0.trans hB) hq'.layout hcur hA y
        have hgain := hcon (Spec.vec dy A.shape.2)
        rw [e0, e1, hdy] at hgain
        refine hgain.trans ?_
        rw [← hθ, show j + 1 - i = (j - i) + 1 by omega, pow_succ', mul_assoc]
        exact mul_le_mul_of_nonneg_left (i4 y) hθ0
      · obtain ⟨d', e1, e2, e3, -⟩ := f2 (not_le.1 hn) h0
        rw [e1] at hd
        have hd' : d' = d := List.map_injective_iff.2 fin_injective (Except.ok.inj hd)
        subst hd'
        refine ⟨i + 1, by omega, ?_, ?_, fun y => ?_⟩
        · intro K hK
          have := i2 K hK
          by_contra hik
          obtain rfl : i = K := by omega
          rw [← hcost, hqc] at b1
          have b2 : q.radius ^ 2 < Spec.vec gn A.shape.2 ⬝ᵥ Spec.vec gn A.shape.2 := by
            have := not_le.1 hn
            rw [nrm_eq hlen] at this
            exact (Real.lt_sqrt hrad.le).1 this
          have b3 : (3 ^ i * s.radiusInitial) ^ 2 ≤ q.radius ^ 2 := pow_le_pow_left₀ (by positivity) i3 2
          nlinarith
        · rw [e3]
          refine le_trans ?_ (le_max_right _ _)
          rw [pow_succ]; linarith
        · rw [show j + 1 - (i + 1) = j - i by omega]
          linarith [i4 y]

end

end Jaxfg
