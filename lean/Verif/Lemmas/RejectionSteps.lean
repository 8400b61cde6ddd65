/- What a rejected step of the damped solvers does. -/
import Verif.Lemmas.Rejections
import Verif.Lemmas.Decrease
import Verif.Lemmas.Progress

namespace Jaxfg
open Spec Matrix
open Ext (fin)
variable {CE : Ty → VarClass Ext} {gE : GraphOps Ext} {C : Ty → VarClass ℝ} {g : GraphOps ℝ} {ws : List Var}

/-- A step that changes nothing is not accepted. -/
theorem not_accept_same {q c y : ℝ} (hq : 0 < q) : Scal.le (fin q) (fin (c - c) / fin y) = false := by
  rw [← Bool.not_eq_true, accept_fin, sub_self, zero_div]
  rintro (⟨-, h⟩ | ⟨-, h⟩) <;> linarith

/-- A rejected step halves the radius, or its quality is undefined and the radius stays. -/
theorem reject_radius {qmin x y ρ : ℝ} {d : List ℝ} (hq : qmin ≤ 1 / 4) (h : Scal.le (fin qmin) (fin x / fin y) = false) :
    nextRadius (fin x / fin y) ρ d = ρ / 2 ∨ (nextRadius (fin x / fin y) ρ d = ρ ∧ x = 0 ∧ y = 0) := by
  have h' : ¬ Scal.le (fin qmin) (fin x / fin y) = true := by rw [h]; simp
  rw [accept_fin] at h'
  simp only [not_or, not_and, not_le, not_lt] at h'
  unfold nextRadius
  by_cases hy : y = 0
  · have hx := h'.2 hy
    subst hy
    rcases hx.eq_or_lt with hx | hx
    · subst hx
      right
      have e : (fin 0 / fin 0 : Ext) = .nan := by rw [fin_div_zero]; simp [Ext.infMul]
      rw [e, if_neg (by exact Bool.false_ne_true), if_neg (by exact Bool.false_ne_true)]
      exact ⟨rfl, rfl, rfl⟩
    · left
      have e : (fin x / fin 0 : Ext) = .ninf := by rw [fin_div_zero]; simp [Ext.infMul, hx, hx.le]
      rw [e, if_pos (by rfl)]
  · left
    rw [fin_div hy, if_pos ((fin_lt _ _).2 ((h'.1 hy).trans_le hq))]

theorem softAtMost_eucl {κ : ℝ} (hκ0 : 0 ≤ κ) {A : Coo ℝ} (hκ : SoftAtMost (κ ^ 2) A) (v : Fin A.shape.2 → ℝ) :
    eucl (cooMatrix A A.shape.1 A.shape.2 *ᵥ v) ≤ κ * eucl v := by
  refine abs_le_of_sq_le_sq' ?_ (mul_nonneg hκ0 (eucl_nonneg v)) |>.2
  rw [mul_pow, eucl_sq, eucl_sq]
  exact hκ v

/-- Lengths of residuals. -/
theorem residual_length (hT : TotalGraph C g ws) {a : Assign ℝ} {A : Coo ℝ} (ha : IsAssignmentOf C ws a) (hl : a.layout = g.layout)
    (hA : JacobianIs C g ws a A) {b : Assign ℝ} {c : ℝ} {r : List ℝ} (hb : IsAssignmentOf C ws b) (hbl : b.layout = g.layout)
    (hc : g.computeCost b = .ok (c, r)) : r.length = A.shape.1 := by
  obtain ⟨A', h1, h2⟩ := hT.jacobian a b c r ha hl hb hbl hc
  rw [hA b c r hb hbl hc] at h1
  cases Except.ok.inj h1
  exact h2.symm

/-- One rejected Levenberg-Marquardt step. -/
theorem lm_rejected (h : Lifts CE gE C g) (hT : TotalGraph C g ws) {sE : LevenbergMarquardt Ext} {s : LevenbergMarquardt ℝ}
    (hs : LiftsLM sE s) (hf : s.lambdaFactor ≠ 0) (hq : 0 < s.stepQualityMin) {ν μ : ℝ → ℝ}
    (hD : AllJacobians C g ws (DampedAtLeast ν s.linear)) (hU : AllJacobians C g ws (DampedUpTo μ s.linear)) {p p' : LMState ℝ}
    (hp : GoodState C g ws p.toState) (hl : 0 ≤ p.lambd) {r₀ : List ℝ} (h0 : g.computeCost p.assignments = .ok (p.cost, r₀))
    {A : Coo ℝ} (hA : JacobianIs C g ws p.assignments A) {δ M : ℝ} (htay : PredictsFrom C g p.assignments r₀ A δ M)
    {log : List (Msg Ext)} (hstep : sE.step CE gE (p.map fin) = .ok (p'.map fin, log)) (hsame : p'.assignments = p.assignments) :
    GoodState C g ws p'.toState ∧ p'.cost = p.cost ∧ p'.lambd = max s.lambdaMin (min (p.lambd * s.lambdaFactor) s.lambdaMax) ∧
    ∃ d : List ℝ, d.length = A.shape.2 ∧
      RowStep (cooMatrix A A.shape.1 A.shape.2) (Spec.vec r₀ A.shape.1) δ M (ν p.lambd) (μ p.lambd) (Spec.vec p.residual A.shape.1)
        (Spec.vec d A.shape.2) (Spec.vec p'.residual A.shape.1) ∧
      Scal.le (fin s.stepQualityMin)
        (fin (Spec.vec p'.residual A.shape.1 ⬝ᵥ Spec.vec p'.residual A.shape.1 - Spec.vec r₀ A.shape.1 ⬝ᵥ Spec.vec r₀ A.shape.1) /
          fin (modelCost (cooMatrix A A.shape.1 A.shape.2) (Spec.vec p.residual A.shape.1) (Spec.vec d A.shape.2) -
            Spec.vec r₀ A.shape.1 ⬝ᵥ Spec.vec r₀ A.shape.1)) = false := by
  obtain ⟨A', ATb, d, a', c, r, As, acc, conv, h1, h2, h3, h4, h5, h6, h7, h8, -, h9, -⟩ := (lmStep_fin h hs hf).1 hstep
  have h9 := lmState_map_inj h9
  obtain ⟨b₁, c₁, q1, q2, q3⟩ := hp.residual
  rw [hA _ _ _ q1 q2 q3] at h1
  cases Except.ok.inj h1
  have hb1 := isAssignment_retract hp.assignment h4
  have hb2 := (manifoldRetract_shape h4).1.trans hp.layout
  have hacc : acc = false := by
    cases acc with
    | false => rfl
    | true =>
      rw [h9] at hsame
      have hsame : a' = p.assignments := by simpa [lmNextReal] using hsame
      rw [hsame, h0] at h5
      rw [← (Prod.mk.inj (Except.ok.inj h5)).1, not_accept_same hq] at h8
      exact h8
  have hwf := (hp.jac hT.sane (hA _ _ _ q1 q2 q3)).1
  obtain ⟨hrl, hbl, hbv⟩ := descent_ok hwf h2
  have hr0 : r₀.length = A.shape.1 := residual_length hT hp.assignment hp.layout hA hp.assignment hp.layout h0
  have hrn : r.length = A.shape.1 := residual_length hT hp.assignment hp.layout hA hb1 hb2 h5
  obtain ⟨hdl, D, hD1, hD2, hD3⟩ := hp.all hD (hA _ _ _ q1 q2 q3) ATb p.lambd _ d hbl hl h3
  obtain ⟨-, E, hE1, hE2, hE3⟩ := hp.all hU (hA _ _ _ q1 q2 q3) ATb p.lambd _ d hbl hl h3
  rw [hbv] at hD3 hE3
  have hres : p'.residual = r := by rw [h9]; rfl
  refine ⟨hp.next h4 h5 acc (by rw [h9]; rfl) (by rw [h9]; rfl) hres, ?_, ?_, d, hdl, ⟨⟨E, hE1, hE2, hE3⟩, ⟨D, hD1, hD2, hD3⟩, ?_⟩, ?_⟩
  · rw [h9, hacc]; simp [lmNextReal]
  · rw [h9, hacc]; simp [lmNextReal, nextLambda]
  · intro hδ
    have hδ' : √(sqNorm d) ≤ δ := by rw [sqNorm_eq hdl]; exact hδ
    have := htay d a' c r hdl hδ' h4 h5
    rw [hres, ← sqNorm_eq hdl]
    exact this
  · rw [hres, ← sqNorm_eq hrn, ← sqNorm_eq hr0, ← hT.sane.cost _ _ _ h5, ← hT.sane.cost _ _ _ h0, ← predicted_ok hwf hrl h6, ← h8, hacc]

/-- One rejected dogleg step. -/
theorem dogleg_rejected (h : Lifts CE gE C g) (hT : TotalGraph C g ws) {sE : Dogleg Ext} {s : Dogleg ℝ}
    (hs : LiftsDogleg sE s) (hq : 0 < s.stepQualityMin) (hq4 : s.stepQualityMin ≤ 1 / 4) (hL : AllJacobians C g ws (SolvesRegular s.linear)) {μ : ℝ → ℝ} (hμ : 0 ≤ μ 0)
    (hU : AllJacobians C g ws (DampedUpTo μ s.linear)) {p p' : DoglegState ℝ}
    (hp : GoodState C g ws p.toState) (hρ : 0 < p.radius) {r₀ : List ℝ} (h0 : g.computeCost p.assignments = .ok (p.cost, r₀))
    {A : Coo ℝ} (hA : JacobianIs C g ws p.assignments A) {κ : ℝ} (hκ : SoftAtMost (κ ^ 2) A) {δ M : ℝ}
    (htay : PredictsFrom C g p.assignments r₀ A δ M)
    {log : List (Msg Ext)} (hstep : sE.step CE gE (p.map fin) = .ok (p'.map fin, log)) (hsame : p'.assignments = p.assignments) :
    GoodState C g ws p'.toState ∧ p'.cost = p.cost ∧ (p'.radius = p.radius / 2 ∨ (p'.radius = p.radius ∧ sqNorm p'.residual = p.cost)) ∧
    ∃ d : List ℝ, d.length = A.shape.2 ∧ eucl (Spec.vec d A.shape.2) ≤ p.radius ∧
      (eucl (Spec.vec d A.shape.2) ≤ δ → eucl (Spec.vec p'.residual A.shape.1 - Spec.vec r₀ A.shape.1 -
        cooMatrix A A.shape.1 A.shape.2 *ᵥ Spec.vec d A.shape.2) ≤ M / 2 * (Spec.vec d A.shape.2 ⬝ᵥ Spec.vec d A.shape.2)) ∧
      (let R := Spec.vec p.residual A.shape.1
       let Δ := R ⬝ᵥ R - modelCost (cooMatrix A A.shape.1 A.shape.2) R (Spec.vec d A.shape.2)
       0 ≤ Δ ∧ (eucl (descent (cooMatrix A A.shape.1 A.shape.2) R) ^ 2 ≤ (κ ^ 2 + μ 0) * Δ ∨
         p.radius * eucl (descent (cooMatrix A A.shape.1 A.shape.2) R) ≤ Δ)) ∧
      Scal.le (fin s.stepQualityMin)
        (fin (Spec.vec p'.residual A.shape.1 ⬝ᵥ Spec.vec p'.residual A.shape.1 - Spec.vec r₀ A.shape.1 ⬝ᵥ Spec.vec r₀ A.shape.1) /
          fin (modelCost (cooMatrix A A.shape.1 A.shape.2) (Spec.vec p.residual A.shape.1) (Spec.vec d A.shape.2) -
            Spec.vec r₀ A.shape.1 ⬝ᵥ Spec.vec r₀ A.shape.1)) = false := by
  obtain ⟨b₁, c₁, q1, q2, q3⟩ := hp.residual
  have hJ := hA _ _ _ q1 q2 q3
  have hwf := (hp.jac hT.sane hJ).1
  have hzero : ∀ gn : List ℝ, gn.length = A.shape.2 → SolvesDamped (cooMatrix A A.shape.1 A.shape.2) (Spec.vec p.residual A.shape.1)
      (Spec.vec gn A.shape.2) → nrm gn ≤ p.radius ∨ descent (cooMatrix A A.shape.1 A.shape.2) (Spec.vec p.residual A.shape.1) ≠ 0 := by
    intro gn hlen hsd
    by_cases h0 : descent (cooMatrix A A.shape.1 A.shape.2) (Spec.vec p.residual A.shape.1) = 0
    · left
      rw [nrm_eq hlen, (SolvesDamped.descends hsd).1 h0]
      simpa using hρ.le
    · exact .inr h0
  have hfit : ∀ ATb gn, A.T.matmul (p.residual.map fun x => -x) = .ok ATb → s.linear A ATb 0 p.iterations = .ok gn →
      gn.length = A.shape.2 ∧ SolvesDamped (cooMatrix A A.shape.1 A.shape.2) (Spec.vec p.residual A.shape.1) (Spec.vec gn A.shape.2) := by
    intro ATb gn h2 h3
    obtain ⟨hrl, hbl, hbv⟩ := descent_ok hwf h2
    obtain ⟨hdl, D, hD1, hD2, hD3⟩ := hp.all hL hJ ATb 0 _ gn hbl le_rfl h3
    rw [hbv] at hD3
    exact ⟨hdl, D, hD1, hD2, hD3⟩
  have hfin : ∀ A' ATb gn dE, g.jacobian p.assignments p.residual = .ok A' → A'.T.matmul (p.residual.map fun x => -x) = .ok ATb →
      s.linear A' ATb 0 p.iterations = .ok gn → doglegStep (A'.map fin) (ATb.map fin) (gn.map fin) (fin p.radius) = .ok dE →
      ∃ d : List ℝ, dE = d.map fin := by
    intro A' ATb gn dE h1 h2 h3 h4
    rw [hJ] at h1
    cases Except.ok.inj h1
    obtain ⟨hlen, hsd⟩ := hfit ATb gn h2 h3
    obtain ⟨f1, f2⟩ := doglegStep_fin hwf h2 hlen hρ
    by_cases hn : nrm gn ≤ p.radius
    · rw [f1 hn] at h4
      exact ⟨gn, (Except.ok.inj h4).symm⟩
    · obtain ⟨d, e1, -⟩ := f2 (not_le.1 hn) ((hzero gn hlen hsd).resolve_left hn)
      rw [e1] at h4
      exact ⟨d, (Except.ok.inj h4).symm⟩
  obtain ⟨A', ATb, gn, d, a', c, r, As, q, conv, h1, h2, h3, h4, h5, h6, h7, h8, h9, -, h10, -⟩ := (doglegSolverStep_fin h hs hfin).1 hstep
  have h10 := doglegState_map_inj h10
  rw [hJ] at h1
  cases Except.ok.inj h1
  have hb1 := isAssignment_retract hp.assignment h5
  have hb2 := (manifoldRetract_shape h5).1.trans hp.layout
  have hacc : Scal.le (fin s.stepQualityMin) q = false := by
    rw [← Bool.not_eq_true]
    intro ht
    rw [h10, ht] at hsame
    have hsame : a' = p.assignments := by simpa [doglegNextReal] using hsame
    rw [hsame, h0] at h6
    rw [h9, ← (Prod.mk.inj (Except.ok.inj h6)).1, not_accept_same hq] at ht
    cases ht
  obtain ⟨hrl, hbl, hbv⟩ := descent_ok hwf h2
  have hr0 : r₀.length = A.shape.1 := residual_length hT hp.assignment hp.layout hA hp.assignment hp.layout h0
  have hrn : r.length = A.shape.1 := residual_length hT hp.assignment hp.layout hA hb1 hb2 h6
  obtain ⟨hlen, hsd⟩ := hfit ATb gn h2 h3
  obtain ⟨-, E, hE1, hE2, hE3⟩ := hp.all hU hJ ATb 0 _ gn hbl le_rfl h3
  rw [hbv] at hE3
  obtain ⟨f1, f2⟩ := doglegStep_fin hwf h2 hlen hρ
  have hres : p'.residual = r := by rw [h10]; rfl
  obtain ⟨hdl, hdρ, hdec⟩ : d.length = A.shape.2 ∧ nrm d ≤ p.radius ∧
      (let R := Spec.vec p.residual A.shape.1
       let Δ := R ⬝ᵥ R - modelCost (cooMatrix A A.shape.1 A.shape.2) R (Spec.vec d A.shape.2)
       0 ≤ Δ ∧ (eucl (descent (cooMatrix A A.shape.1 A.shape.2) R) ^ 2 ≤ (κ ^ 2 + μ 0) * Δ ∨
         p.radius * eucl (descent (cooMatrix A A.shape.1 A.shape.2) R) ≤ Δ)) := by
    by_cases hn : nrm gn ≤ p.radius
    · rw [f1 hn] at h4
      have hd : gn = d := List.map_injective_iff.2 fin_injective (Except.ok.inj h4)
      rw [← hd]
      refine ⟨hlen, hn, ?_, ?_⟩
      · by_cases h0 : descent (cooMatrix A A.shape.1 A.shape.2) (Spec.vec p.residual A.shape.1) = 0
        · rw [(SolvesDamped.descends hsd).1 h0]
          simp [modelCost]
        · exact (sub_pos.2 ((SolvesDamped.descends hsd).2 h0)).le
      · rw [eucl_sq]
        exact .inl (damped_decrease hE1 hκ hE2 hE3)
    · have hne := (hzero gn hlen hsd).resolve_left hn
      obtain ⟨d', e1, e2, e3, e4⟩ := f2 (not_le.1 hn) hne
      rw [e1] at h4
      have hd : d' = d := List.map_injective_iff.2 fin_injective (Except.ok.inj h4)
      have e3' := e3
      rw [nrm_eq e2] at e3'
      rw [← hd]
      refine ⟨e2, e3.le, (sub_pos.2 (path_descends hsd hne e4)).le, ?_⟩
      rw [eucl_sq, ← e3']
      exact dogleg_decrease hE1 hμ hκ hE2 hE3 hne e4
  refine ⟨hp.next h5 h6 _ (by rw [h10]; rfl) (by rw [h10]; rfl) hres, ?_, ?_, d, hdl, ?_, ?_, hdec, ?_⟩
  · rw [h10, hacc]; simp [doglegNextReal]
  · rw [h10]
    show nextRadius q p.radius d = p.radius / 2 ∨ (nextRadius q p.radius d = p.radius ∧ sqNorm r = p.cost)
    rw [h9] at hacc ⊢
    rcases reject_radius (ρ := p.radius) (d := d) hq4 hacc with e | ⟨e1, e2, -⟩
    · exact .inl e
    · refine .inr ⟨e1, ?_⟩
      rw [← hT.sane.cost _ _ _ h6]
      linarith
  · rw [nrm_eq hdl] at hdρ; exact hdρ
  · intro hδ
    have hδ' : √(sqNorm d) ≤ δ := by rw [sqNorm_eq hdl]; exact hδ
    have := htay d a' c r hdl hδ' h5 h6
    rw [hres, ← sqNorm_eq hdl]
    exact this
  · rw [hres, ← sqNorm_eq hrn, ← sqNorm_eq hr0, ← hT.sane.cost _ _ _ h6, ← hT.sane.cost _ _ _ h0, ← predicted_ok hwf hrl h7, ← h9, hacc]

end Jaxfg
