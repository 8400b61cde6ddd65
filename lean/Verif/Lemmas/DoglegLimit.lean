/-
Lemmas about single dogleg steps and about endless dogleg executions, for C96.
-/
import Verif.Lemmas.RejectionSteps

namespace Jaxfg
open Ext (fin)
open Spec Matrix

variable {CE : Ty → VarClass Ext} {gE : GraphOps Ext} {C : Ty → VarClass ℝ} {g : GraphOps ℝ} {ws : List Var}

/-- Any dogleg step, accepted or not, from a current residual or from another one. -/
theorem dogleg_any (h : Lifts CE gE C g) (hT : TotalGraph C g ws) {sE : Dogleg Ext} {s : Dogleg ℝ}
    (hs : LiftsDogleg sE s) (hq : 0 < s.stepQualityMin) (hL : AllJacobians C g ws (SolvesRegular s.linear)) {μ : ℝ → ℝ} (hμ : 0 ≤ μ 0)
    (hU : AllJacobians C g ws (DampedUpTo μ s.linear)) {p p' : DoglegState ℝ}
    (hp : GoodState C g ws p.toState) (hρ : 0 < p.radius)
    {A : Coo ℝ} (hA : JacobianIs C g ws p.assignments A) {κ : ℝ} (hκ : SoftAtMost κ A)
    {log : List (Msg Ext)} (hstep : sE.step CE gE (p.map fin) = .ok (p'.map fin, log)) :
    GoodState C g ws p'.toState ∧ p.residual.length = A.shape.1 ∧ CooWF A ∧ A.shape.2 = g.localLayout.dim ∧
    ∃ (d : List ℝ) (a' : Assign ℝ) (c pred : ℝ),
      pred = modelCost (cooMatrix A A.shape.1 A.shape.2) (Spec.vec p.residual A.shape.1) (Spec.vec d A.shape.2) ∧
      d.length = A.shape.2 ∧ nrm d ≤ p.radius ∧
      p.assignments.manifoldRetract C ⟨d, g.localLayout⟩ = .ok a' ∧ g.computeCost a' = .ok (c, p'.residual) ∧
      (descent (cooMatrix A A.shape.1 A.shape.2) (Spec.vec p.residual A.shape.1) ≠ 0 → pred < sqNorm p.residual) ∧
      (descent (cooMatrix A A.shape.1 A.shape.2) (Spec.vec p.residual A.shape.1) = 0 → Spec.vec d A.shape.2 = 0) ∧
      (eucl (descent (cooMatrix A A.shape.1 A.shape.2) (Spec.vec p.residual A.shape.1)) ^ 2 ≤ (κ + μ 0) * (sqNorm p.residual - pred) ∨
        p.radius * eucl (descent (cooMatrix A A.shape.1 A.shape.2) (Spec.vec p.residual A.shape.1)) ≤ sqNorm p.residual - pred) ∧
      p'.radius = nextRadius (fin (c - p.cost) / fin (pred - p.cost)) p.radius d ∧
      ((Scal.le (fin s.stepQualityMin) (fin (c - p.cost) / fin (pred - p.cost)) = true ∧ p'.assignments = a' ∧ p'.cost = c ∧
          p'.assignments ≠ p.assignments) ∨
       (Scal.le (fin s.stepQualityMin) (fin (c - p.cost) / fin (pred - p.cost)) = false ∧ p'.assignments = p.assignments ∧
          p'.cost = p.cost)) := by
  obtain ⟨b₁, c₁, q1, q2, q3⟩ := hp.residual
  have hJ := hA _ _ _ q1 q2 q3
  have hwf := (hp.jac hT.sane hJ).1
  have hzero : ∀ gn : List ℝ, gn.length = A.shape.2 → SolvesDamped (cooMatrix A A.shape.1 A.shape.2) (Spec.vec p.residual A.shape.1)
      (Spec.vec gn A.shape.2) → nrm gn ≤ p.radius ∨ descent (cooMatrix A A.shape.1 A.shape.2) (Spec.vec p.residual A.shape.1) ≠ 0 := by
    intro gn hlen hsd
    by_cases h0 : descent (cooMatrix A A.shape.1 A.shape.2) (Spec.vec p.residual A.shape.1) = 0
    · left
      rw [nrm_eq hlen, (SolvesDamped.descends hsd).1 h0]
      simpa using hρ.le
    · exact .inr h0
  have hfit : ∀ ATb gn, A.T.matmul (p.residual.map fun x => -x) = .ok ATb → s.linear A ATb 0 p.iterations = .ok gn →
      gn.length = A.shape.2 ∧ SolvesDamped (cooMatrix A A.shape.1 A.shape.2) (Spec.vec p.residual A.shape.1) (Spec.vec gn A.shape.2) := by
    intro ATb gn h2 h3
    obtain ⟨hrl, hbl, hbv⟩ := descent_ok hwf h2
    obtain ⟨hdl, D, hD1, hD2, hD3⟩ := hp.all hL hJ ATb 0 _ gn hbl le_rfl h3
    rw [hbv] at hD3
    exact ⟨hdl, D, hD1, hD2, hD3⟩
  have hfin : ∀ A' ATb gn dE, g.jacobian p.assignments p.residual = .ok A' → A'.T.matmul (p.residual.map fun x => -x) = .ok ATb →
      s.linear A' ATb 0 p.iterations = .ok gn → doglegStep (A'.map fin) (ATb.map fin) (gn.map fin) (fin p.radius) = .ok dE →
      ∃ d : List ℝ, dE = d.map fin := by
    intro A' ATb gn dE h1 h2 h3 h4
    rw [hJ] at h1
    cases Except.ok.inj h1
    obtain ⟨hlen, hsd⟩ := hfit ATb gn h2 h3
    obtain ⟨f1, f2⟩ := doglegStep_fin hwf h2 hlen hρ
    by_cases hn : nrm gn ≤ p.radius
    · rw [f1 hn] at h4
      exact ⟨gn, (Except.ok.inj h4).symm⟩
    · obtain ⟨d, e1, -⟩ := f2 (not_le.1 hn) ((hzero gn hlen hsd).resolve_left hn)
      rw [e1] at h4
      exact ⟨d, (Except.ok.inj h4).symm⟩
  obtain ⟨A', ATb, gn, d, a', c, r, As, q, conv, h1, h2, h3, h4, h5, h6, h7, h8, h9, -, h10, -⟩ := (doglegSolverStep_fin h hs hfin).1 hstep
  have h10 := doglegState_map_inj h10
  rw [hJ] at h1
  cases Except.ok.inj h1
  obtain ⟨hrl, hbl, hbv⟩ := descent_ok hwf h2
  obtain ⟨hlen, hsd⟩ := hfit ATb gn h2 h3
  obtain ⟨-, E, hE1, hE2, hE3⟩ := hp.all hU hJ ATb 0 _ gn hbl le_rfl h3
  rw [hbv] at hE3
  obtain ⟨f1, f2⟩ := doglegStep_fin hwf h2 hlen hρ
  have hres : p'.residual = r := by rw [h10]; rfl
  rw [predicted_ok hwf hrl h7] at h9
  refine ⟨hp.next h5 h6 _ (by rw [h10]; rfl) (by rw [h10]; rfl) hres, hrl, hwf, (hp.jac hT.sane hJ).2, d, a', c, _, rfl, ?_⟩
  rw [sqNorm_eq hrl, eucl_sq, ← h9]
  obtain ⟨k1, k2, k3, k4, k5⟩ : d.length = A.shape.2 ∧ nrm d ≤ p.radius ∧
      (descent (cooMatrix A A.shape.1 A.shape.2) (Spec.vec p.residual A.shape.1) ≠ 0 →
        modelCost (cooMatrix A A.shape.1 A.shape.2) (Spec.vec p.residual A.shape.1) (Spec.vec d A.shape.2) <
          Spec.vec p.residual A.shape.1 ⬝ᵥ Spec.vec p.residual A.shape.1) ∧
      (descent (cooMatrix A A.shape.1 A.shape.2) (Spec.vec p.residual A.shape.1) = 0 → Spec.vec d A.shape.2 = 0) ∧
      (descent (cooMatrix A A.shape.1 A.shape.2) (Spec.vec p.residual A.shape.1) ⬝ᵥ
          descent (cooMatrix A A.shape.1 A.shape.2) (Spec.vec p.residual A.shape.1) ≤ (κ + μ 0) *
          (Spec.vec p.residual A.shape.1 ⬝ᵥ Spec.vec p.residual A.shape.1 -
            modelCost (cooMatrix A A.shape.1 A.shape.2) (Spec.vec p.residual A.shape.1) (Spec.vec d A.shape.2)) ∨
        p.radius * eucl (descent (cooMatrix A A.shape.1 A.shape.2) (Spec.vec p.residual A.shape.1)) ≤
          Spec.vec p.residual A.shape.1 ⬝ᵥ Spec.vec p.residual A.shape.1 -
            modelCost (cooMatrix A A.shape.1 A.shape.2) (Spec.vec p.residual A.shape.1) (Spec.vec d A.shape.2)) := by
    by_cases hn : nrm gn ≤ p.radius
    · rw [f1 hn] at h4
      have hd : gn = d := List.map_injective_iff.2 fin_injective (Except.ok.inj h4)
      rw [← hd]
      exact ⟨hlen, hn, (SolvesDamped.descends hsd).2, (SolvesDamped.descends hsd).1, .inl (damped_decrease hE1 hκ hE2 hE3)⟩
    · have hne := (hzero gn hlen hsd).resolve_left hn
      obtain ⟨d', e1, e2, e3, e4⟩ := f2 (not_le.1 hn) hne
      rw [e1] at h4
      have hd : d' = d := List.map_injective_iff.2 fin_injective (Except.ok.inj h4)
      have e3' := e3
      rw [nrm_eq e2] at e3'
      rw [← hd]
      refine ⟨e2, e3.le, fun _ => path_descends hsd hne e4, fun h0 => absurd h0 hne, ?_⟩
      rw [← e3']
      exact dogleg_decrease hE1 hμ hκ hE2 hE3 hne e4
  refine ⟨k1, k2, h5, by rw [hres]; exact h6, k3, k4, k5, by rw [h10]; rfl, ?_⟩
  cases hacc : Scal.le (fin s.stepQualityMin) q with
  | true =>
    refine .inl ⟨rfl, by rw [h10, hacc]; simp [doglegNextReal], by rw [h10, hacc]; simp [doglegNextReal], fun hsame => ?_⟩
    rw [h10, hacc] at hsame
    have hsame : a' = p.assignments := by simpa [doglegNextReal] using hsame
    obtain ⟨r₀, hr₀⟩ := hp.cost
    rw [hsame, hr₀] at h6
    rw [h9, ← (Prod.mk.inj (Except.ok.inj h6)).1, not_accept_same hq] at hacc
    cases hacc
  | false =>
    exact .inr ⟨rfl, by rw [h10, hacc]; simp [doglegNextReal], by rw [h10, hacc]; simp [doglegNextReal]⟩

/-- The radius is at most halved. -/
theorem nextRadius_half {q : Ext} {ρ : ℝ} {d : List ℝ} (h : 0 < ρ) : ρ / 2 ≤ nextRadius q ρ d := by
  unfold nextRadius
  split
  · exact le_rfl
  · split
    · exact le_max_of_le_left (by linarith)
    · linarith

/-- The radius grows to at most three times the length of the step. -/
theorem nextRadius_le {q : Ext} {ρ : ℝ} {d : List ℝ} (h : 0 < ρ) : nextRadius q ρ d ≤ max ρ (3 * nrm d) := by
  unfold nextRadius
  split
  · exact le_max_of_le_left (by linarith)
  · split
    · exact le_rfl
    · exact le_max_left _ _

/-- With a quality of a quarter or more the radius does not shrink. -/
theorem nextRadius_keeps {x y ρ : ℝ} {d : List ℝ} (hy : y < 0) (h : 1 / 4 * -y ≤ -x) : ρ ≤ nextRadius (fin x / fin y) ρ d := by
  unfold nextRadius
  have : ¬ Scal.lt (fin x / fin y) (fin (1 / 4)) = true := by
    rw [fin_div hy.ne, fin_lt, not_lt, le_div_iff_of_neg hy]
    linarith
  rw [if_neg this]
  split
  · exact le_max_left _ _
  · exact le_rfl

/-- A lower bound for the radius. `acc j`: step `j` is accepted. `cur j`: the residual of state `j` is current. -/
theorem radius_floor {R : Nat → ℝ} {acc cur : Nat → Prop} {n : Nat} {ρ₁ ρ₂ : ℝ} (h1 : 0 < ρ₁) (h2 : 0 < ρ₂) (hR : 0 < R n)
    (hhalf : ∀ j, n ≤ j → R j / 2 ≤ R (j + 1)) (hacc : ∀ j, n ≤ j → acc j → cur (j + 1))
    (hrej : ∀ j, n ≤ j → ¬ acc j → ρ₁ ≤ R j) (hkeep : ∀ j, n ≤ j → cur j → R j ≤ ρ₂ → R j ≤ R (j + 1)) :
    ∃ ρ, 0 < ρ ∧ ∀ j, n ≤ j → ρ ≤ R j := by
  obtain ⟨ρ, hρ⟩ : ∃ ρ, ρ = min (R n) (min ρ₁ ρ₂) := ⟨_, rfl⟩
  have p0 : 0 < ρ := by rw [hρ]; exact lt_min hR (lt_min h1 h2)
  have p1 : ρ ≤ R n := by rw [hρ]; exact min_le_left _ _
  have p2 : ρ ≤ ρ₁ := by rw [hρ]; exact (min_le_right _ _).trans (min_le_left _ _)
  have p3 : ρ ≤ ρ₂ := by rw [hρ]; exact (min_le_right _ _).trans (min_le_right _ _)
  have H : ∀ j, n ≤ j → ρ / 4 ≤ R j ∧ (cur j ∨ ρ / 2 ≤ R j) := by
    intro j hj
    induction j, hj using Nat.le_induction with
    | base => exact ⟨by linarith, .inr (by linarith)⟩
    | succ j hj ih =>
      obtain ⟨i1, i2⟩ := ih
      have hh := hhalf j hj
      by_cases ha : acc j
      · refine ⟨?_, .inl (hacc j hj ha)⟩
        rcases i2 with hc | hc
        · rcases le_total (R j) ρ₂ with hle | hle
          · exact i1.trans (hkeep j hj hc hle)
          · linarith
        · linarith
      · have := hrej j hj ha
        exact ⟨by linarith, .inr (by linarith)⟩
  exact ⟨ρ / 4, by linarith, fun j hj => (H j hj).1⟩

/-- There is no endless execution whose radius stays above `ρ`, does not grow, and whose accepted steps from current states lower the
cost by at least `η`. `sq j`: the squared residual of state `j` is its cost. `flat j`: the step of state `j` is zero. -/
theorem no_endless {R c : Nat → ℝ} {acc cur sq flat : Nat → Prop} {n : Nat} {ρ η : ℝ} (hρ : 0 < ρ) (hη : 0 < η)
    (hfloor : ∀ j, n ≤ j → ρ ≤ R j) (hmono : ∀ j, n ≤ j → R (j + 1) ≤ R j) (hc : ∀ j, n ≤ j → 0 ≤ c j)
    (hacc : ∀ j, n ≤ j → acc j → cur (j + 1)) (hrej : ∀ j, n ≤ j → ¬ acc j → R (j + 1) ≠ R j / 2 → sq (j + 1))
    (hsq : ∀ j, n ≤ j → cur j → sq j ∧ ¬ flat j) (hsteep : ∀ j, n ≤ j → ¬ acc j → sq j → ¬ flat j → R (j + 1) = R j / 2)
    (hflat : ∀ j, n ≤ j → ¬ acc j → flat j → cur (j + 1)) (hdec : ∀ j, n ≤ j → acc j → cur j → c (j + 1) ≤ c j - η) : False := by
  obtain ⟨n₂, hn₂, hnohalf⟩ : ∃ m, n ≤ m ∧ ∀ j, m ≤ j → R (j + 1) ≠ R j / 2 := by
    by_contra hno
    push Not at hno
    have hanti : ∀ i j, n ≤ i → i ≤ j → R j ≤ R i := by
      intro i j hi hij
      induction j, hij using Nat.le_induction with
      | base => exact le_rfl
      | succ j hj ih => exact (hmono j (hi.trans hj)).trans ih
    have hmany : ∀ k : Nat, ∃ j, n ≤ j ∧ R j ≤ R n - k * (ρ / 2) := by
      intro k
      induction k with
      | zero => exact ⟨n, le_rfl, by simp⟩
      | succ k ih =>
        obtain ⟨j, hj, hk⟩ := ih
        obtain ⟨i, hi, he⟩ := hno j hj
        refine ⟨i + 1, by omega, ?_⟩
        have := hfloor i (hj.trans hi)
        have := hanti j i hj hi
        rw [he]
        push_cast
        linarith
    obtain ⟨k, hk⟩ := exists_nat_gt (R n / (ρ / 2))
    obtain ⟨j, hj, hle⟩ := hmany k
    rw [div_lt_iff₀ (by linarith)] at hk
    have := hfloor j hj
    linarith
  obtain ⟨n₃, hn₃, hcur⟩ : ∃ m, n₂ ≤ m ∧ cur m := by
    by_cases ha : acc n₂
    · exact ⟨n₂ + 1, by omega, hacc _ hn₂ ha⟩
    · have hs := hrej _ hn₂ ha (hnohalf _ le_rfl)
      refine ⟨n₂ + 2, by omega, ?_⟩
      by_cases ha' : acc (n₂ + 1)
      · exact hacc _ (by omega) ha'
      · by_cases hf : flat (n₂ + 1)
        · exact hflat _ (by omega) ha' hf
        · exact absurd (hsteep _ (by omega) ha' hs hf) (hnohalf _ (by omega))
  have hall : ∀ j, n₃ ≤ j → cur j ∧ acc j := by
    intro j hj
    have step : ∀ j, n₃ ≤ j → cur j → acc j := by
      intro j hj hc
      by_contra ha
      obtain ⟨s1, s2⟩ := hsq j (by omega) hc
      exact hnohalf j (by omega) (hsteep j (by omega) ha s1 s2)
    induction j, hj using Nat.le_induction with
    | base => exact ⟨hcur, step _ le_rfl hcur⟩
    | succ j hj ih =>
      have := hacc j (by omega) ih.2
      exact ⟨this, step _ (by omega) this⟩
  have hfall : ∀ k : Nat, c (n₃ + k) ≤ c n₃ - k * η := by
    intro k
    induction k with
    | zero => simp
    | succ k ih =>
      obtain ⟨h1, h2⟩ := hall (n₃ + k) (by omega)
      have := hdec (n₃ + k) (by omega) h2 h1
      rw [← Nat.add_assoc]
      push_cast
      linarith
  obtain ⟨k, hk⟩ := exists_nat_gt (c n₃ / η)
  rw [div_lt_iff₀ hη] at hk
  have := hfall k
  have := hc (n₃ + k) (by omega)
  linarith

end Jaxfg
