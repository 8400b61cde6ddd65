/-
Properties C43, C45-C48, C50: the nonlinear solvers in exact arithmetic. `CE` and `gE` are the variable classes and the graph on
`Ext` (real numbers, infinities, NaN); `Lifts CE gE C g` says that on finite arguments they are the real `C` and `g`.
-/
import Verif.Lemmas.SolverRuns
import Verif.Props.Solver

namespace Jaxfg.Props
open Ext (fin)
open Spec Matrix

/-! ### C45: damping -/

/-- **C45.** For every graph, all variable classes and every linear solver (also ones that return NaN): with finite settings
`0 < lambda_initial`, `0 < lambda_min ≤ lambda_max` and `lambda_factor ≥ 1`, the damping is finite and positive in every state of
every execution and never exceeds `max(lambda_initial, lambda_max)`. A rejected step multiplies it by the factor, up to the bounds;
an accepted step divides it by the factor. -/
theorem C45_damping (CE : Ty → VarClass Ext) (gE : GraphOps Ext) (s : LevenbergMarquardt Ext) {li lf lmin lmax : ℝ}
    (h1 : s.lambdaInitial = fin li) (h2 : s.lambdaFactor = fin lf) (h3 : s.lambdaMin = fin lmin) (h4 : s.lambdaMax = fin lmax)
    (p1 : 0 < li) (p2 : 1 ≤ lf) (p3 : 0 < lmin) (p4 : lmin ≤ lmax) {a : Assign Ext} {st st' : LMState Ext} {k : Nat}
    {log : List (Msg Ext)} (hi : s.init gE a = .ok st) (hr : Runs (fun s => s.done) (s.step CE gE) k st st' log) :
    ∃ l : ℝ, st'.lambd = fin l ∧ 0 < l ∧ l ≤ max li lmax ∧
      ∀ st'' log', s.step CE gE st' = .ok (st'', log') → ∀ A ATb delta proposed c r q,
        gE.jacobian st'.assignments st'.residual = .ok A → A.T.matmul (st'.residual.map (- ·)) = .ok ATb →
        s.linear A ATb st'.lambd st'.iterations = .ok delta →
        st'.assignments.manifoldRetract CE ⟨delta, gE.localLayout⟩ = .ok proposed → gE.computeCost proposed = .ok (c, r) →
        stepQuality A c st'.toState delta = .ok q →
        st''.lambd = fin (if Scal.le s.stepQualityMin q then l / lf else max lmin (min (l * lf) lmax)) := by
  have step : ∀ (x : ℝ) (acc : Bool), s.updateLambda acc (fin x) = fin (if acc then x / lf else max lmin (min (x * lf) lmax)) := by
    intro x acc
    unfold LevenbergMarquardt.updateLambda
    rw [h2, h3, h4, fin_div (by linarith), fin_mul, fin_minimum, fin_maximum]
    cases acc <;> rfl
  have inv : ∃ l : ℝ, st'.lambd = fin l ∧ 0 < l ∧ l ≤ max li lmax := by
    refine hr.invariant (P := fun st => ∃ l : ℝ, st.lambd = fin l ∧ 0 < l ∧ l ≤ max li lmax) ?_ ?_
    · rintro p p' lg ⟨l, e, hl1, hl2⟩ hp
      obtain ⟨A, ATb, delta, b, c, r, q, conv, -, -, -, -, -, -, -, rfl, -⟩ := lmStep_ok.1 hp
      refine ⟨if Scal.le s.stepQualityMin q then l / lf else max lmin (min (l * lf) lmax), by unfold lmNext; simp only [e, step], ?_⟩
      split
      · exact ⟨div_pos hl1 (by linarith), (div_le_self hl1.le p2).trans hl2⟩
      · refine ⟨lt_max_of_lt_left p3, max_le (p4.trans (le_max_right _ _)) ((min_le_right _ _).trans (le_max_right _ _))⟩
    · refine ⟨li, by rw [(lmInit_ok.1 hi).2, h1], p1, le_max_left _ _⟩
  obtain ⟨l, e, hl1, hl2⟩ := inv
  refine ⟨l, e, hl1, hl2, fun st'' log' hs => ?_⟩
  obtain ⟨A', ATb', delta', proposed', c', r', q', g1, g2, g3, g4, g5, hq, hacc, hrej⟩ := C44_levenberg_marquardt s hs
  intro A ATb delta proposed c r q f1 f2 f3 f4 f5 f6
  rw [f1] at g1; cases g1
  rw [f2] at g2; cases g2
  rw [f3] at g3; cases g3
  rw [f4] at g4; cases g4
  rw [f5] at g5; cases g5
  rw [f6] at hq; cases hq
  have := step l (Scal.le s.stepQualityMin q')
  rw [← this]
  unfold LevenbergMarquardt.updateLambda
  cases hle : Scal.le s.stepQualityMin q' with
  | true => rw [(hacc hle).2.2, e]; rfl
  | false => rw [(hrej hle).2.2, e]; rfl

/-- Non-vacuity: the default settings of the library. -/
example : (0 : ℝ) < 5e-4 ∧ (1 : ℝ) ≤ 2 ∧ (0 : ℝ) < 1e-6 ∧ (1e-6 : ℝ) ≤ 1e10 := by norm_num

/-! ### C46: the trust region -/

/-- **C46**, the step. For every Jacobian `A`, residual `r`, Gauss-Newton step `gn` and radius `ρ > 0` (where the gradient is not
zero, unless the Gauss-Newton step fits): the dogleg step `d` has norm at most `ρ`; it is `gn` if that fits; otherwise its norm is
exactly `ρ` and it lies on the path from zero to the Cauchy point to `gn`. -/
theorem C46_step {A : Coo ℝ} (hA : CooWF A) {r b gn : List ℝ} (hb : A.T.matmul (r.map (- ·)) = .ok b)
    (hgn : gn.length = A.shape.2) {ρ : ℝ} (hρ : 0 < ρ)
    (hne : √(sqNorm gn) ≤ ρ ∨ descent (cooMatrix A A.shape.1 A.shape.2) (Spec.vec r A.shape.1) ≠ 0) :
    ∃ d : List ℝ, doglegStep (A.map fin) (b.map fin) (gn.map fin) (fin ρ) = .ok (d.map fin) ∧ d.length = A.shape.2 ∧
      √(sqNorm d) ≤ ρ ∧ (√(sqNorm gn) ≤ ρ → d = gn) ∧
      (ρ < √(sqNorm gn) → √(sqNorm d) = ρ ∧ ∃ a, IsCauchyPoint (cooMatrix A A.shape.1 A.shape.2) (Spec.vec r A.shape.1) a ∧
        OnDogleg a (Spec.vec gn A.shape.2) (Spec.vec d A.shape.2)) := by
  obtain ⟨h1, h2⟩ := doglegStep_fin hA hb hgn hρ
  by_cases hn : √(sqNorm gn) ≤ ρ
  · exact ⟨gn, h1 hn, hgn, hn, fun _ => rfl, fun h => absurd hn (not_le.2 h)⟩
  · have hg := hne.resolve_left hn
    obtain ⟨d, e1, e2, e3, e4⟩ := h2 (not_le.1 hn) hg
    refine ⟨d, e1, e2, le_of_eq e3, fun h => absurd h hn, fun _ => ⟨e3, _, isCauchyPoint hg, ?_⟩⟩
    rcases e4 with ⟨t, t0, t1, ht⟩ | ⟨t, t0, t1, ht⟩
    · exact ⟨t, t0.le, t1, .inl ht⟩
    · exact ⟨t, t0, t1, .inr ht⟩

/-- Non-vacuity: in one dimension with `A = (1)` and residual `-4` the Gauss-Newton step `4` does not fit into radius `1`. -/
example : let A : Coo ℝ := ⟨[1], [0], [0], (1, 1)⟩
    CooWF A ∧ A.T.matmul ([-4].map (- ·)) = .ok [4] ∧ ¬ √(sqNorm [4]) ≤ 1 ∧
      descent (cooMatrix A A.shape.1 A.shape.2) (Spec.vec [-4] A.shape.1) ≠ 0 := by
  intro A
  have hwf : CooWF A := ⟨rfl, rfl, by simp [A], by simp [A]⟩
  have hm : A.T.matmul ([-4].map (- ·)) = .ok [4] := by simp [A, Coo.matmul, Coo.T, scatterAdd, gather]
  refine ⟨hwf, hm, ?_, ?_⟩
  · rw [not_le]
    apply Real.lt_sqrt_of_sq_lt
    simp [sqNorm]
  · rw [← (descent_ok hwf hm).2.2]
    intro h
    have := congrFun h ⟨0, by simp [A]⟩
    simp [Spec.vec] at this

/-- **C46**, the blending parameter. Whenever it is used, that is for all vectors with `|a| < ρ < |b|`, both formulas in the code give
the same number, their denominators are positive, and the number lies in [0, 1]. -/
theorem C46_blending {n : Nat} {a b : List ℝ} (ha : a.length = n) (hb : b.length = n) {ρ : ℝ} (hρ : 0 < ρ) (h1 : √(sqNorm a) < ρ)
    (h2 : ρ < √(sqNorm b)) :
    let v := Spec.vec a n
    let w := Spec.vec b n - Spec.vec a n
    let root := √((v ⬝ᵥ w) * (v ⬝ᵥ w) + (w ⬝ᵥ w) * (ρ * ρ - v ⬝ᵥ v))
    ∃ β : ℝ, doglegBeta (a.map fin) (b.map fin) (fin ρ) = fin β ∧ 0 ≤ β ∧ β ≤ 1 ∧ 0 < w ⬝ᵥ w ∧ 0 < v ⬝ᵥ w + root ∧
      β = (-(v ⬝ᵥ w) + root) / (w ⬝ᵥ w) ∧ β = (ρ * ρ - v ⬝ᵥ v) / (v ⬝ᵥ w + root) := by
  intro v w root
  obtain ⟨hK, hD, hout, e⟩ := doglegBeta_fin ha hb hρ h1 h2
  obtain ⟨e1, e2, e3, e4, -⟩ := blending hK hD hout
  exact ⟨_, e, e3, e4, hD, e2, rfl, e1⟩

/-- Non-vacuity. -/
example : √(sqNorm [0, 0]) < 1 ∧ 1 < √(sqNorm [2, 2]) := by
  constructor
  · simp [sqNorm]
  · apply Real.lt_sqrt_of_sq_lt; norm_num [sqNorm]

section
variable {CE : Ty → VarClass Ext} {gE : GraphOps Ext} {C : Ty → VarClass ℝ} {g : GraphOps ℝ} {ws : List Var}

/-- **C46**, executions. If the linear solver answers a zero right-hand side with zero and the initial radius is positive, then in
every state of every execution all numbers are finite and the radius is positive; so `C46_step` applies to every step. -/
theorem C46_radius (h : Lifts CE gE C g) (hg : SaneGraph C g ws) {sE : Dogleg Ext} {s : Dogleg ℝ} (hs : LiftsDogleg sE s)
    (hL : ZeroAtZero s.linear) (hρ : 0 < s.radiusInitial) {a : Assign ℝ} (ha : IsAssignmentOf C ws a) (hl : a.layout = g.layout)
    {st st' : DoglegState Ext} {k : Nat} {log : List (Msg Ext)} (hi : sE.init gE (a.map fin) = .ok st)
    (hr : Runs (fun s => s.done) (sE.step CE gE) k st st' log) :
    ∃ q : DoglegState ℝ, st' = q.map fin ∧ 0 < q.radius ∧ ∀ st'' log', sE.step CE gE st' = .ok (st'', log') →
      ∃ A ATb gn d, g.jacobian q.assignments q.residual = .ok A ∧ CooWF A ∧ A.T.matmul (q.residual.map (- ·)) = .ok ATb ∧
        s.linear A ATb 0 q.iterations = .ok gn ∧
        doglegStep (A.map fin) (ATb.map fin) (gn.map fin) (fin q.radius) = .ok (d.map fin) ∧ √(sqNorm d) ≤ q.radius ∧
        ∃ b c r, q.assignments.manifoldRetract C ⟨d, g.localLayout⟩ = .ok b ∧ g.computeCost b = .ok (c, r) ∧
          (st''.assignments = b.map fin ∨ st''.assignments = st'.assignments) := by
  obtain ⟨c, r, hc, rfl⟩ := (doglegInit_fin h hs).1 hi
  obtain ⟨q, rfl, hq, hqρ⟩ := dogleg_runs_fin h hg hs hL (GoodState.start ha hl hc _ _) hρ hr
  refine ⟨q, rfl, hqρ, fun st'' log' hstep => ?_⟩
  obtain ⟨A, ATb, gn, d, b, c, r, As, q', conv, h1, h2, h3, h4, h5, h6, h7, -, -, -, rfl, -⟩ :=
    (doglegSolverStep_fin h hs (dogleg_hfin hg hL hq hqρ)).1 hstep
  obtain ⟨hwf, -⟩ := hq.jac hg h1
  refine ⟨A, ATb, gn, d, h1, hwf, h2, h3, h4, ?_, b, c, r, h5, h6, ?_⟩
  · obtain ⟨hr, hbl, hbv⟩ := descent_ok hwf h2
    have hlen : gn.length = A.shape.2 := by
      by_contra hne
      unfold doglegStep at h4
      simp only [py_bind_eq_ok] at h4
      obtain ⟨x, -, h2⟩ := h4
      rw [if_pos (by simpa [hbl] using hne)] at h2
      simp at h2
    by_cases hn : nrm gn ≤ q.radius
    · obtain ⟨d', e1, e2, e3, -⟩ := C46_step hwf h2 hlen hqρ (.inl hn)
      rw [e1] at h4
      rw [← List.map_injective_iff.2 fin_injective (Except.ok.inj h4)]
      exact e3
    · have hne : descent (cooMatrix A A.shape.1 A.shape.2) (Spec.vec q.residual A.shape.1) ≠ 0 := by
        intro h0
        rw [← hbv] at h0
        have := (mem_zero_vec hlen).1 (hL A ATb 0 _ gn ((mem_zero_vec hbl).2 h0) h3)
        apply hn
        rw [nrm_eq hlen, this]
        simp [hqρ.le]
      obtain ⟨d', e1, e2, e3, -⟩ := C46_step hwf h2 hlen hqρ (.inr hne)
      rw [e1] at h4
      rw [← List.map_injective_iff.2 fin_injective (Except.ok.inj h4)]
      exact e3
  · cases hacc : Scal.le (fin s.stepQualityMin) q' with
    | true => left; simp [DoglegState.map, State.map, doglegNextReal]
    | false => right; simp [DoglegState.map, State.map, doglegNextReal]

/-! ### C43: cost of damped solvers -/

/-- The recorded cost and residual are those of the recorded assignments. -/
def Current (gE : GraphOps Ext) (st : State Ext) : Prop := gE.computeCost st.assignments = .ok (st.cost, st.residual)

theorem current_fin (h : Lifts CE gE C g) {q : State ℝ} (hc : Current gE (q.map fin)) :
    g.computeCost q.assignments = .ok (q.cost, q.residual) := by
  unfold Current at hc
  have e : (q.map fin).assignments = q.assignments.map fin := rfl
  rw [e, h.cost] at hc
  obtain ⟨⟨c, r⟩, h1, h2⟩ := py_map_eq_ok.1 hc
  obtain ⟨h3, h4⟩ := Prod.mk.inj h2
  rw [h1]
  have h5 : q.cost = c := fin_injective h3
  have h6 : q.residual = r := List.map_injective_iff.2 fin_injective h4
  rw [h5, h6]

/-- An accepted step whose predicted change is negative, or whose step is zero, lowers the cost. -/
theorem accepted_lowers {qmin c cost pred : ℝ} (hq : 0 < qmin) (hacc : Scal.le (fin qmin) (fin (c - cost) / fin (pred - cost)) = true)
    (h : pred < cost ∨ c = cost) : c < cost := by
  rcases accept_fin.1 hacc with ⟨h1, h2⟩ | ⟨h1, h2⟩
  · rcases h with h | h
    · by_contra hge
      have : (c - cost) / (pred - cost) ≤ 0 := div_nonpos_of_nonneg_of_nonpos (by linarith) (by linarith)
      linarith
    · rw [h, sub_self, zero_div] at h2; linarith
  · rcases h with h | h
    · linarith
    · linarith

/-- **C43**, one Levenberg-Marquardt step, partial: if the recorded residual is that of the recorded assignments, the step lowers the
cost or keeps assignments and cost. Missing: states after a rejected step, whose residual is that of the rejected proposal; there a
step may raise the cost, see `C43_levenberg_marquardt_increases`. -/
theorem C43_levenberg_marquardt_step_partial (h : Lifts CE gE C g) (hg : SaneGraph C g ws) (hz : ZeroRetract C)
    {sE : LevenbergMarquardt Ext} {s : LevenbergMarquardt ℝ} (hs : LiftsLM sE s) (hf : s.lambdaFactor ≠ 0) (hq : 0 < s.stepQualityMin)
    (hL : AllJacobians C g ws (SolvesRegular s.linear)) {p : LMState ℝ} (hp : GoodState C g ws p.toState)
    (hl : 0 ≤ p.lambd) (hcur : g.computeCost p.assignments = .ok (p.cost, p.residual)) {st' : LMState Ext} {log : List (Msg Ext)}
    (hstep : sE.step CE gE (p.map fin) = .ok (st', log)) :
    ∃ q : LMState ℝ, st' = q.map fin ∧ (q.cost < p.cost ∨ (q.assignments = p.assignments ∧ q.cost = p.cost)) := by
  obtain ⟨A, ATb, d, b, c, r, As, acc, conv, h1, h2, h3, h4, h5, h6, h7, h8, -, rfl, -⟩ := (lmStep_fin h hs hf).1 hstep
  refine ⟨_, rfl, ?_⟩
  obtain ⟨hwf, hdim⟩ := hp.jac hg h1
  obtain ⟨hrl, hbl, hbv⟩ := descent_ok hwf h2
  obtain ⟨hdl, D, hD1, hD2, hD3⟩ := hp.all hL h1 ATb p.lambd _ d hbl hl h3
  rw [hbv] at hD3
  obtain ⟨k1, k2⟩ := SolvesDamped.descends ⟨D, hD1, hD2, hD3⟩
  have hcost : p.cost = Spec.vec p.residual A.shape.1 ⬝ᵥ Spec.vec p.residual A.shape.1 := by
    rw [hg.cost _ _ _ hcur, sqNorm_eq hrl]
  have hpred := predicted_ok hwf hrl h6
  cases hacc : acc with
  | false => right; simp [lmNextReal]
  | true =>
    left
    have hkey : c < p.cost := by
      apply accepted_lowers hq (h8.symm.trans hacc)
      by_cases h0 : descent (cooMatrix A A.shape.1 A.shape.2) (Spec.vec p.residual A.shape.1) = 0
      · right
        have := hg.zero_stays hz hp.assignment hp.layout ((mem_zero_vec hdl).2 (k1 h0)) (hdl.trans hdim)
        rw [h4] at this
        cases Except.ok.inj this
        rw [hcur] at h5
        exact (Prod.mk.inj (Except.ok.inj h5)).1.symm
      · left
        rw [hpred, hcost]; exact k2 h0
    simpa [lmNextReal] using hkey

/-- **C43**, one dogleg step, partial. Missing: states after a rejected step, see `C43_dogleg_increases`. -/
theorem C43_dogleg_step_partial (h : Lifts CE gE C g) (hg : SaneGraph C g ws) (hz : ZeroRetract C)
    {sE : Dogleg Ext} {s : Dogleg ℝ} (hs : LiftsDogleg sE s) (hq : 0 < s.stepQualityMin)
    (hL : AllJacobians C g ws (SolvesRegular s.linear)) {p : DoglegState ℝ} (hp : GoodState C g ws p.toState)
    (hρ : 0 < p.radius) (hcur : g.computeCost p.assignments = .ok (p.cost, p.residual)) {st' : DoglegState Ext} {log : List (Msg Ext)}
    (hstep : sE.step CE gE (p.map fin) = .ok (st', log)) :
    ∃ q : DoglegState ℝ, st' = q.map fin ∧ (q.cost < p.cost ∨ (q.assignments = p.assignments ∧ q.cost = p.cost)) := by
  have hfit : ∀ A ATb gn, g.jacobian p.assignments p.residual = .ok A → A.T.matmul (p.residual.map fun x => -x) = .ok ATb →
      s.linear A ATb 0 p.iterations = .ok gn → CooWF A ∧ gn.length = A.shape.2 ∧ A.shape.2 = g.localLayout.dim ∧
      SolvesDamped (cooMatrix A A.shape.1 A.shape.2) (Spec.vec p.residual A.shape.1) (Spec.vec gn A.shape.2) := by
    intro A ATb gn h1 h2 h3
    obtain ⟨hwf, hdim⟩ := hp.jac hg h1
    obtain ⟨hrl, hbl, hbv⟩ := descent_ok hwf h2
    obtain ⟨hdl, D, hD1, hD2, hD3⟩ := hp.all hL h1 ATb 0 _ gn hbl le_rfl h3
    rw [hbv] at hD3
    exact ⟨hwf, hdl, hdim, D, hD1, hD2, hD3⟩
  have hzero : ∀ {n : Nat} {gn : List ℝ}, gn.length = n → Spec.vec gn n = 0 → nrm gn ≤ p.radius := by
    intro n gn hn h0
    rw [nrm_eq hn, h0]
    simp [hρ.le]
  have hfin : ∀ A ATb gn dE, g.jacobian p.assignments p.residual = .ok A → A.T.matmul (p.residual.map fun x => -x) = .ok ATb →
      s.linear A ATb 0 p.iterations = .ok gn → doglegStep (A.map fin) (ATb.map fin) (gn.map fin) (fin p.radius) = .ok dE →
      ∃ d : List ℝ, dE = d.map fin := by
    intro A ATb gn dE h1 h2 h3 h4
    obtain ⟨hwf, hlen, -, hsd⟩ := hfit A ATb gn h1 h2 h3
    have : √(sqNorm gn) ≤ p.radius ∨ descent (cooMatrix A A.shape.1 A.shape.2) (Spec.vec p.residual A.shape.1) ≠ 0 := by
      by_cases h0 : descent (cooMatrix A A.shape.1 A.shape.2) (Spec.vec p.residual A.shape.1) = 0
      · exact .inl (hzero hlen ((SolvesDamped.descends hsd).1 h0))
      · exact .inr h0
    obtain ⟨d, e1, -⟩ := C46_step hwf h2 hlen hρ this
    rw [e1] at h4
    exact ⟨d, (Except.ok.inj h4).symm⟩
  obtain ⟨A, ATb, gn, d, b, c, r, As, q, conv, h1, h2, h3, h4, h5, h6, h7, h8, h9, -, rfl, -⟩ := (doglegSolverStep_fin h hs hfin).1 hstep
  refine ⟨_, rfl, ?_⟩
  obtain ⟨hwf, hlen, hdim, hsd⟩ := hfit A ATb gn h1 h2 h3
  obtain ⟨hrl, hbl, hbv⟩ := descent_ok hwf h2
  have hcost : p.cost = Spec.vec p.residual A.shape.1 ⬝ᵥ Spec.vec p.residual A.shape.1 := by
    rw [hg.cost _ _ _ hcur, sqNorm_eq hrl]
  have hpred := predicted_ok hwf hrl h7
  cases hacc : Scal.le (fin s.stepQualityMin) q with
  | false => right; simp [doglegNextReal]
  | true =>
    left
    have hkey : c < p.cost := by
      rw [h9] at hacc
      apply accepted_lowers hq hacc
      obtain ⟨f1, f2⟩ := doglegStep_fin hwf h2 hlen hρ
      by_cases h0 : descent (cooMatrix A A.shape.1 A.shape.2) (Spec.vec p.residual A.shape.1) = 0
      · right
        have hv := (SolvesDamped.descends hsd).1 h0
        rw [f1 (hzero hlen hv)] at h4
        have hd : gn = d := List.map_injective_iff.2 fin_injective (Except.ok.inj h4)
        rw [← hd] at h5
        have := hg.zero_stays hz hp.assignment hp.layout ((mem_zero_vec hlen).2 hv) (hlen.trans hdim)
        rw [h5] at this
        cases Except.ok.inj this
        rw [hcur] at h6
        exact (Prod.mk.inj (Except.ok.inj h6)).1.symm
      · left
        rw [hpred, hcost]
        have hgn := (SolvesDamped.descends hsd).2 h0
        by_cases hn : nrm gn ≤ p.radius
        · rw [f1 hn] at h4
          have hd : gn = d := List.map_injective_iff.2 fin_injective (Except.ok.inj h4)
          rw [← hd]; exact hgn
        · obtain ⟨d', e1, e2, -, e4⟩ := f2 (not_le.1 hn) h0
          rw [e1] at h4
          have hd : d' = d := List.map_injective_iff.2 fin_injective (Except.ok.inj h4)
          rw [← hd]
          rcases e4 with ⟨t, t0, t1, ht⟩ | ⟨t, t0, t1, ht⟩
          · rw [ht]; exact cauchy_descends h0 t0 t1
          · rw [ht]
            refine lt_of_le_of_lt (modelCost_segment _ _ _ _ t0 t1) ?_
            have hca := cauchy_descends h0 (t := 1) one_pos le_rfl
            rw [one_smul] at hca
            rcases eq_or_lt_of_le t0 with rfl | tpos
            · simpa using hca
            · nlinarith
    simpa [doglegNextReal] using hkey

/-- Costs along an execution whose steps do not raise the cost. -/
theorem runs_cost_le {σ : Type} {done : σ → Bool} {step : σ → Py (σ × List (Msg Ext))} {cost : σ → Ext} {good : σ → Prop} {st : σ} {c : ℝ}
    (hc : cost st = fin c)
    (hstep : ∀ j u l u' l', Runs done step j st u l → step u = .ok (u', l') → good u →
      ∃ x y : ℝ, cost u = fin x ∧ cost u' = fin y ∧ y ≤ x) {k : Nat} {st' : σ} {log : List (Msg Ext)}
    (hr : Runs done step k st st' log) (hgood : ∀ j < k, ∀ u l, Runs done step j st u l → good u) :
    ∃ c' : ℝ, cost st' = fin c' ∧ c' ≤ c := by
  induction hr with
  | refl => exact ⟨c, hc, le_rfl⟩
  | @step k s0 t u log l r1 r2 r3 ih =>
    obtain ⟨c1, e1, h1⟩ := ih hc hstep (fun j hj u l hu => hgood j (by omega) u l hu)
    obtain ⟨x, y, e2, e3, h2⟩ := hstep k t log u l r1 r3 (hgood k (by omega) _ _ r1)
    rw [e1] at e2
    exact ⟨y, e3, (h2.trans (le_of_eq (fin_injective e2).symm)).trans h1⟩

/-- **C43**, Levenberg-Marquardt, partial: along an execution in which every step started from a state whose recorded residual is
current (that is, no step followed a rejected one), the final cost does not exceed the initial cost. -/
theorem C43_levenberg_marquardt_partial (h : Lifts CE gE C g) (hg : SaneGraph C g ws) (hz : ZeroRetract C)
    {sE : LevenbergMarquardt Ext} {s : LevenbergMarquardt ℝ} (hs : LiftsLM sE s) (hq : 0 < s.stepQualityMin)
    (p1 : 0 < s.lambdaInitial) (p2 : 1 ≤ s.lambdaFactor) (p3 : 0 < s.lambdaMin) (p4 : s.lambdaMin ≤ s.lambdaMax)
    (hL : AllJacobians C g ws (SolvesRegular s.linear)) {a : Assign ℝ} (ha : IsAssignmentOf C ws a)
    (hl : a.layout = g.layout) {st st' : LMState Ext} {k : Nat} {log : List (Msg Ext)} (hi : sE.init gE (a.map fin) = .ok st)
    (hr : Runs (fun s => s.done) (sE.step CE gE) k st st' log)
    (hcur : ∀ j < k, ∀ u l, Runs (fun s => s.done) (sE.step CE gE) j st u l → Current gE u.toState) :
    ∃ c c' : ℝ, st.cost = fin c ∧ st'.cost = fin c' ∧ c' ≤ c := by
  obtain ⟨c, r, hc, hst⟩ := (lmInit_fin h hs).1 hi
  have hf : s.lambdaFactor ≠ 0 := by linarith
  have e0 : st.cost = fin c := by rw [hst]; rfl
  obtain ⟨c', e1, e2⟩ := runs_cost_le (cost := fun s : LMState Ext => s.cost) (good := fun u => Current gE u.toState) e0 (by
    intro j u l u' l' r1 r3 hcu
    obtain ⟨lam, l1, l2, -⟩ := C45_damping CE gE sE hs.lambdaInitial hs.lambdaFactor hs.lambdaMin hs.lambdaMax p1 p2 p3 p4 hi r1
    rw [hst] at r1
    obtain ⟨q, rfl, hq'⟩ := lm_runs_fin h hs hf (GoodState.start ha hl hc _ _) r1
    have hlam : q.lambd = lam := fin_injective l1
    obtain ⟨q2, rfl, e3⟩ := C43_levenberg_marquardt_step_partial h hg hz hs hf hq hL hq' (by rw [hlam]; exact l2.le)
      (current_fin h hcu) r3
    refine ⟨q.cost, q2.cost, rfl, rfl, ?_⟩
    rcases e3 with e3 | e3
    · exact e3.le
    · exact e3.2.le) hr hcur
  exact ⟨c, c', e0, e1, e2⟩

/-- **C43**, dogleg, partial: see `C43_levenberg_marquardt_partial`. -/
theorem C43_dogleg_partial (h : Lifts CE gE C g) (hg : SaneGraph C g ws) (hz : ZeroRetract C) {sE : Dogleg Ext} {s : Dogleg ℝ}
    (hs : LiftsDogleg sE s) (hq : 0 < s.stepQualityMin) (hρ : 0 < s.radiusInitial) (hL0 : ZeroAtZero s.linear)
    (hL : AllJacobians C g ws (SolvesRegular s.linear)) {a : Assign ℝ} (ha : IsAssignmentOf C ws a)
    (hl : a.layout = g.layout) {st st' : DoglegState Ext} {k : Nat} {log : List (Msg Ext)} (hi : sE.init gE (a.map fin) = .ok st)
    (hr : Runs (fun s => s.done) (sE.step CE gE) k st st' log)
    (hcur : ∀ j < k, ∀ u l, Runs (fun s => s.done) (sE.step CE gE) j st u l → Current gE u.toState) :
    ∃ c c' : ℝ, st.cost = fin c ∧ st'.cost = fin c' ∧ c' ≤ c := by
  obtain ⟨c, r, hc, hst⟩ := (doglegInit_fin h hs).1 hi
  have e0 : st.cost = fin c := by rw [hst]; rfl
  obtain ⟨c', e1, e2⟩ := runs_cost_le (cost := fun s : DoglegState Ext => s.cost) (good := fun u => Current gE u.toState) e0 (by
    intro j u l u' l' r1 r3 hcu
    rw [hst] at r1
    obtain ⟨q, rfl, hq', hqρ⟩ := dogleg_runs_fin h hg hs hL0 (GoodState.start ha hl hc _ _) hρ r1
    obtain ⟨q2, rfl, e3⟩ := C43_dogleg_step_partial h hg hz hs hq hL hq' hqρ (current_fin h hcu) r3
    refine ⟨q.cost, q2.cost, rfl, rfl, ?_⟩
    rcases e3 with e3 | e3
    · exact e3.le
    · exact e3.2.le) hr hcur
  exact ⟨c, c', e0, e1, e2⟩

/-! ### C47: stopping early -/

/-- **C47**, Gauss-Newton, partial: the exact condition under which a step from a state of an execution sets `done`: the iteration
limit, or one of three tests. Missing: the gradient test does not bound the absolute value, see `C47_signed_gradient`. -/
theorem C47_gauss_newton_partial (h : Lifts CE gE C g) {sE : GaussNewton Ext} {s : GaussNewton ℝ} (hs : LiftsGN sE s)
    {a : Assign ℝ} (ha : IsAssignmentOf C ws a) (hl : a.layout = g.layout) {st st' st'' : State Ext} {k : Nat} {log l : List (Msg Ext)}
    (hi : initState gE (a.map fin) = .ok st) (hr : Runs (fun s => s.done) (sE.step CE gE) k st st' log)
    (hstep : sE.step CE gE st' = .ok (st'', l)) :
    ∃ (p : State ℝ) (A : Coo ℝ) (ng ATr delta : List ℝ) (b : Assign ℝ) (c : ℝ) (r : List ℝ), st' = p.map fin ∧ p.iterations = k ∧
      g.jacobian p.assignments p.residual = .ok A ∧ A.T.matmul p.residual = .ok ATr ∧ ng = ATr.map (- ·) ∧
      s.linear A ng 0 k = .ok delta ∧ p.assignments.manifoldRetract C ⟨delta, g.localLayout⟩ = .ok b ∧
      g.computeCost b = .ok (c, r) ∧
      (st''.done = true ↔ s.maxIterations ≤ k + 1 ∨ StopReason C s.toCriteria p c delta ng g.localLayout) := by
  obtain ⟨c, r, hc, rfl⟩ := (initState_fin h).1 hi
  have hk := (gn_counted (C := CE) (g := gE) sE).runs hr
  obtain ⟨p, rfl, hp⟩ := gn_runs_fin h hs (GoodState.start ha hl hc _ _) hr
  have hk' : p.iterations = k := by simpa [State.map] using hk
  obtain ⟨A, ATr, d, b, c, r, conv, h1, h2, h3, h4, h5, h6, rfl, -⟩ := (gnStep_fin h hs).1 hstep
  rw [hk'] at h3
  refine ⟨p, A, _, ATr, d, b, c, r, rfl, hk', h1, h2, rfl, h3, h4, h5, ?_⟩
  rw [← convergedTest_ok h6]
  simp only [State.map, Bool.or_eq_true, decide_eq_true_eq, hk']
  constructor
  · rintro (h | h)
    · left; omega
    · exact .inr h
  · rintro (h | h)
    · left; omega
    · exact .inr h

/-- **C47**, Levenberg-Marquardt, partial: as for Gauss-Newton, but the tests count only if the step was accepted. -/
theorem C47_levenberg_marquardt_partial (h : Lifts CE gE C g) {sE : LevenbergMarquardt Ext} {s : LevenbergMarquardt ℝ}
    (hs : LiftsLM sE s) (hf : s.lambdaFactor ≠ 0)
    {a : Assign ℝ} (ha : IsAssignmentOf C ws a) (hl : a.layout = g.layout) {st st' st'' : LMState Ext} {k : Nat} {log l : List (Msg Ext)}
    (hi : sE.init gE (a.map fin) = .ok st) (hr : Runs (fun s => s.done) (sE.step CE gE) k st st' log)
    (hstep : sE.step CE gE st' = .ok (st'', l)) :
    ∃ (p : LMState ℝ) (A : Coo ℝ) (ng delta : List ℝ) (b : Assign ℝ) (c : ℝ) (r As : List ℝ), st' = p.map fin ∧ p.iterations = k ∧
      g.jacobian p.assignments p.residual = .ok A ∧ A.T.matmul (p.residual.map (- ·)) = .ok ng ∧
      s.linear A ng p.lambd k = .ok delta ∧ p.assignments.manifoldRetract C ⟨delta, g.localLayout⟩ = .ok b ∧
      g.computeCost b = .ok (c, r) ∧ A.matmul delta = .ok As ∧
      (st''.done = true ↔ s.maxIterations ≤ k + 1 ∨
        (Scal.le (fin s.stepQualityMin) (fin (c - p.cost) / fin (sqNorm (List.zipWith (· + ·) As p.residual) - p.cost)) = true ∧
          StopReason C s.toCriteria p.toState c delta ng g.localLayout)) := by
  obtain ⟨c, r, hc, rfl⟩ := (lmInit_fin h hs).1 hi
  have hk := (lm_counted (C := CE) (g := gE) sE).runs hr
  obtain ⟨p, rfl, hp⟩ := lm_runs_fin h hs hf (GoodState.start ha hl hc _ _) hr
  have hk' : p.iterations = k := by simpa [LMState.map, State.map] using hk
  obtain ⟨A, ATb, d, b, c, r, As, acc, conv, h1, h2, h3, h4, h5, h6, -, h7, h8, rfl, -⟩ := (lmStep_fin h hs hf).1 hstep
  rw [hk'] at h3
  refine ⟨p, A, ATb, d, b, c, r, As, rfl, hk', h1, h2, h3, h4, h5, h6, ?_⟩
  rw [← convergedTest_ok h8]
  have e : (Scal.le (fin s.stepQualityMin) (fin (c - p.cost) / fin (sqNorm (List.zipWith (· + ·) As p.residual) - p.cost))) = acc := h7.symm
  rw [e]
  simp only [LMState.map, State.map, lmNextReal, Bool.or_eq_true, Bool.and_eq_true, decide_eq_true_eq, hk']
  constructor
  · rintro (h | h)
    · left; omega
    · exact .inr h
  · rintro (h | h)
    · left; omega
    · exact .inr h

/-- **C47**, dogleg, partial. -/
theorem C47_dogleg_partial (h : Lifts CE gE C g) (hg : SaneGraph C g ws) {sE : Dogleg Ext} {s : Dogleg ℝ}
    (hs : LiftsDogleg sE s) (hL : ZeroAtZero s.linear) (hρ : 0 < s.radiusInitial)
    {a : Assign ℝ} (ha : IsAssignmentOf C ws a) (hl : a.layout = g.layout) {st st' st'' : DoglegState Ext} {k : Nat}
    {log l : List (Msg Ext)} (hi : sE.init gE (a.map fin) = .ok st) (hr : Runs (fun s => s.done) (sE.step CE gE) k st st' log)
    (hstep : sE.step CE gE st' = .ok (st'', l)) :
    ∃ (p : DoglegState ℝ) (A : Coo ℝ) (ng gn delta : List ℝ) (b : Assign ℝ) (c : ℝ) (r As : List ℝ), st' = p.map fin ∧
      p.iterations = k ∧ g.jacobian p.assignments p.residual = .ok A ∧ A.T.matmul (p.residual.map (- ·)) = .ok ng ∧
      s.linear A ng 0 k = .ok gn ∧ doglegStep (A.map fin) (ng.map fin) (gn.map fin) (fin p.radius) = .ok (delta.map fin) ∧
      p.assignments.manifoldRetract C ⟨delta, g.localLayout⟩ = .ok b ∧ g.computeCost b = .ok (c, r) ∧ A.matmul delta = .ok As ∧
      (st''.done = true ↔ s.maxIterations ≤ k + 1 ∨
        (Scal.le (fin s.stepQualityMin) (fin (c - p.cost) / fin (sqNorm (List.zipWith (· + ·) As p.residual) - p.cost)) = true ∧
          StopReason C s.toCriteria p.toState c delta ng g.localLayout)) := by
  obtain ⟨c, r, hc, rfl⟩ := (doglegInit_fin h hs).1 hi
  have hk := (dogleg_counted (C := CE) (g := gE) sE).runs hr
  obtain ⟨p, rfl, hp, hpρ⟩ := dogleg_runs_fin h hg hs hL (GoodState.start ha hl hc _ _) hρ hr
  have hk' : p.iterations = k := by simpa [DoglegState.map, State.map] using hk
  obtain ⟨A, ATb, gn, d, b, c, r, As, q, conv, h1, h2, h3, h3', h4, h5, h6, -, h7, h8, rfl, -⟩ :=
    (doglegSolverStep_fin h hs (dogleg_hfin hg hL hp hpρ)).1 hstep
  rw [hk'] at h3
  refine ⟨p, A, ATb, gn, d, b, c, r, As, rfl, hk', h1, h2, h3, h3', h4, h5, h6, ?_⟩
  rw [← convergedTest_ok h8]
  have e : fin (c - p.cost) / fin (sqNorm (List.zipWith (· + ·) As p.residual) - p.cost) = q := h7.symm
  rw [e]
  simp only [DoglegState.map, State.map, doglegNextReal, Bool.or_eq_true, Bool.and_eq_true, decide_eq_true_eq, hk']
  constructor
  · rintro (h | h)
    · left; omega
    · exact .inr h
  · rintro (h | h)
    · left; omega
    · exact .inr h

end

end Jaxfg.Props
