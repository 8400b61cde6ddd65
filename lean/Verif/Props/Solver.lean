/-
Properties C38-C42, C44, C49, C63: control flow of the nonlinear solvers, for every scalar type (also floats with NaN and
rounding), every graph and every linear solver.
-/
import Verif.Lemmas.SolverSolve

namespace Jaxfg.Props
open Spec
variable {S : Type} [Scal S] {σ : Type}

/-! ### C38: termination -/

/-- A `solve` call ends, whatever the fuel from `max(1, N)` on: it raises, or it returns after `k` steps with
`1 ≤ k ≤ max(1, N)`, where the `done` flag is on after the last step only. -/
def EndsWithin (C : Ty → VarClass S) (g : GraphOps S) (base : σ → State S) (init : Assign S → Py σ)
    (step : σ → Py (σ × List (Msg S))) (solve : Nat → Assign S → Py (Option (Assign S × List (Msg S)))) (N : Int) (a : Assign S) :
    Prop :=
  (∃ e, ∀ fuel : Nat, max 1 N ≤ fuel → solve fuel a = .error e) ∨
  ∃ b st k st' log out log', a.updateStorageLayout C g.layout = .ok b ∧ init b = .ok st ∧
    Runs (fun s => (base s).done) step k st st' log ∧ 1 ≤ k ∧ (k : Int) ≤ max 1 N ∧ (base st').done = true ∧
    (base st').assignments.updateStorageLayout C a.layout = .ok out ∧
    ∀ fuel : Nat, max 1 N ≤ fuel → solve fuel a = .ok (some (out, log'))

theorem endsWithin {C : Ty → VarClass S} {g : GraphOps S} {verbose : Bool} {base : σ → State S} {init : Assign S → Py σ}
    {step : σ → Py (σ × List (Msg S))} {N : Int} (hc : Counted base step N)
    (hi : ∀ b st, init b = .ok st → (base st).done = false ∧ (base st).iterations = 0) (a : Assign S) :
    EndsWithin C g base init step (baseSolve C g verbose base init step) N a := by
  unfold EndsWithin
  cases h1 : a.updateStorageLayout C g.layout with
  | error e => left; exact ⟨e, fun fuel _ => by simp [baseSolve, h1]⟩
  | ok b =>
    cases h2 : init b with
    | error e => left; exact ⟨e, fun fuel _ => by simp [baseSolve, h1, h2]⟩
    | ok st =>
      obtain ⟨hd, hz⟩ := hi b st h2
      rcases hc.terminates (max 1 N).toNat hd (by omega) (by omega) with ⟨e, he⟩ | ⟨k, t, log, h3, h4, h5, h6, h7⟩
      · left
        refine ⟨e, fun fuel hf => ?_⟩
        have := he fuel (by omega)
        simp [baseSolve, h1, h2, this]
      · cases h8 : (base t).assignments.updateStorageLayout C a.layout with
        | error e =>
          left
          refine ⟨e, fun fuel hf => ?_⟩
          have := h7 fuel (by omega)
          simp [baseSolve, h1, h2, this, h8]
        | ok out =>
          right
          refine ⟨b, st, k, t, log, out, log ++ hcbPrint verbose (.terminated (base t).iterations (base t).cost), rfl, h2, h5, h3,
            by omega, h6, h8, fun fuel hf => ?_⟩
          exact baseSolve_some.2 ⟨b, st, t, log, h1, h2, h7 fuel (by omega), h8, rfl⟩

/-- **C38**, Gauss-Newton. -/
theorem C38_gauss_newton (C : Ty → VarClass S) (g : GraphOps S) (s : GaussNewton S) (a : Assign S) :
    EndsWithin C g id (initState g) (s.step C g) (s.solve C g) s.maxIterations a :=
  endsWithin (gn_counted s) (fun _ _ h => initState_fresh h) a

/-- **C38**, Levenberg-Marquardt. -/
theorem C38_levenberg_marquardt (C : Ty → VarClass S) (g : GraphOps S) (s : LevenbergMarquardt S) (a : Assign S) :
    EndsWithin C g LMState.toState (s.init g) (s.step C g) (s.solve C g) s.maxIterations a :=
  endsWithin (lm_counted s) (fun _ _ h => initState_fresh (lmInit_ok.1 h).1) a

/-- **C38**, dogleg. -/
theorem C38_dogleg (C : Ty → VarClass S) (g : GraphOps S) (s : Dogleg S) (a : Assign S) :
    EndsWithin C g DoglegState.toState (s.init g) (s.step C g) (s.solve C g) s.maxIterations a :=
  endsWithin (dogleg_counted s) (fun _ _ h => initState_fresh (doglegInit_ok.1 h).1) a

/-! ### C39: the caller's layout -/

section
variable {C : Ty → VarClass S} {g : GraphOps S} {ws : List Var} (hw : ws.Nodup) (hg : g.layout = Layout.make C ws false)
variable {vars : List Var} {a : Assign S} (ha : IsAssignmentOf C vars a) {fuel : Nat} {out : Assign S} {log : List (Msg S)}
include hw hg ha

/-- **C39**, Gauss-Newton: if `solve` returns, the result has exactly the layout of the initial assignments. -/
theorem C39_gauss_newton (s : GaussNewton S) (h : s.solve C g fuel a = .ok (some (out, log))) :
    out.layout = a.layout ∧ out.getVariables = a.getVariables ∧ IsAssignmentOf C vars out := by
  obtain ⟨h1, h2⟩ := baseSolve_layout (gn_keeps s) (fun b st h => by obtain ⟨c, r, -, rfl⟩ := initState_ok.1 h; rfl) hw hg ha h
  exact ⟨h1, congrArg Layout.getVariables h1, h2⟩

/-- **C39**, Levenberg-Marquardt. -/
theorem C39_levenberg_marquardt (s : LevenbergMarquardt S) (h : s.solve C g fuel a = .ok (some (out, log))) :
    out.layout = a.layout ∧ out.getVariables = a.getVariables ∧ IsAssignmentOf C vars out := by
  obtain ⟨h1, h2⟩ := baseSolve_layout (lm_keeps s) (fun b st h => by
    obtain ⟨c, r, -, e⟩ := initState_ok.1 (lmInit_ok.1 h).1; rw [e]) hw hg ha h
  exact ⟨h1, congrArg Layout.getVariables h1, h2⟩

/-- **C39**, dogleg. -/
theorem C39_dogleg (s : Dogleg S) (h : s.solve C g fuel a = .ok (some (out, log))) :
    out.layout = a.layout ∧ out.getVariables = a.getVariables ∧ IsAssignmentOf C vars out := by
  obtain ⟨h1, h2⟩ := baseSolve_layout (dogleg_keeps s) (fun b st h => by
    obtain ⟨c, r, -, e⟩ := initState_ok.1 (doglegInit_ok.1 h).1; rw [e]) hw hg ha h
  exact ⟨h1, congrArg Layout.getVariables h1, h2⟩

end

/-- **C39**, fixed number of iterations. -/
theorem C39_fixed_iteration {C : Ty → VarClass S} {g : GraphOps S} {vars : List Var} {a : Assign S} (ha : IsAssignmentOf C vars a)
    {fuel : Nat} {out : Assign S} {log : List (Msg S)} (s : FixedIteration S)
    (h : s.solve C g fuel a = .ok (some (out, log))) :
    out.layout = a.layout ∧ out.getVariables = a.getVariables ∧ IsAssignmentOf C vars out := by
  obtain ⟨st, st', l, h1, h2, rfl, -⟩ := fixedSolve_some.1 h
  obtain ⟨done, k, hr⟩ := fixedLoop_runs h2
  have := keeps_runs (base := id) (fixed_keeps s) hr
  obtain ⟨c, r, -, rfl⟩ := initState_ok.1 h1
  refine ⟨this.1, congrArg Layout.getVariables this.1, ha.1, ?_, ?_⟩
  · have h := this.1; simp only [id] at h; rw [h]; exact ha.2.1
  · have h := this.1; have h' := this.2; simp only [id] at h h'; rw [h, h']; exact ha.2.2

/-! ### C40: storage order -/

/-- Two `solve` calls have the same outcome: the same exception, or results in which every variable has the same value (and the
same printed lines). -/
def SameOutcome (C : Ty → VarClass S) (x y : Py (Option (Assign S × List (Msg S)))) : Prop :=
  (∃ e, x = .error e ∧ y = .error e) ∨ (x = .ok none ∧ y = .ok none) ∨
  ∃ out₁ out₂ log, x = .ok (some (out₁, log)) ∧ y = .ok (some (out₂, log)) ∧ ∀ v, out₁.getValue C v = out₂.getValue C v

theorem baseSolve_order {C : Ty → VarClass S} (hC : ∀ t, WellShaped (C t).default ∧ 0 < (C t).paramDim) {g : GraphOps S} {verbose : Bool}
    {base : σ → State S} {init : Assign S → Py σ} {step : σ → Py (σ × List (Msg S))} (hk : KeepsLayout base step)
    (hi : ∀ b st, init b = .ok st → (base st).assignments = b) {ws : List Var} (hw : ws.Nodup)
    (hg : g.layout = Layout.make C ws false) {vars₁ vars₂ : List Var} {a₁ a₂ : Assign S} (h₁ : IsAssignmentOf C vars₁ a₁)
    (h₂ : IsAssignmentOf C vars₂ a₂) (hl₁ : a₁.layout.localFlag = false) (hl₂ : a₂.layout.localFlag = false)
    (hs : ∀ v, v ∈ vars₁ ↔ v ∈ vars₂) (hv : ∀ v ∈ vars₁, a₁.getValue C v = a₂.getValue C v) (fuel : Nat) :
    SameOutcome C (baseSolve C g verbose base init step fuel a₁) (baseSolve C g verbose base init step fuel a₂) := by
  by_cases hm : ∀ v, v ∈ vars₁ ↔ v ∈ ws
  · have hm₂ : ∀ v, v ∈ vars₂ ↔ v ∈ ws := fun v => (hs v).symm.trans (hm v)
    obtain ⟨f, hf⟩ := exists_rep h₁
    rw [hl₁] at hf
    obtain ⟨h, hh⟩ := exists_rep h₂
    rw [hl₂] at hh
    have hf₂ := rep_of_same_values (fun t => (hC t).1) hf hh hs hv
    have u₁ := hf.update_unique hw hm (fun v _ => (hC v.ty).2)
    have u₂ := hf₂.update_unique hw hm₂ (fun v _ => (hC v.ty).2)
    set b : Assign S := ⟨(grouped ws).flatMap f, Layout.make C ws false⟩ with hb
    have hbrep : Rep C ws false f b := ⟨hw, rfl, fun v hv => hf.len v ((hm v).2 hv), rfl⟩
    unfold SameOutcome baseSolve
    rw [hg, u₁, u₂]
    simp only [py_bind_ok]
    cases hinit : init b with
    | error e => left; exact ⟨e, rfl, rfl⟩
    | ok st =>
      simp only [py_bind_ok]
      cases hloop : whileLoop (fun s => (base s).done) step fuel st with
      | error e => left; exact ⟨e, rfl, rfl⟩
      | ok r =>
        cases r with
        | none => right; left; exact ⟨rfl, rfl⟩
        | some p =>
          obtain ⟨st', l⟩ := p
          obtain ⟨k, -, hr, -⟩ := runs_of_whileLoop hloop
          obtain ⟨k1, k2⟩ := keeps_runs hk hr
          rw [hi _ _ hinit] at k1 k2
          have hfin : IsAssignmentOf C ws (base st').assignments := by
            refine ⟨hw, ?_, ?_⟩
            · rw [k1]; rfl
            · rw [k1, k2]; exact hbrep.storage_length'
          have hflag : (base st').assignments.layout.localFlag = false := by rw [k1]; rfl
          have e₁ : a₁.layout = Layout.make C vars₁ false := hf.layout
          have e₂ : a₂.layout = Layout.make C vars₂ false := hh.layout
          obtain ⟨o₁, ho₁, -, -, -, hval₁, -⟩ := (C09_update_storage_layout C ws vars₁ false _ hfin h₁.1).1
            ⟨hflag, fun v => (hm v).symm⟩
          obtain ⟨o₂, ho₂, -, -, -, hval₂, -⟩ := (C09_update_storage_layout C ws vars₂ false _ hfin h₂.1).1
            ⟨hflag, fun v => (hm₂ v).symm⟩
          right; right
          refine ⟨o₁, o₂, l ++ hcbPrint verbose (.terminated (base st').iterations (base st').cost), ?_, ?_, fun v => ?_⟩
          · simp [e₁, ho₁]
          · simp [e₂, ho₂]
          · rw [hval₁ rfl v, hval₂ rfl v]
  · left
    refine ⟨.assertion, ?_, ?_⟩
    · have := (C09_update_storage_layout C vars₁ ws false a₁ h₁ hw).2 (fun h => hm h.2)
      unfold baseSolve
      rw [hg, this]; rfl
    · have := (C09_update_storage_layout C vars₂ ws false a₂ h₂ hw).2 (fun h => hm fun v => (hs v).trans (h.2 v))
      unfold baseSolve
      rw [hg, this]; rfl

section
variable {C : Ty → VarClass S} (hC : ∀ t, WellShaped (C t).default ∧ 0 < (C t).paramDim) {g : GraphOps S} {ws : List Var} (hw : ws.Nodup)
  (hg : g.layout = Layout.make C ws false) {vars₁ vars₂ : List Var} {a₁ a₂ : Assign S} (h₁ : IsAssignmentOf C vars₁ a₁)
  (h₂ : IsAssignmentOf C vars₂ a₂) (hl₁ : a₁.layout.localFlag = false) (hl₂ : a₂.layout.localFlag = false)
  (hs : ∀ v, v ∈ vars₁ ↔ v ∈ vars₂) (hv : ∀ v ∈ vars₁, a₁.getValue C v = a₂.getValue C v) (fuel : Nat)
include hC hw hg h₁ h₂ hl₁ hl₂ hs hv

/-- **C40**, Gauss-Newton: initial assignments with the same values, in any order, have the same outcome. (Variables have at
least one parameter.) -/
theorem C40_gauss_newton_partial (s : GaussNewton S) : SameOutcome C (s.solve C g fuel a₁) (s.solve C g fuel a₂) :=
  baseSolve_order hC (gn_keeps s) (fun b st h => by obtain ⟨c, r, -, rfl⟩ := initState_ok.1 h; rfl) hw hg h₁ h₂ hl₁ hl₂ hs hv fuel

/-- **C40**, Levenberg-Marquardt. -/
theorem C40_levenberg_marquardt_partial (s : LevenbergMarquardt S) : SameOutcome C (s.solve C g fuel a₁) (s.solve C g fuel a₂) :=
  baseSolve_order hC (lm_keeps s) (fun b st h => by obtain ⟨c, r, -, e⟩ := initState_ok.1 (lmInit_ok.1 h).1; rw [e]) hw hg h₁ h₂
    hl₁ hl₂ hs hv fuel

/-- **C40**, dogleg. -/
theorem C40_dogleg_partial (s : Dogleg S) : SameOutcome C (s.solve C g fuel a₁) (s.solve C g fuel a₂) :=
  baseSolve_order hC (dogleg_keeps s) (fun b st h => by obtain ⟨c, r, -, e⟩ := initState_ok.1 (doglegInit_ok.1 h).1; rw [e]) hw hg
    h₁ h₂ hl₁ hl₂ hs hv fuel

end

/-! ### C41, C42: recorded cost and residual -/

section
variable {C : Ty → VarClass S} {g : GraphOps S} {a : Assign S} {k : Nat} {log : List (Msg S)} {done : State S → Bool}

/-- **C41, C42**, Gauss-Newton: throughout an execution the recorded cost and residual are those of the recorded assignments, so
every step linearizes at its own state. -/
theorem C41_C42_gauss_newton (s : GaussNewton S) {st st' : State S} (hi : initState g a = .ok st)
    (h : Runs (fun s => s.done) (s.step C g) k st st' log) : g.computeCost st'.assignments = .ok (st'.cost, st'.residual) := by
  refine h.invariant (P := fun st => g.computeCost st.assignments = .ok (st.cost, st.residual)) ?_ ?_
  · intro p p' l _ hp
    obtain ⟨A, ATr, delta, b, c, r, conv, -, -, -, -, hc, -, rfl, -⟩ := gnStep_ok.1 hp
    exact hc
  · obtain ⟨c, r, hc, rfl⟩ := initState_ok.1 hi
    exact hc

/-- **C41, C42**, fixed number of iterations (both loops). -/
theorem C41_C42_fixed_iteration (s : FixedIteration S) {st st' : State S} (hi : initState g a = .ok st)
    (h : Runs done (s.step C g) k st st' log) : g.computeCost st'.assignments = .ok (st'.cost, st'.residual) := by
  refine h.invariant (P := fun st => g.computeCost st.assignments = .ok (st.cost, st.residual)) ?_ ?_
  · intro p p' l _ hp
    obtain ⟨A, ATr, delta, b, c, r, -, -, -, -, hc, rfl, -⟩ := fixedStep_ok.1 hp
    exact hc
  · obtain ⟨c, r, hc, rfl⟩ := initState_ok.1 hi
    exact hc

omit [Scal S] in
/-- The assignments after a step of a damped solver are the proposal or the old ones. -/
theorem replace_storage {a b : Assign S} (h : b.layout = a.layout) (accept : Bool) :
    ({ a with storage := if accept then b.storage else a.storage } : Assign S) = if accept then b else a := by
  cases a; cases b; cases accept <;> simp_all

/-- **C41**, Levenberg-Marquardt: also after rejected steps. -/
theorem C41_levenberg_marquardt (s : LevenbergMarquardt S) {st st' : LMState S} (hi : s.init g a = .ok st)
    (h : Runs (fun s => s.done) (s.step C g) k st st' log) : ∃ r, g.computeCost st'.assignments = .ok (st'.cost, r) := by
  refine h.invariant (P := fun st => ∃ r, g.computeCost st.assignments = .ok (st.cost, r)) ?_ ?_
  · rintro p p' l ⟨r₀, hr₀⟩ hp
    obtain ⟨A, ATb, delta, b, c, r, q, conv, -, -, -, hb, hc, -, -, rfl, -⟩ := lmStep_ok.1 hp
    unfold lmNext
    simp only
    rw [replace_storage (manifoldRetract_shape hb).1]
    by_cases hq : Scal.le s.stepQualityMin q = true
    · simp only [hq, if_true]; exact ⟨r, hc⟩
    · simp only [hq]; exact ⟨r₀, hr₀⟩
  · obtain ⟨c, r, hc, e⟩ := initState_ok.1 (lmInit_ok.1 hi).1
    rw [e]; exact ⟨r, hc⟩

/-- **C41**, dogleg. -/
theorem C41_dogleg (s : Dogleg S) {st st' : DoglegState S} (hi : s.init g a = .ok st)
    (h : Runs (fun s => s.done) (s.step C g) k st st' log) : ∃ r, g.computeCost st'.assignments = .ok (st'.cost, r) := by
  refine h.invariant (P := fun st => ∃ r, g.computeCost st.assignments = .ok (st.cost, r)) ?_ ?_
  · rintro p p' l ⟨r₀, hr₀⟩ hp
    obtain ⟨A, ATb, gn, delta, b, c, r, q, conv, -, -, -, -, hb, hc, -, -, rfl, -⟩ := doglegSolverStep_ok.1 hp
    unfold doglegNext
    simp only
    rw [replace_storage (manifoldRetract_shape hb).1]
    by_cases hq : Scal.le s.stepQualityMin q = true
    · simp only [hq, if_true]; exact ⟨r, hc⟩
    · simp only [hq]; exact ⟨r₀, hr₀⟩
  · obtain ⟨c, r, hc, e⟩ := initState_ok.1 (doglegInit_ok.1 hi).1
    rw [e]; exact ⟨r, hc⟩

/-- **C42**, Levenberg-Marquardt, partial: the recorded residual is that of the recorded assignments at the start and after every
accepted step (a step after which the assignments are the proposal). Missing: after a rejected step it is not, see
`C42_stale_residual`. -/
theorem C42_levenberg_marquardt_partial (s : LevenbergMarquardt S) :
    (∀ st, s.init g a = .ok st → g.computeCost st.assignments = .ok (st.cost, st.residual)) ∧
    ∀ p p' l, s.step C g p = .ok (p', l) → ∃ proposed c r, g.computeCost proposed = .ok (c, r) ∧ p'.residual = r ∧
      ((p'.assignments = proposed ∧ p'.cost = c) ∨ (p'.assignments = p.assignments ∧ p'.cost = p.cost)) := by
  constructor
  · intro st hi
    obtain ⟨c, r, hc, e⟩ := initState_ok.1 (lmInit_ok.1 hi).1
    rw [e]; exact hc
  · intro p p' l hp
    obtain ⟨A, ATb, delta, b, c, r, q, conv, -, -, -, hb, hc, -, -, rfl, -⟩ := lmStep_ok.1 hp
    refine ⟨b, c, r, hc, rfl, ?_⟩
    unfold lmNext
    simp only
    rw [replace_storage (manifoldRetract_shape hb).1]
    by_cases hq : Scal.le s.stepQualityMin q = true
    · left; simp [hq]
    · right; simp [hq]

/-- **C42**, dogleg, partial. -/
theorem C42_dogleg_partial (s : Dogleg S) :
    (∀ st, s.init g a = .ok st → g.computeCost st.assignments = .ok (st.cost, st.residual)) ∧
    ∀ p p' l, s.step C g p = .ok (p', l) → ∃ proposed c r, g.computeCost proposed = .ok (c, r) ∧ p'.residual = r ∧
      ((p'.assignments = proposed ∧ p'.cost = c) ∨ (p'.assignments = p.assignments ∧ p'.cost = p.cost)) := by
  constructor
  · intro st hi
    obtain ⟨c, r, hc, e⟩ := initState_ok.1 (doglegInit_ok.1 hi).1
    rw [e]; exact hc
  · intro p p' l hp
    obtain ⟨A, ATb, gn, delta, b, c, r, q, conv, -, -, -, -, hb, hc, -, -, rfl, -⟩ := doglegSolverStep_ok.1 hp
    refine ⟨b, c, r, hc, rfl, ?_⟩
    unfold doglegNext
    simp only
    rw [replace_storage (manifoldRetract_shape hb).1]
    by_cases hq : Scal.le s.stepQualityMin q = true
    · left; simp [hq]
    · right; simp [hq]

/-! ### C44: accepted and rejected steps -/

/-- **C44**, Levenberg-Marquardt. With the quality `q` of the proposed step `delta`: if `q ≥ step_quality_min`, assignments and
cost become those of the retraction by `delta`; otherwise (also if `q` is NaN) they stay as they were. -/
theorem C44_levenberg_marquardt (s : LevenbergMarquardt S) {p p' : LMState S} {l : List (Msg S)} (h : s.step C g p = .ok (p', l)) :
    ∃ A ATb delta proposed c r q, g.jacobian p.assignments p.residual = .ok A ∧ A.T.matmul (p.residual.map (- ·)) = .ok ATb ∧
      s.linear A ATb p.lambd p.iterations = .ok delta ∧
      p.assignments.manifoldRetract C ⟨delta, g.localLayout⟩ = .ok proposed ∧ g.computeCost proposed = .ok (c, r) ∧
      stepQuality A c p.toState delta = .ok q ∧
      (Scal.le s.stepQualityMin q = true → p'.assignments = proposed ∧ p'.cost = c ∧ p'.lambd = p.lambd / s.lambdaFactor) ∧
      (Scal.le s.stepQualityMin q = false → p'.assignments = p.assignments ∧ p'.cost = p.cost ∧
        p'.lambd = Scal.maximum s.lambdaMin (Scal.minimum (p.lambd * s.lambdaFactor) s.lambdaMax)) := by
  obtain ⟨A, ATb, delta, b, c, r, q, conv, h1, h2, h3, hb, hc, hq, -, rfl, -⟩ := lmStep_ok.1 h
  refine ⟨A, ATb, delta, b, c, r, q, h1, h2, h3, hb, hc, hq, ?_, ?_⟩
  · intro hacc
    unfold lmNext
    simp only
    rw [replace_storage (manifoldRetract_shape hb).1]
    simp [hacc, LevenbergMarquardt.updateLambda]
  · intro hacc
    unfold lmNext
    simp only
    rw [replace_storage (manifoldRetract_shape hb).1]
    simp [hacc, LevenbergMarquardt.updateLambda]

/-- **C44**, dogleg. -/
theorem C44_dogleg (s : Dogleg S) {p p' : DoglegState S} {l : List (Msg S)} (h : s.step C g p = .ok (p', l)) :
    ∃ A ATb gn delta proposed c r q, g.jacobian p.assignments p.residual = .ok A ∧ A.T.matmul (p.residual.map (- ·)) = .ok ATb ∧
      s.linear A ATb (Scal.lit 0) p.iterations = .ok gn ∧ doglegStep A ATb gn p.radius = .ok delta ∧
      p.assignments.manifoldRetract C ⟨delta, g.localLayout⟩ = .ok proposed ∧ g.computeCost proposed = .ok (c, r) ∧
      stepQuality A c p.toState delta = .ok q ∧
      (Scal.le s.stepQualityMin q = true → p'.assignments = proposed ∧ p'.cost = c) ∧
      (Scal.le s.stepQualityMin q = false → p'.assignments = p.assignments ∧ p'.cost = p.cost) := by
  obtain ⟨A, ATb, gn, delta, b, c, r, q, conv, h1, h2, h3, h4, hb, hc, hq, -, rfl, -⟩ := doglegSolverStep_ok.1 h
  refine ⟨A, ATb, gn, delta, b, c, r, q, h1, h2, h3, h4, hb, hc, hq, ?_, ?_⟩
  · intro hacc
    unfold doglegNext
    simp only
    rw [replace_storage (manifoldRetract_shape hb).1]
    simp [hacc]
  · intro hacc
    unfold doglegNext
    simp only
    rw [replace_storage (manifoldRetract_shape hb).1]
    simp [hacc]

end

/-! ### C49: fixed number of iterations -/

/-- **C49.** With `unroll`, a solve that returns has executed exactly `iterations` steps (none if the number is not positive) and
returns the assignments of the last state. With the while loop, a solve raises or has executed exactly `max(1, iterations)` steps.
For `iterations ≥ 1` both modes have the same outcome: same exception, or same assignments and same printed lines. -/
theorem C49_fixed_iteration (C : Ty → VarClass S) (g : GraphOps S) (s : FixedIteration S) (a : Assign S) :
    (s.unroll = true → ∀ fuel out log, s.solve C g fuel a = .ok (some (out, log)) →
      ∃ st st' l, initState g a = .ok st ∧ Runs (fun _ => false) (s.step C g) s.iterations.toNat st st' l ∧ out = st'.assignments) ∧
    (s.unroll = true → ∀ fuel, s.solve C g fuel a ≠ .ok none) ∧
    (s.unroll = false → ∀ fuel : Nat, max 1 s.iterations ≤ fuel →
      (∃ e, s.solve C g fuel a = .error e) ∨ ∃ out log st st' l k, s.solve C g fuel a = .ok (some (out, log)) ∧
        initState g a = .ok st ∧ Runs (fun s => s.done) (s.step C g) k st st' l ∧ (k : Int) = max 1 s.iterations ∧
        out = st'.assignments) ∧
    (1 ≤ s.iterations → ∀ fuel : Nat, s.iterations ≤ fuel →
      ({ s with unroll := true } : FixedIteration S).solve C g fuel a = ({ s with unroll := false } : FixedIteration S).solve C g fuel a) := by
  refine ⟨?_, ?_, ?_, ?_⟩
  · intro hu fuel out log h
    obtain ⟨st, st', l, h1, h2, rfl, -⟩ := fixedSolve_some.1 h
    rw [hu, if_pos rfl] at h2
    cases hf : forLoop (s.step C g) s.iterations.toNat st with
    | error e => rw [hf] at h2; cases h2
    | ok p =>
      rw [hf] at h2
      have hp : p = (st', l) := by simpa [Except.map] using h2
      subst hp
      exact ⟨st, st', l, h1, runs_of_forLoop.1 hf, rfl⟩
  · intro hu fuel h
    unfold FixedIteration.solve at h
    simp only [hu, if_true, py_bind_eq_ok] at h
    obtain ⟨x, -, st, -, r, hr, h3⟩ := h
    cases hf : forLoop (s.step C g) s.iterations.toNat st with
    | error e => rw [hf] at hr; cases hr
    | ok p =>
      rw [hf] at hr
      have : r = some p := by simpa [Except.map] using hr.symm
      subst this
      simp at h3
  · intro hu fuel hf
    cases h1 : initState g a with
    | error e =>
      left
      unfold FixedIteration.solve
      cases g.computeCost a with
      | error e' => exact ⟨e', rfl⟩
      | ok x => exact ⟨e, by simp [h1]⟩
    | ok st =>
      obtain ⟨c, r, hc, hst⟩ := initState_ok.1 h1
      obtain ⟨hd, hz⟩ := initState_fresh h1
      rcases (fixed_counted (C := C) (g := g) s).terminates (max 1 s.iterations).toNat (s := st) hd (by omega)
        (by simp only [id]; omega) with ⟨e, he⟩ | ⟨k, t, log, h3, h4, h5, h6, h7⟩
      · left
        refine ⟨e, ?_⟩
        unfold FixedIteration.solve
        have := he fuel (by omega)
        simp only [id] at this
        simp [hc, h1, hu, this]
      · right
        have h8 := h7 fuel (by omega)
        refine ⟨t.assignments, _, st, t, log, k, fixedSolve_some.2 ⟨st, t, log, h1, ?_, rfl, rfl⟩, rfl, h5, ?_, rfl⟩
        · rw [hu, if_neg (by simp)]; exact h8
        · -- the flag is switched on by the last step only
          cases h5 with
          | refl => omega
          | @step k' _ u _ _ _ r1 r2 r3 =>
            have hu1 := (fixed_counted (C := C) (g := g) s).runs r1
            obtain ⟨A, ATr, delta, b, c, r, -, -, -, -, -, rfl, -⟩ := fixedStep_ok.1 r3
            simp only [id, hz] at hu1 h6
            simp only [decide_eq_true_eq] at h6
            push_cast
            omega
  · intro hi fuel hf
    unfold FixedIteration.solve
    simp only [if_true, if_false, Bool.false_eq_true]
    cases h1 : initState g a with
    | error e => rfl
    | ok st =>
      obtain ⟨hd, hz⟩ := initState_fresh h1
      simp only [py_bind_ok]
      obtain ⟨n, hn⟩ : ∃ n : Nat, s.iterations = n + 1 := ⟨(s.iterations - 1).toNat, by omega⟩
      have hs : ∀ u, ({ s with unroll := u } : FixedIteration S).step C g = s.step C g := fun u => rfl
      have hw := whileLoop_eq_forLoop (C := C) (g := g) s n fuel st hd (by rw [hz]; omega) (by omega)
      have hn' : s.iterations.toNat = n + 1 := by omega
      simp only [hs, hw, hn']

/-! ### C63: printing -/

/-- What `solve` prints: `k` lines `Iteration #0`, …, `Iteration #(k-1)` and then `Terminated @ iteration #k`; nothing if not
verbose. -/
def PrintsFor (verbose : Bool) (k : Nat) (log : List (Msg S)) : Prop :=
  (verbose = false → log = []) ∧
  (verbose = true → ∃ l c, log = l ++ [.terminated k c] ∧ l.map lineNumber = List.range k ∧ ∀ m ∈ l, isIterationLine m = true)

omit [Scal S] in
theorem printsFor {verbose : Bool} {k i : Nat} {c : S} {l : List (Msg S)} (hi : i = k)
    (h1 : verbose = true → l.map lineNumber = List.range k ∧ ∀ m ∈ l, isIterationLine m = true)
    (h2 : verbose = false → l = []) : PrintsFor verbose k (l ++ hcbPrint verbose (.terminated i c)) := by
  subst hi
  refine ⟨fun hv => ?_, fun hv => ?_⟩
  · rw [h2 hv, hv]; rfl
  · exact ⟨l, c, by rw [hv]; rfl, h1 hv⟩

theorem baseSolve_prints {C : Ty → VarClass S} {g : GraphOps S} {verbose : Bool} {base : σ → State S} {init : Assign S → Py σ}
    {step : σ → Py (σ × List (Msg S))} {N : Int} (hc : Counted base step N) (hl : Logs base step verbose)
    (hi : ∀ b st, init b = .ok st → (base st).done = false ∧ (base st).iterations = 0) {fuel : Nat} {a out : Assign S}
    {log : List (Msg S)} (h : baseSolve C g verbose base init step fuel a = .ok (some (out, log))) :
    ∃ b st st' l k, a.updateStorageLayout C g.layout = .ok b ∧ init b = .ok st ∧
      Runs (fun s => (base s).done) step k st st' l ∧ PrintsFor verbose k log := by
  obtain ⟨b, st, st', l, h1, h2, h3, h4, rfl⟩ := baseSolve_some.1 h
  obtain ⟨k, -, hr, -⟩ := runs_of_whileLoop h3
  obtain ⟨j1, j2, j3⟩ := logs_runs hl (fun h => (hc.next h).1) hr (hi _ _ h2).2
  exact ⟨b, st, st', l, k, h1, h2, hr, printsFor j1 j2 j3⟩

section
variable (C : Ty → VarClass S) (g : GraphOps S) (fuel : Nat) (a : Assign S)

/-- **C63**, Gauss-Newton: the setting `verbose` does not change the outcome; the printed lines are numbered as they should. -/
theorem C63_gauss_newton (s : GaussNewton S) :
    (∀ v, (({ s with verbose := v } : GaussNewton S).solve C g fuel a).map (Option.map Prod.fst) =
      (s.solve C g fuel a).map (Option.map Prod.fst)) ∧
    (∀ out log, s.solve C g fuel a = .ok (some (out, log)) → ∃ b st st' l k, a.updateStorageLayout C g.layout = .ok b ∧
      initState g b = .ok st ∧ Runs (fun s => s.done) (s.step C g) k st st' l ∧ PrintsFor s.verbose k log) :=
  ⟨fun v => baseSolve_verbose (gn_verbose s v) fuel a,
   fun _ _ h => baseSolve_prints (gn_counted s) (gn_logs s) (fun _ _ h => initState_fresh h) h⟩

/-- **C63**, Levenberg-Marquardt. -/
theorem C63_levenberg_marquardt (s : LevenbergMarquardt S) :
    (∀ v, (({ s with verbose := v } : LevenbergMarquardt S).solve C g fuel a).map (Option.map Prod.fst) =
      (s.solve C g fuel a).map (Option.map Prod.fst)) ∧
    (∀ out log, s.solve C g fuel a = .ok (some (out, log)) → ∃ b st st' l k, a.updateStorageLayout C g.layout = .ok b ∧
      s.init g b = .ok st ∧ Runs (fun s => s.done) (s.step C g) k st st' l ∧ PrintsFor s.verbose k log) :=
  ⟨fun v => baseSolve_verbose (lm_verbose s v) fuel a,
   fun _ _ h => baseSolve_prints (lm_counted s) (lm_logs s) (fun _ _ h => initState_fresh (lmInit_ok.1 h).1) h⟩

/-- **C63**, dogleg. -/
theorem C63_dogleg (s : Dogleg S) :
    (∀ v, (({ s with verbose := v } : Dogleg S).solve C g fuel a).map (Option.map Prod.fst) =
      (s.solve C g fuel a).map (Option.map Prod.fst)) ∧
    (∀ out log, s.solve C g fuel a = .ok (some (out, log)) → ∃ b st st' l k, a.updateStorageLayout C g.layout = .ok b ∧
      s.init g b = .ok st ∧ Runs (fun s => s.done) (s.step C g) k st st' l ∧ PrintsFor s.verbose k log) :=
  ⟨fun v => baseSolve_verbose (dogleg_verbose s v) fuel a,
   fun _ _ h => baseSolve_prints (dogleg_counted s) (dogleg_logs s) (fun _ _ h => initState_fresh (doglegInit_ok.1 h).1) h⟩

/-- **C63**, fixed number of iterations. -/
theorem C63_fixed_iteration (s : FixedIteration S) :
    (∀ v, (({ s with verbose := v } : FixedIteration S).solve C g fuel a).map (Option.map Prod.fst) =
      (s.solve C g fuel a).map (Option.map Prod.fst)) ∧
    (∀ out log, s.solve C g fuel a = .ok (some (out, log)) → ∃ st st' l k done, initState g a = .ok st ∧
      Runs done (s.step C g) k st st' l ∧ PrintsFor s.verbose k log) := by
  constructor
  · intro v
    unfold FixedIteration.solve
    cases g.computeCost a with
    | error e => rfl
    | ok x =>
      simp only [py_bind_ok]
      cases initState g a with
      | error e => rfl
      | ok st =>
        simp only [py_bind_ok]
        cases hu : s.unroll with
        | true =>
          simp only [if_true]
          have hw := forget_forLoop (fixed_verbose (C := C) (g := g) s v) s.iterations.toNat st
          cases h1 : forLoop (s.step C g) s.iterations.toNat st with
          | error e =>
            cases h2 : forLoop (({ s with verbose := v } : FixedIteration S).step C g) s.iterations.toNat st with
            | error e' =>
              rw [h1, h2] at hw
              have : e' = e := by simpa [Except.map] using hw
              subst this
              simp [Except.map, hu] at h2 ⊢
              simp [h2]
            | ok q => rw [h1, h2] at hw; cases hw
          | ok p =>
            cases h2 : forLoop (({ s with verbose := v } : FixedIteration S).step C g) s.iterations.toNat st with
            | error e' => rw [h1, h2] at hw; cases hw
            | ok q =>
              rw [h1, h2] at hw
              have : q.1 = p.1 := by simpa [Except.map] using hw
              simp only [hu] at h2
              simp [Except.map, h2, this]
        | false =>
          simp only [if_false, Bool.false_eq_true]
          have hw := forget_whileLoop (done := fun s : State S => s.done) (fixed_verbose (C := C) (g := g) s v) fuel st
          cases h1 : whileLoop (fun s => s.done) (s.step C g) fuel st with
          | error e =>
            cases h2 : whileLoop (fun s => s.done) (({ s with verbose := v } : FixedIteration S).step C g) fuel st with
            | error e' =>
              rw [h1, h2] at hw
              have : e' = e := by simpa [Except.map] using hw
              subst this
              simp only [hu] at h2
              simp [Except.map, h2]
            | ok q => rw [h1, h2] at hw; cases hw
          | ok p =>
            cases h2 : whileLoop (fun s => s.done) (({ s with verbose := v } : FixedIteration S).step C g) fuel st with
            | error e' => rw [h1, h2] at hw; cases hw
            | ok q =>
              rw [h1, h2] at hw
              simp only [hu] at h2
              simp only [Except.map, Except.ok.injEq] at hw
              cases p <;> cases q <;> simp_all [Except.map]
  · intro out log h
    obtain ⟨st, st', l, h1, h2, -, rfl⟩ := fixedSolve_some.1 h
    obtain ⟨done, k, hr⟩ := fixedLoop_runs h2
    obtain ⟨j1, j2, j3⟩ := logs_runs (fixed_logs s) (fun h => ((fixed_counted s).next h).1) hr (initState_fresh h1).2
    exact ⟨st, st', l, k, done, h1, hr, printsFor j1 j2 j3⟩

end

end Jaxfg.Props
