/- Lemmas about the solver loops and steps, for every scalar type. -/
import Verif.Spec.Solver
import Verif.Lemmas.Assign

namespace Jaxfg
open Spec
variable {S : Type} {σ μ : Type}

theorem py_bind_eq_ok {α β : Type} {x : Py α} {f : α → Py β} {b : β} :
    (x >>= f) = .ok b ↔ ∃ a, x = .ok a ∧ f a = .ok b := by
  cases x with
  | error e => simp
  | ok a => simp

theorem py_return_eq_ok {α : Type} {x y : α} : ((pure x : Py α) = .ok y) ↔ x = y := by simp

/-! ### Loops -/

theorem Spec.Runs.head {done : σ → Bool} {step : σ → Py (σ × List μ)} {k : Nat} {s t u : σ} {l log : List μ}
    (hd : done s = false) (h : step s = .ok (t, l)) (hr : Runs done step k t u log) : Runs done step (k + 1) s u (l ++ log) := by
  induction hr with
  | refl => simpa using Runs.step (Runs.refl s) hd h
  | step h1 h2 h3 ih => rw [← List.append_assoc]; exact Runs.step (ih h) h2 h3

/-- A finished loop is an execution. -/
theorem runs_of_whileLoop {done : σ → Bool} {step : σ → Py (σ × List (Msg S))} :
    ∀ {fuel : Nat} {s t : σ} {log : List (Msg S)}, whileLoop done step fuel s = .ok (some (t, log)) →
      ∃ k, k ≤ fuel ∧ Runs done step k s t log ∧ done t = true := by
  intro fuel
  induction fuel with
  | zero =>
    intro s t log h
    unfold whileLoop at h
    by_cases hd : done s = true
    · simp [hd] at h
      obtain ⟨rfl, rfl⟩ := h
      exact ⟨0, le_refl _, .refl _, hd⟩
    · simp [hd] at h
  | succ fuel ih =>
    intro s t log h
    unfold whileLoop at h
    by_cases hd : done s = true
    · simp [hd] at h
      obtain ⟨rfl, rfl⟩ := h
      exact ⟨0, Nat.zero_le _, .refl _, hd⟩
    · rw [if_neg hd, py_bind_eq_ok] at h
      obtain ⟨⟨s', l⟩, h1, h2⟩ := h
      simp only at h2
      rw [py_bind_eq_ok] at h2
      obtain ⟨r, h3, h4⟩ := h2
      cases r with
      | none => simp at h4
      | some p =>
        simp at h4
        obtain ⟨rfl, rfl⟩ := h4
        obtain ⟨k, hk, hr, hdt⟩ := ih h3
        exact ⟨k + 1, by omega, Runs.head (by simpa using hd) h1 hr, hdt⟩

/-- An execution that has finished is what the loop computes, for every sufficient fuel. -/
theorem whileLoop_of_runs {done : σ → Bool} {step : σ → Py (σ × List (Msg S))} {k : Nat} {s t : σ} {log : List (Msg S)}
    (h : Runs done step k s t log) :
    ∀ {fuel : Nat}, k ≤ fuel → ∀ {p : Option (σ × List (Msg S))}, whileLoop done step (fuel - k) t = .ok p →
      whileLoop done step fuel s = .ok (p.map fun q => (q.1, log ++ q.2)) := by
  induction h with
  | refl s => intro fuel _ p hp; simpa using hp
  | @step k s t u log l h1 h2 h3 ih =>
    intro fuel hk p hp
    have : whileLoop done step (fuel - k) t = .ok (p.map fun q => (q.1, l ++ q.2)) := by
      have e : fuel - k = (fuel - (k + 1)) + 1 := by omega
      rw [e]
      unfold whileLoop
      simp [h2, h3, hp]
    rw [ih (by omega) this]
    congr 1
    cases p <;> simp

theorem whileLoop_done {done : σ → Bool} {step : σ → Py (σ × List (Msg S))} {fuel : Nat} {s : σ} (h : done s = true) :
    whileLoop done step fuel s = .ok (some (s, [])) := by
  cases fuel <;> simp [whileLoop, h]

/-- The step counts iterations and switches `done` on when the counter has reached `N - 1`. -/
structure Counted (base : σ → State S) (step : σ → Py (σ × List (Msg S))) (N : Int) : Prop where
  next : ∀ {s s' log}, step s = .ok (s', log) →
    (base s').iterations = (base s).iterations + 1 ∧ ((base s).iterations ≥ N - 1 → (base s').done = true)

theorem Counted.runs {base : σ → State S} {step : σ → Py (σ × List (Msg S))} {N : Int} (hc : Counted base step N) {k : Nat} {s t : σ}
    {log : List (Msg S)} (h : Runs (fun s => (base s).done) step k s t log) :
    (base t).iterations = (base s).iterations + k := by
  induction h with
  | refl => rfl
  | step h1 h2 h3 ih => rw [(hc.next h3).1, ih]; omega

/-- From a state that has just started, the loop ends. -/
theorem Counted.terminates {base : σ → State S} {step : σ → Py (σ × List (Msg S))} {N : Int} (hc : Counted base step N) :
    ∀ (fuel : Nat) {s : σ}, (base s).done = false → 1 ≤ fuel → N - (base s).iterations ≤ fuel →
      (∃ e, ∀ fuel' ≥ fuel, whileLoop (fun s => (base s).done) step fuel' s = .error e) ∨
      ∃ k t log, 1 ≤ k ∧ k ≤ fuel ∧ Runs (fun s => (base s).done) step k s t log ∧ (base t).done = true ∧
        ∀ fuel' ≥ fuel, whileLoop (fun s => (base s).done) step fuel' s = .ok (some (t, log)) := by
  intro fuel
  induction fuel with
  | zero => intro s _ h; omega
  | succ fuel ih =>
    intro s hd _ hN
    cases hs : step s with
    | error e =>
      left
      refine ⟨e, fun fuel' hf => ?_⟩
      obtain ⟨f, rfl⟩ : ∃ f, fuel' = f + 1 := ⟨fuel' - 1, by omega⟩
      unfold whileLoop
      simp [hd, hs]
    | ok p =>
      obtain ⟨s', l⟩ := p
      obtain ⟨hi, hdone⟩ := hc.next hs
      by_cases hd' : (base s').done = true
      · right
        refine ⟨1, s', l, le_refl _, by omega, by simpa using Runs.step (Runs.refl s) hd hs, hd', fun fuel' hf => ?_⟩
        obtain ⟨f, rfl⟩ : ∃ f, fuel' = f + 1 := ⟨fuel' - 1, by omega⟩
        unfold whileLoop
        simp [hd, hs, whileLoop_done (done := fun s => (base s).done) hd']
      · have hlt : ¬ ((base s).iterations : Int) ≥ N - 1 := fun h => hd' (hdone h)
        have hd'' : (base s').done = false := by simpa using hd'
        rcases ih hd'' (by omega) (by omega) with ⟨e, he⟩ | ⟨k, t, log, h1, h2, h3, h4, h5⟩
        · left
          refine ⟨e, fun fuel' hf => ?_⟩
          obtain ⟨f, rfl⟩ : ∃ f, fuel' = f + 1 := ⟨fuel' - 1, by omega⟩
          unfold whileLoop
          simp [hd, hs, he f (by omega)]
        · right
          refine ⟨k + 1, t, l ++ log, by omega, by omega, Runs.head hd hs h3, h4, fun fuel' hf => ?_⟩
          obtain ⟨f, rfl⟩ : ∃ f, fuel' = f + 1 := ⟨fuel' - 1, by omega⟩
          unfold whileLoop
          simp [hd, hs, h5 f (by omega)]

/-- Invariants of the steps hold throughout executions. -/
theorem Spec.Runs.invariant {done : σ → Bool} {step : σ → Py (σ × List μ)} {P : σ → Prop}
    (hP : ∀ s s' l, P s → step s = .ok (s', l) → P s') {k : Nat} {s t : σ} {log : List μ} (h : Runs done step k s t log)
    (hs : P s) : P t := by
  induction h with
  | refl => exact hs
  | step h1 h2 h3 ih => exact hP _ _ _ (ih hs) h3

/-- A `for` loop is an execution without the test. -/
theorem runs_of_forLoop {step : σ → Py (σ × List (Msg S))} :
    ∀ {n : Nat} {s t : σ} {log : List (Msg S)}, forLoop step n s = .ok (t, log) ↔ Runs (fun _ => false) step n s t log := by
  intro n
  induction n with
  | zero =>
    intro s t log
    constructor
    · intro h; simp [forLoop] at h; obtain ⟨rfl, rfl⟩ := h; exact .refl _
    · intro h; cases h; rfl
  | succ n ih =>
    intro s t log
    unfold forLoop
    simp only [py_bind_eq_ok, Prod.exists]
    constructor
    · rintro ⟨s', l, h1, t', l', h2, h3⟩
      simp at h3
      obtain ⟨rfl, rfl⟩ := h3
      exact Runs.head rfl h1 (ih.1 h2)
    · intro h
      have aux : ∀ {n : Nat} {s t : σ} {log : List (Msg S)}, Runs (fun _ => false) step (n + 1) s t log →
          ∃ s' l log', step s = .ok (s', l) ∧ Runs (fun _ => false) step n s' t log' ∧ log = l ++ log' := by
        intro n
        induction n with
        | zero =>
          intro s t log h
          cases h with
          | step h1 h2 h3 => cases h1; exact ⟨_, _, [], h3, .refl _, by simp⟩
        | succ n ih' =>
          intro s t log h
          cases h with
          | step h1 h2 h3 =>
            obtain ⟨s', l, log', h4, h5, rfl⟩ := ih' h1
            exact ⟨s', l, _, h4, h5.step h2 h3, by simp⟩
      obtain ⟨s', l, log', h1, h2, rfl⟩ := aux h
      exact ⟨s', l, h1, t, log', ih.2 h2, rfl⟩

/-! ### Storage -/

theorem setSlice_length {α : Type _} {l v l' : List α} {i n : Nat} (h : setSlice l i n v = .ok l') : l'.length = l.length := by
  have key : ∀ w : List α, w.length = (slice l i n).length →
      (l.take i ++ w ++ l.drop (i + (slice l i n).length)).length = l.length := by
    intro w hw
    have hm : (slice l i n).length = min n (l.length - i) := by unfold slice; simp
    simp only [List.length_append, List.length_take, List.length_drop, hw, hm]
    omega
  unfold setSlice at h
  simp only at h
  by_cases hv : v.length = (slice l i n).length
  · rw [if_pos hv] at h
    cases h
    exact key _ hv
  · rw [if_neg hv] at h
    match v, h with
    | [], h => cases h
    | [x], h => cases h; exact key _ (by simp)
    | x :: y :: v, h => cases h

theorem manifoldRetract_shape [Zero S] {C : Ty → VarClass S} {a d b : Assign S} (h : a.manifoldRetract C d = .ok b) :
    b.layout = a.layout ∧ b.storage.length = a.storage.length := by
  unfold Assign.manifoldRetract at h
  simp only [py_bind_eq_ok] at h
  obtain ⟨_, _, _, _, new, hn, hb⟩ := h
  simp at hb
  subst hb
  refine ⟨rfl, ?_⟩
  have aux : ∀ (ts : List Ty) (new new' : List S), ts.foldlM (Assign.retractType C a d) new = .ok new' → new'.length = new.length := by
    intro ts
    induction ts with
    | nil => intro new new' h; simp at h; rw [h]
    | cons t ts ih =>
      intro new new' h
      rw [List.foldlM_cons, py_bind_eq_ok] at h
      obtain ⟨m, h1, h2⟩ := h
      rw [ih _ _ h2]
      unfold Assign.retractType at h1
      simp only [py_bind_eq_ok] at h1
      obtain ⟨_, _, _, _, _, _, _, _, _, _, _, _, h3⟩ := h1
      exact setSlice_length h3
  have := aux _ _ _ hn
  simpa using this

/-! ### One step of each solver -/

section
variable [Scal S] {C : Ty → VarClass S} {g : GraphOps S}

omit [Scal S] in
theorem initState_ok {a : Assign S} {st : State S} :
    initState g a = .ok st ↔ ∃ c r, g.computeCost a = .ok (c, r) ∧
      st = { iterations := 0, assignments := a, cost := c, residual := r, done := false } := by
  unfold initState
  simp only [py_bind_eq_ok, Prod.exists, py_return_eq_ok]
  constructor
  · rintro ⟨c, r, h, rfl⟩; exact ⟨c, r, h, rfl⟩
  · rintro ⟨c, r, h, rfl⟩; exact ⟨c, r, h, rfl⟩

theorem gnStep_ok {s : GaussNewton S} {p p' : State S} {log : List (Msg S)} :
    s.step C g p = .ok (p', log) ↔ ∃ A ATr delta b c r conv, g.jacobian p.assignments p.residual = .ok A ∧
      A.T.matmul p.residual = .ok ATr ∧ s.linear A (ATr.map fun x => -x) (Scal.lit 0) p.iterations = .ok delta ∧
      p.assignments.manifoldRetract C ⟨delta, g.localLayout⟩ = .ok b ∧ g.computeCost b = .ok (c, r) ∧
      s.converged C p c ⟨delta, g.localLayout⟩ (ATr.map fun x => -x) = .ok conv ∧
      p' = { iterations := p.iterations + 1, assignments := b, cost := c, residual := r, done := s.exceeded p || conv } ∧
      log = hcbPrint s.verbose (.iteration p.iterations (some s.maxIterations) p.cost none) := by
  unfold GaussNewton.step
  simp only [py_bind_eq_ok, Prod.exists, py_return_eq_ok, Prod.mk.injEq]
  constructor
  · rintro ⟨A, h1, ATr, h2, delta, h3, b, h4, c, r, h5, conv, h6, h7, h8⟩
    exact ⟨A, ATr, delta, b, c, r, conv, h1, h2, h3, h4, h5, h6, h7.symm, h8.symm⟩
  · rintro ⟨A, ATr, delta, b, c, r, conv, h1, h2, h3, h4, h5, h6, h7, h8⟩
    exact ⟨A, h1, ATr, h2, delta, h3, b, h4, c, r, h5, conv, h6, h7.symm, h8.symm⟩

theorem fixedStep_ok {s : FixedIteration S} {p p' : State S} {log : List (Msg S)} :
    s.step C g p = .ok (p', log) ↔ ∃ A ATr delta b c r, g.jacobian p.assignments p.residual = .ok A ∧
      A.T.matmul p.residual = .ok ATr ∧ s.linear A (ATr.map fun x => -x) (Scal.lit 0) p.iterations = .ok delta ∧
      p.assignments.manifoldRetract C ⟨delta, g.localLayout⟩ = .ok b ∧ g.computeCost b = .ok (c, r) ∧
      p' = { iterations := p.iterations + 1, assignments := b, cost := c, residual := r,
             done := decide ((p.iterations : Int) ≥ s.iterations - 1) } ∧
      log = hcbPrint s.verbose (.iteration p.iterations none p.cost none) := by
  unfold FixedIteration.step
  simp only [py_bind_eq_ok, Prod.exists, py_return_eq_ok, Prod.mk.injEq]
  constructor
  · rintro ⟨A, h1, ATr, h2, delta, h3, b, h4, c, r, h5, h7, h8⟩
    exact ⟨A, ATr, delta, b, c, r, h1, h2, h3, h4, h5, h7.symm, h8.symm⟩
  · rintro ⟨A, ATr, delta, b, c, r, h1, h2, h3, h4, h5, h7, h8⟩
    exact ⟨A, h1, ATr, h2, delta, h3, b, h4, c, r, h5, h7.symm, h8.symm⟩

/-- The state after a Levenberg-Marquardt step, from the quantities computed on the way. -/
def lmNext (s : LevenbergMarquardt S) (p : LMState S) (b : Assign S) (c : S) (r : List S) (accept conv : Bool) : LMState S :=
  { iterations := p.iterations + 1
    assignments := { p.assignments with storage := if accept then b.storage else p.assignments.storage }
    lambd := s.updateLambda accept p.lambd
    cost := if accept then c else p.cost
    residual := r
    done := s.exceeded p.toState || (accept && conv) }

theorem lmStep_ok {s : LevenbergMarquardt S} {p p' : LMState S} {log : List (Msg S)} :
    s.step C g p = .ok (p', log) ↔ ∃ A ATb delta b c r q conv, g.jacobian p.assignments p.residual = .ok A ∧
      A.T.matmul (p.residual.map fun x => -x) = .ok ATb ∧ s.linear A ATb p.lambd p.iterations = .ok delta ∧
      p.assignments.manifoldRetract C ⟨delta, g.localLayout⟩ = .ok b ∧ g.computeCost b = .ok (c, r) ∧
      stepQuality A c p.toState delta = .ok q ∧
      s.converged C p.toState c ⟨delta, g.localLayout⟩ ATb = .ok conv ∧
      p' = lmNext s p b c r (Scal.le s.stepQualityMin q) conv ∧
      log = hcbPrint s.verbose (.iteration p.iterations (some s.maxIterations) p.cost (some p.lambd)) := by
  unfold LevenbergMarquardt.step
  simp only [py_bind_eq_ok, Prod.exists, py_return_eq_ok, Prod.mk.injEq]
  constructor
  · rintro ⟨A, h1, ATb, h2, delta, h3, b, h4, c, r, h5, q, h6, conv, h7, h8, h9⟩
    exact ⟨A, ATb, delta, b, c, r, q, conv, h1, h2, h3, h4, h5, h6, h7, h8.symm, h9.symm⟩
  · rintro ⟨A, ATb, delta, b, c, r, q, conv, h1, h2, h3, h4, h5, h6, h7, h8, h9⟩
    exact ⟨A, h1, ATb, h2, delta, h3, b, h4, c, r, h5, q, h6, conv, h7, h8.symm, h9.symm⟩

/-- The state after a dogleg step, from the quantities computed on the way. -/
def doglegNext (s : Dogleg S) (p : DoglegState S) (delta : List S) (b : Assign S) (c : S) (r : List S) (q : S) (accept conv : Bool) :
    DoglegState S :=
  { iterations := p.iterations + 1
    assignments := { p.assignments with storage := if accept then b.storage else p.assignments.storage }
    radius := doglegRadius q p.radius delta
    cost := if accept then c else p.cost
    residual := r
    done := s.exceeded p.toState || (accept && conv) }

theorem doglegSolverStep_ok {s : Dogleg S} {p p' : DoglegState S} {log : List (Msg S)} :
    s.step C g p = .ok (p', log) ↔ ∃ A ATb gn delta b c r q conv, g.jacobian p.assignments p.residual = .ok A ∧
      A.T.matmul (p.residual.map fun x => -x) = .ok ATb ∧ s.linear A ATb (Scal.lit 0) p.iterations = .ok gn ∧
      doglegStep A ATb gn p.radius = .ok delta ∧
      p.assignments.manifoldRetract C ⟨delta, g.localLayout⟩ = .ok b ∧ g.computeCost b = .ok (c, r) ∧
      stepQuality A c p.toState delta = .ok q ∧
      s.converged C p.toState c ⟨delta, g.localLayout⟩ ATb = .ok conv ∧
      p' = doglegNext s p delta b c r q (Scal.le s.stepQualityMin q) conv ∧
      log = hcbPrint s.verbose (.iteration p.iterations (some s.maxIterations) p.cost (some p.radius)) := by
  unfold Dogleg.step
  simp only [py_bind_eq_ok, Prod.exists, py_return_eq_ok, Prod.mk.injEq]
  constructor
  · rintro ⟨A, h1, ATb, h2, gn, h3, delta, h3', b, h4, c, r, h5, q, h6, conv, h7, h8, h9⟩
    exact ⟨A, ATb, gn, delta, b, c, r, q, conv, h1, h2, h3, h3', h4, h5, h6, h7, h8.symm, h9.symm⟩
  · rintro ⟨A, ATb, gn, delta, b, c, r, q, conv, h1, h2, h3, h3', h4, h5, h6, h7, h8, h9⟩
    exact ⟨A, h1, ATb, h2, gn, h3, delta, h3', b, h4, c, r, h5, q, h6, conv, h7, h8.symm, h9.symm⟩

theorem gn_counted (s : GaussNewton S) : Counted id (s.step C g) s.maxIterations where
  next := by
    intro p p' log h
    obtain ⟨A, ATr, delta, b, c, r, conv, -, -, -, -, -, -, rfl, -⟩ := gnStep_ok.1 h
    refine ⟨rfl, fun hN => ?_⟩
    have : s.exceeded p = true := by unfold Criteria.exceeded; simpa using hN
    simp [this]

theorem fixed_counted (s : FixedIteration S) : Counted id (s.step C g) s.iterations where
  next := by
    intro p p' log h
    obtain ⟨A, ATr, delta, b, c, r, -, -, -, -, -, rfl, -⟩ := fixedStep_ok.1 h
    exact ⟨rfl, fun hN => by simpa using hN⟩

theorem lm_counted (s : LevenbergMarquardt S) : Counted LMState.toState (s.step C g) s.maxIterations where
  next := by
    intro p p' log h
    obtain ⟨A, ATb, delta, b, c, r, q, conv, -, -, -, -, -, -, -, rfl, -⟩ := lmStep_ok.1 h
    refine ⟨rfl, fun hN => ?_⟩
    have : s.exceeded p.toState = true := by unfold Criteria.exceeded; simpa using hN
    simp [lmNext, this]

theorem dogleg_counted (s : Dogleg S) : Counted DoglegState.toState (s.step C g) s.maxIterations where
  next := by
    intro p p' log h
    obtain ⟨A, ATb, gn, delta, b, c, r, q, conv, -, -, -, -, -, -, -, -, rfl, -⟩ := doglegSolverStep_ok.1 h
    refine ⟨rfl, fun hN => ?_⟩
    have : s.exceeded p.toState = true := by unfold Criteria.exceeded; simpa using hN
    simp [doglegNext, this]

end

end Jaxfg
