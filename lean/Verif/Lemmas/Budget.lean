/- Lemmas comparing solver runs with different numbers of iterations. -/
import Verif.Spec.Budget
import Verif.Lemmas.SolverSolve

namespace Jaxfg
open Spec
variable {S : Type} [Scal S] {σ : Type}

/-- `step'` is `step` with a maximum of `N` instead of `M` iterations. -/
structure Rebudget (base : σ → State S) (setDone : Bool → σ → σ) (step step' : σ → Py (σ × List (Msg S))) (M N : Int) : Prop where
  same : ∀ p, setDone (base p).done p = p
  done : ∀ b p, (base (setDone b p)).done = b
  next : ∀ {p p' l}, step p = .ok (p', l) → (M - 1 ≤ (base p).iterations → N - 1 ≤ (base p).iterations) →
    step' p = .ok (setDone ((base p').done || decide (N - 1 ≤ ((base p).iterations : Int))) p', l.map (showMax N))

omit [Scal S] in
theorem Rebudget.runs {base : σ → State S} {setDone : Bool → σ → σ} {step step' : σ → Py (σ × List (Msg S))} {M N : Int}
    (h : Rebudget base setDone step step' M N) (hc : Counted base step M) {k : Nat} {st st' : σ} {log : List (Msg S)}
    (hit : (base st).iterations = 0)
    (hr : Runs (fun s => (base s).done) step k st st' log) (hk : (k : Int) ≤ max 1 N) (hM : N ≤ M ∨ (k : Int) < M) :
    Runs (fun s => (base s).done) step' k st (if k = 0 then st' else setDone ((base st').done || decide (N ≤ (k : Int))) st')
      (log.map (showMax N)) := by
  induction hr with
  | refl s => exact .refl s
  | @step k s t u log l h1 h2 h3 ih =>
    have hi := hc.runs h1
    rw [hit, Nat.zero_add] at hi
    have ih := ih hit (by push_cast at hk; omega) (by push_cast at hM; omega)
    have ht : (if k = 0 then t else setDone ((base t).done || decide (N ≤ (k : Int))) t) = t := by
      by_cases hk0 : k = 0
      · rw [if_pos hk0]
      · rw [if_neg hk0, h2]
        have : ¬ N ≤ (k : Int) := by push_cast at hk; omega
        simp only [this, decide_false, Bool.or_false]
        have := h.same t
        rwa [h2] at this
    rw [ht] at ih
    have := h.next h3 (by rw [hi]; push_cast at hM; omega)
    rw [List.map_append, if_neg (by omega)]
    refine ih.step h2 ?_
    rw [this, hi]
    congr 5
    simp only [sub_le_iff_le_add, Nat.cast_add, Nat.cast_one]

omit [Scal S] in
theorem showMax_hcb (N M : Int) (v : Bool) (i : Nat) (c : S) (x : Option S) :
    (hcbPrint v (.iteration i (some M) c x)).map (showMax N) = hcbPrint v (.iteration i (some N) c x) := by
  cases v <;> rfl

omit [Scal S] in
theorem showMax_terminated (N : Int) (v : Bool) (i : Nat) (c : S) :
    (hcbPrint v (.terminated i c)).map (showMax N) = hcbPrint v (.terminated i c) := by
  cases v <;> rfl

omit [Scal S] in
theorem exceeded_or {t : Criteria S} {N : Int} {p : State S} {b : Bool}
    (h : t.maxIterations - 1 ≤ p.iterations → N - 1 ≤ p.iterations) :
    ((t.exceeded p || b) || decide (N - 1 ≤ (p.iterations : Int))) = (({ t with maxIterations := N } : Criteria S).exceeded p || b) := by
  unfold Criteria.exceeded
  by_cases h1 : t.maxIterations - 1 ≤ p.iterations
  · simp [h1, h h1]
  · by_cases h2 : N - 1 ≤ (p.iterations : Int) <;> simp [h1, h2]

theorem gn_rebudget {C : Ty → VarClass S} {g : GraphOps S} (s : GaussNewton S) (N : Int) :
    Rebudget id (fun b (p : State S) => { p with done := b }) (s.step C g) ({ s with maxIterations := N }.step C g) s.maxIterations N where
  same p := rfl
  done b p := rfl
  next := by
    intro p p' l h hN
    obtain ⟨A, ATr, delta, b, c, r, conv, h1, h2, h3, h4, h5, h6, rfl, rfl⟩ := gnStep_ok.1 h
    refine gnStep_ok.2 ⟨A, ATr, delta, b, c, r, conv, h1, h2, h3, h4, h5, h6, ?_, showMax_hcb _ _ _ _ _ _⟩
    simp only [id] at hN ⊢
    rw [exceeded_or hN]

theorem lm_rebudget {C : Ty → VarClass S} {g : GraphOps S} (s : LevenbergMarquardt S) (N : Int) :
    Rebudget LMState.toState (fun b (p : LMState S) => { p with done := b }) (s.step C g) ({ s with maxIterations := N }.step C g)
      s.maxIterations N where
  same p := rfl
  done b p := rfl
  next := by
    intro p p' l h hN
    obtain ⟨A, ATb, delta, b, c, r, q, conv, h1, h2, h3, h4, h5, h6, h7, rfl, rfl⟩ := lmStep_ok.1 h
    refine lmStep_ok.2 ⟨A, ATb, delta, b, c, r, q, conv, h1, h2, h3, h4, h5, h6, h7, ?_, showMax_hcb _ _ _ _ _ _⟩
    simp only [lmNext]
    rw [exceeded_or hN]
    rfl

theorem dogleg_rebudget {C : Ty → VarClass S} {g : GraphOps S} (s : Dogleg S) (N : Int) :
    Rebudget DoglegState.toState (fun b (p : DoglegState S) => { p with done := b }) (s.step C g)
      ({ s with maxIterations := N }.step C g) s.maxIterations N where
  same p := rfl
  done b p := rfl
  next := by
    intro p p' l h hN
    obtain ⟨A, ATb, gn, delta, b, c, r, q, conv, h1, h2, h3, h3', h4, h5, h6, h7, rfl, rfl⟩ := doglegSolverStep_ok.1 h
    refine doglegSolverStep_ok.2 ⟨A, ATb, gn, delta, b, c, r, q, conv, h1, h2, h3, h3', h4, h5, h6, h7, ?_,
      showMax_hcb _ _ _ _ _ _⟩
    simp only [doglegNext]
    rw [exceeded_or hN]

/-- A `solve` call that ended after `k` iterations, called with another maximum. -/
theorem Rebudget.solve {C : Ty → VarClass S} {g : GraphOps S} {verbose : Bool} {base : σ → State S} {setDone : Bool → σ → σ}
    {init : Assign S → Py σ} {step : σ → Py (σ × List (Msg S))} {M : Int} (hc : Counted base step M)
    (hi : ∀ b st, init b = .ok st → (base st).done = false ∧ (base st).iterations = 0) {fuel : Nat} {a out : Assign S}
    {log : List (Msg S)} (h : baseSolve C g verbose base init step fuel a = .ok (some (out, log))) :
    ∃ k : Nat, Performs C g base init step a k ∧ 1 ≤ k ∧ (k : Int) ≤ max 1 M ∧ ∀ (N : Int) (step' : σ → Py (σ × List (Msg S))),
      Rebudget base setDone step step' M N → (k : Int) ≤ N → N ≤ M ∨ (k : Int) < M → ∀ fuel', k ≤ fuel' →
      baseSolve C g verbose base init step' fuel' a = .ok (some (out, log.map (showMax N))) := by
  obtain ⟨b, st, st', l, h1, h2, h3, h4, rfl⟩ := baseSolve_some.1 h
  obtain ⟨k, hk, hr, hd⟩ := runs_of_whileLoop h3
  obtain ⟨hd0, hi0⟩ := hi b st h2
  have hk1 : 1 ≤ k := by
    rcases Nat.eq_zero_or_pos k with rfl | hp
    · cases hr; rw [hd0] at hd; cases hd
    · exact hp
  have hkM : (k : Int) ≤ max 1 M := by
    cases hr with
    | refl => omega
    | @step j _ t _ _ _ r1 r2 r3 =>
      have e := hc.runs r1
      rw [hi0, Nat.zero_add] at e
      cases r1 with
      | refl => simp
      | @step i _ t' _ _ _ q1 q2 q3 =>
        have e' := hc.runs q1
        rw [hi0, Nat.zero_add] at e'
        have := (hc.next q3).2
        by_contra hlt
        have hM : ((base t').iterations : Int) ≥ M - 1 := by rw [e']; push_cast at hlt ⊢; omega
        rw [this hM] at r2
        cases r2
  refine ⟨k, ⟨b, st, st', l, h1, h2, hr, hd⟩, hk1, hkM, fun N step' hb hN hM fuel' hf => ?_⟩
  have hr' := hb.runs hc hi0 hr (by omega) hM
  have e : (if k = 0 then st' else setDone ((base st').done || decide (N ≤ (k : Int))) st') = st' := by
    rw [if_neg (by omega), hd, Bool.true_or, ← hd, hb.same]
  rw [e] at hr'
  refine baseSolve_some.2 ⟨b, st, st', l.map (showMax N), h1, h2, ?_, h4, ?_⟩
  · have := whileLoop_of_runs hr' hf (p := some (st', [])) (whileLoop_done hd)
    simpa using this
  · rw [List.map_append, showMax_terminated]

/-! ### A fixed number of iterations -/

/-- What the next step depends on. -/
def State.core (p : State S) : Assign S × S × List S := (p.assignments, p.cost, p.residual)

/-- The part of the state after a Gauss-Newton step that later steps depend on. -/
def gnCore (C : Ty → VarClass S) (g : GraphOps S) (L : LinSolver S) (i : Nat) (x : Assign S × S × List S) :
    Py (Assign S × S × List S) := do
  let A ← g.jacobian x.1 x.2.2
  let ATr ← A.T.matmul x.2.2
  let delta ← L A (ATr.map fun x => -x) (Scal.lit 0) i
  let b ← x.1.manifoldRetract C ⟨delta, g.localLayout⟩
  let (c, r) ← g.computeCost b
  return (b, c, r)

theorem py_map_bind {α β γ : Type} (x : Py α) (f : α → Py β) (h : β → γ) :
    (x >>= f).map h = x >>= fun a => (f a).map h := by
  cases x <;> rfl

theorem fixedStep_core {C : Ty → VarClass S} {g : GraphOps S} (s : FixedIteration S) (p : State S) :
    (s.step C g p).map (fun q => q.1.core) = gnCore C g s.linear p.iterations p.core := by
  unfold FixedIteration.step gnCore State.core
  simp only [py_map_bind]
  rfl

/-- The loop on the part of the state that matters. -/
def coreLoop (C : Ty → VarClass S) (g : GraphOps S) (L : LinSolver S) : Nat → Nat → Assign S × S × List S →
    Py (Assign S × S × List S)
  | 0, _, x => .ok x
  | n + 1, i, x => gnCore C g L i x >>= coreLoop C g L n (i + 1)

theorem forLoop_core {C : Ty → VarClass S} {g : GraphOps S} (s : FixedIteration S) : ∀ (n : Nat) (p : State S),
    (forLoop (s.step C g) n p).map (fun q => q.1.core) = coreLoop C g s.linear n p.iterations p.core := by
  intro n
  induction n with
  | zero => intro p; rfl
  | succ n ih =>
    intro p
    unfold forLoop coreLoop
    rw [← fixedStep_core]
    cases h : s.step C g p with
    | error e => rfl
    | ok q =>
      obtain ⟨q, l⟩ := q
      have hi : q.iterations = p.iterations + 1 := ((fixed_counted s).next h).1
      simp only [py_bind_ok, Except.map, ← hi, ← ih]
      cases forLoop (s.step C g) n q <;> rfl

theorem coreLoop_counter {C : Ty → VarClass S} {g : GraphOps S} {L : LinSolver S} (hL : IgnoresCounter L) :
    ∀ (n i j : Nat) (x : Assign S × S × List S), coreLoop C g L n i x = coreLoop C g L n j x := by
  intro n
  induction n with
  | zero => intro i j x; rfl
  | succ n ih =>
    intro i j x
    unfold coreLoop
    have e : gnCore C g L i x = gnCore C g L j x := by
      unfold gnCore
      simp only [hL _ _ _ i j]
    rw [e]
    congr 1
    funext y
    exact ih _ _ y

theorem coreLoop_add {C : Ty → VarClass S} {g : GraphOps S} {L : LinSolver S} :
    ∀ (n m i : Nat) (x : Assign S × S × List S),
      coreLoop C g L (n + m) i x = coreLoop C g L n i x >>= coreLoop C g L m (i + n) := by
  intro n
  induction n with
  | zero => intro m i x; simp [coreLoop]
  | succ n ih =>
    intro m i x
    rw [Nat.add_right_comm]
    simp only [coreLoop]
    cases gnCore C g L i x with
    | error e => rfl
    | ok y =>
      simp only [py_bind_ok]
      rw [ih, Nat.add_right_comm, Nat.add_assoc]

/-- The loop, whichever way it is written, returns what `coreLoop` returns. -/
theorem fixedSolve_core {C : Ty → VarClass S} {g : GraphOps S} (s : FixedIteration S) {n fuel : Nat} (hs : s.iterations = n)
    (hn : s.unroll = true ∨ 1 ≤ n ∧ n ≤ fuel) (a : Assign S) :
    outcome (s.solve C g fuel a) = (g.computeCost a >>= fun x => coreLoop C g s.linear n 0 (a, x.1, x.2)).map (fun y => some y.1) := by
  unfold FixedIteration.solve outcome
  cases hc : g.computeCost a with
  | error e => rfl
  | ok x =>
    obtain ⟨c, r⟩ := x
    obtain ⟨st, hst⟩ : ∃ st : State S, st = { iterations := 0, assignments := a, cost := c, residual := r, done := false } := ⟨_, rfl⟩
    have hi : initState g a = .ok st := initState_ok.2 ⟨c, r, hc, hst⟩
    have hloop : (if s.unroll then (forLoop (s.step C g) s.iterations.toNat st).map some
        else whileLoop (fun s => s.done) (s.step C g) fuel st) = (forLoop (s.step C g) n st).map some := by
      rw [hs]
      cases hu : s.unroll with
      | true => simp
      | false =>
        rw [hu] at hn
        obtain ⟨h1, h2⟩ : 1 ≤ n ∧ n ≤ fuel := by simpa using hn
        obtain ⟨m, rfl⟩ : ∃ m, n = m + 1 := ⟨n - 1, by omega⟩
        simp only [Bool.false_eq_true, if_false]
        exact whileLoop_eq_forLoop s m fuel st (by rw [hst]) (by rw [hst, hs]; push_cast; simp) h2
    have hcore := forLoop_core (C := C) (g := g) s n st
    have e1 : st.iterations = 0 := by rw [hst]
    have e2 : st.core = (a, c, r) := by rw [hst]; rfl
    rw [e1, e2] at hcore
    simp only [py_bind_ok, hi, hloop]
    rw [← hcore]
    cases forLoop (s.step C g) n st <;> rfl

theorem gnCore_fresh {C : Ty → VarClass S} {g : GraphOps S} {L : LinSolver S} {i : Nat} {x y : Assign S × S × List S}
    (h : gnCore C g L i x = .ok y) : g.computeCost y.1 = .ok y.2 := by
  unfold gnCore at h
  simp only [py_bind_eq_ok, py_return_eq_ok, Prod.exists] at h
  obtain ⟨A, -, ATr, -, delta, -, b, -, c, r, h5, rfl⟩ := h
  exact h5

theorem coreLoop_fresh {C : Ty → VarClass S} {g : GraphOps S} {L : LinSolver S} :
    ∀ {n i : Nat} {x y : Assign S × S × List S}, g.computeCost x.1 = .ok x.2 → coreLoop C g L n i x = .ok y →
      g.computeCost y.1 = .ok y.2 := by
  intro n
  induction n with
  | zero => intro i x y hx h; simp only [coreLoop, Except.ok.injEq] at h; exact h ▸ hx
  | succ n ih =>
    intro i x y hx h
    unfold coreLoop at h
    rw [py_bind_eq_ok] at h
    obtain ⟨z, h1, h2⟩ := h
    exact ih (gnCore_fresh h1) h2

/-- The Gauss-Newton steps are the steps of the fixed-iteration solver. -/
theorem gn_core_runs {C : Ty → VarClass S} {g : GraphOps S} (s : GaussNewton S) {k : Nat} {st st' : State S} {log : List (Msg S)}
    (h : Runs (fun s => s.done) (s.step C g) k st st' log) :
    coreLoop C g s.linear k st.iterations st.core = .ok st'.core := by
  induction h with
  | refl => rfl
  | @step k s0 t u log l h1 h2 h3 ih =>
    have hi := (gn_counted (C := C) (g := g) s).runs (base := id) h1
    simp only [id] at hi
    rw [coreLoop_add, ih, py_bind_ok]
    obtain ⟨A, ATr, delta, b, c, r, conv, q1, q2, q3, q4, q5, q6, rfl, -⟩ := gnStep_ok.1 h3
    rw [hi] at q3
    unfold coreLoop gnCore
    simp only [State.core, q1, q2, q3, q4, q5, py_bind_ok]
    rfl

end Jaxfg
