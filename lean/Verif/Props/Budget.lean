/-
Properties C77 and C78: how the number of iterations that a solver may perform, or has to perform, affects what it returns. All
theorems hold for every scalar type and every implementation of the graph operations.
-/
import Verif.Lemmas.Budget
import Verif.Props.LocalRate

namespace Jaxfg.Props
open Ext (fin)
open Spec
variable {S : Type} [Scal S]

/-! ### C77: `max_iterations` -/

/-- **C77**, Gauss-Newton, states. Take an execution of `k` steps from an initial state, with at most as many steps as a second maximum
`N` allows. With the maximum `N` the solver goes through the same states and prints the same lines, except for the maximum that it
prints, and for the flag `done`, which is also switched on by the `N`-th step. (If `N` is larger than the first maximum, the execution
must not have reached the first one.) -/
theorem C77_gauss_newton (C : Ty → VarClass S) (g : GraphOps S) (s : GaussNewton S) (N : Int) {a : Assign S} {st st' : State S} {k : Nat}
    {log : List (Msg S)} (hi : initState g a = .ok st) (hr : Runs (fun s => s.done) (s.step C g) (k + 1) st st' log)
    (hk : (k + 1 : Int) ≤ max 1 N) (hN : N ≤ s.maxIterations ∨ (k + 1 : Int) < s.maxIterations) :
    Runs (fun s => s.done) ({ s with maxIterations := N }.step C g) (k + 1) st
      { st' with done := st'.done || decide (N ≤ k + 1) } (log.map (showMax N)) := by
  simpa using (gn_rebudget s N).runs (gn_counted s) (initState_fresh hi).2 hr (by simpa using hk) (by simpa using hN)

/-- **C77**, Levenberg-Marquardt, states. -/
theorem C77_levenberg_marquardt (C : Ty → VarClass S) (g : GraphOps S) (s : LevenbergMarquardt S) (N : Int) {a : Assign S}
    {st st' : LMState S} {k : Nat} {log : List (Msg S)} (hi : s.init g a = .ok st)
    (hr : Runs (fun s => s.done) (s.step C g) (k + 1) st st' log)
    (hk : (k + 1 : Int) ≤ max 1 N) (hN : N ≤ s.maxIterations ∨ (k + 1 : Int) < s.maxIterations) :
    Runs (fun s => s.done) ({ s with maxIterations := N }.step C g) (k + 1) st
      { st' with done := st'.done || decide (N ≤ k + 1) } (log.map (showMax N)) := by
  simpa using (lm_rebudget s N).runs (lm_counted s) (initState_fresh (lmInit_ok.1 hi).1).2 hr (by simpa using hk) (by simpa using hN)

/-- **C77**, dogleg, states. -/
theorem C77_dogleg (C : Ty → VarClass S) (g : GraphOps S) (s : Dogleg S) (N : Int) {a : Assign S}
    {st st' : DoglegState S} {k : Nat} {log : List (Msg S)} (hi : s.init g a = .ok st)
    (hr : Runs (fun s => s.done) (s.step C g) (k + 1) st st' log)
    (hk : (k + 1 : Int) ≤ max 1 N) (hN : N ≤ s.maxIterations ∨ (k + 1 : Int) < s.maxIterations) :
    Runs (fun s => s.done) ({ s with maxIterations := N }.step C g) (k + 1) st
      { st' with done := st'.done || decide (N ≤ k + 1) } (log.map (showMax N)) := by
  simpa using (dogleg_rebudget s N).runs (dogleg_counted s) (initState_fresh (doglegInit_ok.1 hi).1).2 hr (by simpa using hk)
    (by simpa using hN)

/-- **C77**, whole calls. A `solve` call that returned needed a number `k` of iterations. Lowering the maximum to anything that is at least
`k` does not change the result; nor does raising it, if `k` was below the maximum. -/
theorem C77_solve (C : Ty → VarClass S) (g : GraphOps S) (a : Assign S) {fuel : Nat} {out : Assign S} {log : List (Msg S)} :
    (∀ s : GaussNewton S, s.solve C g fuel a = .ok (some (out, log)) → ∃ k : Nat,
      Performs C g id (initState g) (s.step C g) a k ∧ 1 ≤ k ∧ (k : Int) ≤ max 1 s.maxIterations ∧
      ∀ N : Int, k ≤ N → N ≤ s.maxIterations ∨ k < s.maxIterations → ∀ fuel', k ≤ fuel' →
        { s with maxIterations := N }.solve C g fuel' a = .ok (some (out, log.map (showMax N)))) ∧
    (∀ s : LevenbergMarquardt S, s.solve C g fuel a = .ok (some (out, log)) → ∃ k : Nat,
      Performs C g LMState.toState (s.init g) (s.step C g) a k ∧ 1 ≤ k ∧ (k : Int) ≤ max 1 s.maxIterations ∧
      ∀ N : Int, k ≤ N → N ≤ s.maxIterations ∨ k < s.maxIterations → ∀ fuel', k ≤ fuel' →
        { s with maxIterations := N }.solve C g fuel' a = .ok (some (out, log.map (showMax N)))) ∧
    (∀ s : Dogleg S, s.solve C g fuel a = .ok (some (out, log)) → ∃ k : Nat,
      Performs C g DoglegState.toState (s.init g) (s.step C g) a k ∧ 1 ≤ k ∧ (k : Int) ≤ max 1 s.maxIterations ∧
      ∀ N : Int, k ≤ N → N ≤ s.maxIterations ∨ k < s.maxIterations → ∀ fuel', k ≤ fuel' →
        { s with maxIterations := N }.solve C g fuel' a = .ok (some (out, log.map (showMax N)))) := by
  refine ⟨fun s h => ?_, fun s h => ?_, fun s h => ?_⟩
  · obtain ⟨k, h0, h1, h2, h3⟩ := Rebudget.solve (setDone := fun b (p : State S) => { p with done := b }) (gn_counted s)
      (fun _ _ h => initState_fresh h) h
    exact ⟨k, h0, h1, h2, fun N hk hN => h3 N _ (gn_rebudget s N) hk hN⟩
  · obtain ⟨k, h0, h1, h2, h3⟩ := Rebudget.solve (setDone := fun b (p : LMState S) => { p with done := b }) (lm_counted s)
      (fun _ _ h => initState_fresh (lmInit_ok.1 h).1) h
    exact ⟨k, h0, h1, h2, fun N hk hN => h3 N _ (lm_rebudget s N) hk hN⟩
  · obtain ⟨k, h0, h1, h2, h3⟩ := Rebudget.solve (setDone := fun b (p : DoglegState S) => { p with done := b }) (dogleg_counted s)
      (fun _ _ h => initState_fresh (doglegInit_ok.1 h).1) h
    exact ⟨k, h0, h1, h2, fun N hk hN => h3 N _ (dogleg_rebudget s N) hk hN⟩

/-! ### C78: a fixed number of iterations -/

/-- **C78**, composition. If the linear solver does not look at the iteration counter: solving with `n` iterations and continuing from the
result with `m` iterations has the same outcome (result or exception) as solving with `n + m` iterations, whether the loops are unrolled
or not. -/
theorem C78_compose (C : Ty → VarClass S) (g : GraphOps S) (a : Assign S) {L : LinSolver S} (hL : IgnoresCounter L) {n m : Nat}
    (hn : 1 ≤ n) (hm : 1 ≤ m) (v₁ v₂ v₃ u₁ u₂ u₃ : Bool) {f₁ f₂ f₃ : Nat} (h₁ : n ≤ f₁) (h₂ : m ≤ f₂) (h₃ : n + m ≤ f₃) :
    outcome ((⟨v₃, L, u₃, n + m⟩ : FixedIteration S).solve C g f₃ a) =
      (do
        match ← outcome ((⟨v₁, L, u₁, n⟩ : FixedIteration S).solve C g f₁ a) with
        | none => return none
        | some b => outcome ((⟨v₂, L, u₂, m⟩ : FixedIteration S).solve C g f₂ b)) := by
  rw [fixedSolve_core (n := n + m) _ (by simp) (.inr ⟨by omega, h₃⟩), fixedSolve_core (n := n) _ rfl (.inr ⟨hn, h₁⟩)]
  have e : ∀ b, outcome ((⟨v₂, L, u₂, m⟩ : FixedIteration S).solve C g f₂ b) =
      (g.computeCost b >>= fun x => coreLoop C g L m 0 (b, x.1, x.2)).map (fun y => some y.1) := fun b =>
    fixedSolve_core (n := m) ⟨v₂, L, u₂, m⟩ rfl (.inr ⟨hm, h₂⟩) b
  simp only [e]
  cases hc : g.computeCost a with
  | error e => rfl
  | ok x =>
    simp only [py_bind_ok]
    rw [coreLoop_add]
    cases h1 : coreLoop C g L n 0 (a, x.1, x.2) with
    | error e => rfl
    | ok y =>
      have hf := coreLoop_fresh hc h1
      simp only [py_bind_ok, Except.map, hf]
      rw [coreLoop_counter hL m (0 + n) 0]

/-- **C78**, the linear solvers to which `C78_compose` applies: CHOLMOD (the solver that keeps its analysis, called with any fixed cache)
and `ConjugateGradientSolver`. -/
theorem C78_solvers (stale : Pattern → ScipyCoo ℝ → ℝ → List ℝ → Py (List ℝ)) (cache : CholmodCache) (addr : Nat) (tol : ℝ) :
    IgnoresCounter (LinSolver.lift fun A b l _ => (cholmodSolve stale cache addr A b l).1) ∧
      IgnoresCounter (LinSolver.lift fun A b l i => cgSolve A b l (cgTolerance tol i)) :=
  ⟨fun _ _ _ _ _ => rfl, fun _ _ _ _ _ => rfl⟩

/-- **C78**, agreement. A Gauss-Newton solve that returned, performed a number `k` of iterations; the fixed-iteration solver with that number
of iterations, started at the same point (in the graph's storage order), returns the same result, whatever the convergence criteria
were. -/
theorem C78_gauss_newton (C : Ty → VarClass S) (g : GraphOps S) (s : GaussNewton S) {a b : Assign S}
    (hb : a.updateStorageLayout C g.layout = .ok b) {fuel : Nat} {out : Assign S} {log : List (Msg S)}
    (h : s.solve C g fuel a = .ok (some (out, log))) :
    ∃ k : Nat, Performs C g id (initState g) (s.step C g) a k ∧ 1 ≤ k ∧ (k : Int) ≤ max 1 s.maxIterations ∧ ∀ (v u : Bool) (fuel' : Nat), k ≤ fuel' →
      ∃ o, outcome ((⟨v, s.linear, u, k⟩ : FixedIteration S).solve C g fuel' b) = .ok (some o) ∧
        o.updateStorageLayout C a.layout = .ok out := by
  obtain ⟨b', st, st', l, h1, h2, h3, h4, -⟩ := baseSolve_some.1 h
  rw [hb] at h1
  cases Except.ok.inj h1
  obtain ⟨j, hj, hr, hd⟩ := runs_of_whileLoop h3
  obtain ⟨hd0, hi0⟩ := initState_fresh h2
  have hj1 : 1 ≤ j := by
    rcases Nat.eq_zero_or_pos j with rfl | hp
    · cases hr; simp only [id] at hd; rw [hd0] at hd; cases hd
    · exact hp
  have hjM : (j : Int) ≤ max 1 s.maxIterations := by
    have hc := gn_counted (C := C) (g := g) s
    cases hr with
    | refl => omega
    | @step j _ t _ _ _ r1 r2 r3 =>
      cases r1 with
      | refl => simp
      | @step i _ t' _ _ _ q1 q2 q3 =>
        have e' := hc.runs (base := id) q1
        simp only [id] at e'
        rw [hi0, Nat.zero_add] at e'
        have := (hc.next q3).2
        by_contra hlt
        have hM : ((id t').iterations : Int) ≥ s.maxIterations - 1 := by simp only [id]; rw [e']; push_cast at hlt ⊢; omega
        rw [this hM] at r2
        cases r2
  obtain ⟨c, r, hc, hst⟩ := initState_ok.1 h2
  have hcore := gn_core_runs s hr
  rw [hi0] at hcore
  have e2 : st.core = (b, c, r) := by rw [hst]; rfl
  rw [e2] at hcore
  refine ⟨j, ⟨b, st, st', l, hb, h2, hr, hd⟩, hj1, hjM, fun v u fuel' hf => ⟨st'.assignments, ?_, h4⟩⟩
  rw [fixedSolve_core (n := j) _ rfl (.inr ⟨hj1, hf⟩), hc]
  simp only [py_bind_ok, hcore]
  rfl

/-! ### Examples -/

namespace Poly1
open Jaxfg.Poly

/-- One Gauss-Newton step on the example, for a linear solver that returns `d`. -/
theorem gnCore_eq {L : LinSolver ℝ} {p q s v r d : ℝ} {i : Nat}
    (hd : L ⟨[q + 2 * s * v], [0], [0], (1, 1)⟩ [-((q + 2 * s * v) * r)] 0 i = .ok [d]) (c : ℝ) :
    gnCore CE (gE p q s) L.lift i ((at_ v).map fin, fin c, [fin r]) =
      .ok ((at_ (v + d)).map fin, fin ((p + q * (v + d) + s * (v + d) ^ 2) ^ 2), [fin (p + q * (v + d) + s * (v + d) ^ 2)]) := by
  have := fixedStep_core (C := CE) (g := gE p q s) ⟨false, L.lift, true, 1⟩ (State.map fin ⟨i, at_ v, c, [r], false⟩)
  have h1 : (⟨false, L.lift, true, 1⟩ : FixedIteration Ext).step CE (gE p q s) (State.map fin ⟨i, at_ v, c, [r], false⟩) = .ok (_, _) :=
    (fixedStep_fin (lifts p q s) (L := L) (liftsSolver_lift L)).2 ⟨_, _, [d], at_ (v + d), _, _, Jaxfg.Poly.jac_eq p q s v r,
      matmul_T_eq _ _, hd, retract_eq v d, Jaxfg.Poly.cost_eq p q s (v + d), rfl, rfl⟩
  rw [h1] at this
  exact this.symm

/-- Conjugate gradient on one equation `x = b`. -/
theorem cgSolve_one (b tol : ℝ) :
    (1 ≤ tol → cgSolve ⟨[1], [0], [0], (1, 1)⟩ [b] 0 tol = .ok [0]) ∧
      (0 ≤ tol → tol < 1 → cgSolve ⟨[1], [0], [0], (1, 1)⟩ [b] 0 tol = .ok [b]) := by
  have hop : ∀ y : ℝ, ataFunction ⟨[1], [0], [0], (1, 1)⟩ (ataDiagonals ⟨[1], [0], [0], (1, 1)⟩ 1) 0 [y] = .ok [y] := by
    intro y
    unfold ataFunction
    rw [matmul_eq]
    simp only [py_bind_ok, matmul_T_eq]
    simp [ataDiagonals, scatterAdd]
  have hM : ∀ y : ℝ, jacobiPreconditioner (ataDiagonals ⟨[1], [0], [0], (1, 1)⟩ 1) [y] = [y] := by
    intro y
    simp [jacobiPreconditioner, ataDiagonals, scatterAdd]
  unfold cgSolve cg
  simp only [List.length_singleton, List.replicate_one, hop, py_bind_ok]
  simp only [List.zipWith_cons_cons, List.zipWith_nil_left, sub_zero, hM, vdot, List.sum_cons, List.sum_nil, add_zero]
  constructor
  · intro h
    have : ¬ max (tol ^ 2 * (b * b)) 0 < b * b := by
      rw [not_lt]
      refine le_trans ?_ (le_max_left _ _)
      have h1 : 1 ≤ tol ^ 2 := one_le_pow₀ h
      nlinarith [mul_self_nonneg b]
    unfold cgLoop
    simp [vdot, this]
  · intro h0 h
    unfold cgLoop
    by_cases hb : b = 0
    · subst hb
      simp [vdot]
    · have hpos : 0 < b * b := mul_self_pos.2 hb
      have : max (tol ^ 2 * (b * b)) 0 < b * b := by
        refine max_lt ?_ hpos
        have h1 : tol ^ 2 < 1 := pow_lt_one₀ h0 h (by norm_num)
        nlinarith
      simp only [vdot, List.zipWith_cons_cons, List.zipWith_nil_left, List.sum_cons, List.sum_nil, add_zero, this, if_true, cgBody, hop,
        py_bind_ok, cgLoop]
      simp [hb]

end Poly1

/-- **C78** is false for `InexactStepConjugateGradientSolver`, which looks at the iteration counter: for the residual `1 + x` and
`inexact_step_eta = 2`, three iterations from zero reach the minimum at `-1`; one iteration followed by two more does not move. -/
theorem C78_inexact (v u : Bool) {fuel : Nat} (hf : 3 ≤ fuel) :
    ∃ fs G, Graph.make Ex.C fs = .ok G ∧ (∀ f ∈ fs, FactorWF Poly.F Ex.C f) ∧
      ∃ L : LinSolver Ext, LiftsSolver L (fun A b l i => cgSolve A b l (inexactTolerance 2 i)) ∧
      ∃ CE gE, Lifts CE gE Ex.C (G.ops Poly.F Ex.C) ∧ ∃ a b : Assign Ext, a ≠ b ∧
        outcome ((⟨v, L, u, 3⟩ : FixedIteration Ext).solve CE gE fuel a) = .ok (some b) ∧
        outcome ((⟨v, L, u, 1⟩ : FixedIteration Ext).solve CE gE fuel a) = .ok (some a) ∧
        outcome ((⟨v, L, u, 2⟩ : FixedIteration Ext).solve CE gE fuel a) = .ok (some a) := by
  obtain ⟨L, hL⟩ : ∃ L : LinSolver ℝ, L = fun A b l i => cgSolve A b l (inexactTolerance 2 i) := ⟨_, rfl⟩
  have k0 : ∀ b, L ⟨[1], [0], [0], (1, 1)⟩ [b] 0 0 = .ok [0] := fun b => by
    rw [hL]; exact (Poly1.cgSolve_one b _).1 (by norm_num [inexactTolerance])
  have k1 : ∀ b, L ⟨[1], [0], [0], (1, 1)⟩ [b] 0 1 = .ok [0] := fun b => by
    rw [hL]; exact (Poly1.cgSolve_one b _).1 (by norm_num [inexactTolerance])
  have k2 : ∀ b, L ⟨[1], [0], [0], (1, 1)⟩ [b] 0 2 = .ok [b] := fun b => by
    rw [hL]; exact (Poly1.cgSolve_one b _).2 (by norm_num [inexactTolerance]) (by norm_num [inexactTolerance])
  have hj : (1 : ℝ) + 2 * 0 * 0 = 1 := by norm_num
  have s0 : ∀ i, (∀ b, L ⟨[1], [0], [0], (1, 1)⟩ [b] 0 i = .ok [0]) →
      gnCore Poly1.CE (Poly1.gE 1 1 0) L.lift i ((Poly.at_ 0).map fin, fin 1, [fin 1]) =
        .ok ((Poly.at_ 0).map fin, fin 1, [fin 1]) := by
    intro i hi
    have := Poly1.gnCore_eq (L := L) (p := 1) (q := 1) (s := 0) (v := 0) (r := 1) (d := 0) (i := i) (by rw [hj]; exact hi _) 1
    norm_num at this
    exact this
  have s2 := Poly1.gnCore_eq (L := L) (p := 1) (q := 1) (s := 0) (v := 0) (r := 1) (d := -1) (i := 2) (by rw [hj, k2]; norm_num) 1
  have hc : (Poly1.gE 1 1 0).computeCost ((Poly.at_ 0).map fin) = .ok (fin 1, [fin 1]) := by
    rw [(Poly1.lifts 1 1 0).cost, Poly.cost_eq]
    norm_num [Except.map]
  refine ⟨[Poly.f 1 1 0], Poly.g 1 1 0, Poly.make_eq 1 1 0, by simpa using Poly.f_wf 1 1 0, L.lift, by rw [← hL]; exact liftsSolver_lift L,
    Poly1.CE, Poly1.gE 1 1 0, Poly1.lifts 1 1 0, (Poly.at_ 0).map fin, (Poly.at_ (0 + -1)).map fin, ?_, ?_, ?_, ?_⟩
  · intro h
    have := congrArg Assign.storage h
    simp [Assign.map, Poly.at_] at this
  · rw [fixedSolve_core (n := 3) _ rfl (.inr ⟨by omega, hf⟩), hc]
    simp only [py_bind_ok, coreLoop, s0 0 k0, s0 (0 + 1) k1, s2]
    rfl
  · rw [fixedSolve_core (n := 1) _ rfl (.inr ⟨by omega, by omega⟩), hc]
    simp only [py_bind_ok, coreLoop, s0 0 k0]
    rfl
  · rw [fixedSolve_core (n := 2) _ rfl (.inr ⟨by omega, by omega⟩), hc]
    simp only [py_bind_ok, coreLoop, s0 0 k0, s0 (0 + 1) k1]
    rfl

/-- The hypotheses of `C77_solve` and `C78_gauss_newton` can be met: with CHOLMOD and any settings, Gauss-Newton returns on `x² - 2`, so
there is a number `k` of iterations after which a fixed number of iterations gives the same result. -/
example (stale : Pattern → ScipyCoo ℝ → ℝ → List ℝ → Py (List ℝ)) (addr : Nat) (s : GaussNewton ℝ) (hs : s.linear = Poly.chol stale addr)
    (w : ℝ) : ∃ (o : Assign Ext) (k : Nat), 1 ≤ k ∧ (k : Int) ≤ max 1 s.maxIterations ∧ ∀ (v u : Bool) (fuel : Nat), k ≤ fuel →
      outcome ((⟨v, LinSolver.lift (Poly.chol stale addr), u, k⟩ : FixedIteration Ext).solve Poly1.CE (Poly1.gE (-2) 0 1) fuel
        ((Poly.at_ w).map fin)) = .ok (some o) := by
  obtain ⟨G, hG, hret⟩ := C72_solve_returns Poly.F Ex.C Ex.good [Poly.f (-2) 0 1] (by simp) (by simpa using Poly.f_wf (-2) 0 1)
    (fun f _ v _ => by rw [Ex.paramDim]; exact Nat.succ_pos _)
  rw [Poly.make_eq] at hG
  cases Except.ok.inj hG
  obtain ⟨G, hG, htot⟩ := C72_cholmod Poly.F Ex.C Ex.good [Poly.f (-2) 0 1] (by simp) (by simpa using Poly.f_wf (-2) 0 1) stale addr
  rw [Poly.make_eq] at hG
  cases Except.ok.inj hG
  obtain ⟨o, log, h1, h2, h3⟩ := (hret _ _ (Poly1.lifts (-2) 0 1) [Ex.x] (Poly.at_ w) (Poly.at_assignment w) rfl
    (fun v => by simp [Poly.f])).1 s.lift s (liftsGN_lift s) (by rw [hs]; exact htot)
  have hb : ((Poly.at_ w).map fin).updateStorageLayout Poly1.CE (Poly1.gE (-2) 0 1).layout = .ok ((Poly.at_ w).map fin) := rfl
  obtain ⟨k, -, k1, k2, k3⟩ := C78_gauss_newton _ _ s.lift hb (h3 _ (Int.self_le_toNat _))
  obtain ⟨p, hp, -⟩ := k3 true true k le_rfl
  have hlin : s.lift.linear = LinSolver.lift (Poly.chol stale addr) := by rw [← hs]; rfl
  refine ⟨p, k, k1, k2, fun v u fuel hf => ?_⟩
  obtain ⟨p', hp', -⟩ := k3 v u fuel hf
  rw [hlin] at hp hp'
  rw [fixedSolve_core (n := k) _ rfl (.inr ⟨k1, hf⟩)]
  rw [fixedSolve_core (n := k) _ rfl (.inr ⟨k1, le_rfl⟩)] at hp
  exact hp

end Jaxfg.Props
