/- C111: costs that are NaN or infinite, in the two damped solvers. -/
import Verif.Lemmas.ExampleFlat
import Verif.Lemmas.ZeroColumn
import Verif.Props.ZeroColumn
import Verif.Props.Solver

namespace Jaxfg.Props
open Spec
open Ext (fin nan pinf ninf)

/-! ### The step quality -/

/-- Not a real number. -/
def NotFinite (x : Ext) : Prop := ∀ y, x ≠ fin y

theorem quality_not_finite {c : Ext} (hc : NotFinite c) (x y : Ext) : (x - c) / (y - c) = nan := by
  cases c with
  | fin z => exact absurd rfl (hc z)
  | pinf => cases x <;> cases y <;> rfl
  | ninf => cases x <;> cases y <;> rfl
  | nan => cases x <;> cases y <;> rfl

theorem quality_nan (c y : Ext) : (nan - c) / (y - c) = nan := by rw [nan_sub, nan_div]

theorem stepQuality_of {A : Coo Ext} {co : Ext} {p : State Ext} {d : List Ext} {q : Ext} (h : stepQuality A co p d = .ok q) :
    ∃ y, q = (co - p.cost) / (y - p.cost) := by
  unfold stepQuality at h
  simp only [py_bind_eq_ok, py_return_eq_ok] at h
  obtain ⟨As, -, v, -, rfl⟩ := h
  exact ⟨_, rfl⟩

variable {C : Ty → VarClass Ext} {g : GraphOps Ext}

/-- A Levenberg-Marquardt step from a cost that is not finite, or to a cost that is NaN, is rejected. -/
theorem lm_rejects {s : LevenbergMarquardt Ext} {p p' : LMState Ext} {l : List (Msg Ext)} (h : s.step C g p = .ok (p', l)) :
    (NotFinite p.cost → p'.assignments = p.assignments ∧ p'.cost = p.cost ∧ p'.done = s.exceeded p.toState) ∧
    (p'.cost = nan → p.cost = nan) := by
  obtain ⟨A, ATb, delta, b, c, r, q, conv, -, -, -, -, -, hq, -, rfl, -⟩ := lmStep_ok.1 h
  obtain ⟨y, rfl⟩ := stepQuality_of hq
  constructor
  · intro hc
    have hc' : NotFinite p.toState.cost := hc
    rw [quality_not_finite hc', le_nan]
    exact ⟨rfl, rfl, by simp [lmNext]⟩
  · intro hn
    unfold lmNext at hn
    simp only at hn
    split at hn
    · subst hn
      rename_i ha
      rw [quality_nan, le_nan] at ha
      exact absurd ha (by simp)
    · exact hn

theorem dogleg_rejects {s : Dogleg Ext} {p p' : DoglegState Ext} {l : List (Msg Ext)} (h : s.step C g p = .ok (p', l)) :
    (NotFinite p.cost → p'.assignments = p.assignments ∧ p'.cost = p.cost ∧ p'.done = s.exceeded p.toState) ∧
    (p'.cost = nan → p.cost = nan) := by
  obtain ⟨A, ATb, gn, delta, b, c, r, q, conv, -, -, -, -, -, -, hq, -, rfl, -⟩ := doglegSolverStep_ok.1 h
  obtain ⟨y, rfl⟩ := stepQuality_of hq
  constructor
  · intro hc
    have hc' : NotFinite p.toState.cost := hc
    rw [quality_not_finite hc', le_nan]
    exact ⟨rfl, rfl, by simp [doglegNext]⟩
  · intro hn
    unfold doglegNext at hn
    simp only at hn
    split at hn
    · subst hn
      rename_i ha
      rw [quality_nan, le_nan] at ha
      exact absurd ha (by simp)
    · exact hn

/-- A loop all of whose steps leave the assignments and the cost, and only stop when the iterations are used up. -/
theorem stuck_runs {σ : Type} {base : σ → State Ext} {step : σ → Py (σ × List (Msg Ext))} {N : Int} {P : σ → Prop} {b : Assign Ext}
    {c : Ext} (hstep : ∀ s s' l, P s → (base s).assignments = b → (base s).cost = c → step s = .ok (s', l) → P s' ∧
      (base s').assignments = b ∧ (base s').cost = c ∧ (base s').iterations = (base s).iterations + 1 ∧
      (base s').done = decide (((base s).iterations : Int) ≥ N - 1) ∧ ∀ m ∈ l, ShowsCost c m)
    {k : Nat} {s t : σ} {log : List (Msg Ext)} (h : Runs (fun s => (base s).done) step k s t log) (h0 : P s)
    (h1 : (base s).assignments = b) (h2 : (base s).cost = c) (h3 : (base s).iterations = 0) (h4 : (base s).done = false) :
    P t ∧ (base t).assignments = b ∧ (base t).cost = c ∧ (base t).iterations = k ∧
      ((base t).done = true → (k : Int) = max 1 N) ∧ ∀ m ∈ log, ShowsCost c m := by
  suffices H : P t ∧ (base t).assignments = b ∧ (base t).cost = c ∧ (base t).iterations = k ∧
      ((base t).done = true ↔ 1 ≤ k ∧ N ≤ k) ∧ (k : Int) ≤ max 1 N ∧ ∀ m ∈ log, ShowsCost c m by
    obtain ⟨i0, i1, i2, i3, i4, i5, i6⟩ := H
    refine ⟨i0, i1, i2, i3, fun hd => ?_, i6⟩
    have := i4.1 hd
    omega
  induction h with
  | refl s => exact ⟨h0, h1, h2, h3, by simp [h4], by omega, by simp⟩
  | @step k s t u log l r1 r2 r3 ih =>
    obtain ⟨i0, i1, i2, i3, i4, i5, i6⟩ := ih h0 h1 h2 h3 h4
    obtain ⟨j0, j1, j2, j3, j4, j5⟩ := hstep t u l i0 i1 i2 r3
    have hnd : ¬ (1 ≤ k ∧ N ≤ k) := fun hh => by
      have := i4.2 hh
      rw [this] at r2; simp at r2
    refine ⟨j0, j1, j2, by omega, ?_, by omega, ?_⟩
    · rw [j4, i3]
      simp only [decide_eq_true_eq]
      constructor <;> intro <;> omega
    · intro m hm
      rcases List.mem_append.1 hm with hm | hm
      · exact i6 m hm
      · exact j5 m hm

/-! ### From a cost that is not finite -/

/-- **C111**, Levenberg-Marquardt. From initial assignments whose cost is NaN or infinite the solver never moves: the step quality is
NaN, whatever is proposed. It uses up its iterations and returns the initial assignments, for every graph, linear solver and setting. -/
theorem C111_stuck_levenberg_marquardt (s : LevenbergMarquardt Ext) {a b out : Assign Ext} {log : List (Msg Ext)} {fuel : Nat} {c : Ext}
    {r : List Ext} (hb : a.updateStorageLayout C g.layout = .ok b) (hc : g.computeCost b = .ok (c, r)) (hn : NotFinite c)
    (h : s.solve C g fuel a = .ok (some (out, log))) :
    b.updateStorageLayout C a.layout = .ok out ∧
      ∃ l, log = l ++ hcbPrint s.verbose (.terminated (max 1 s.maxIterations).toNat c) ∧ ∀ m ∈ l, ShowsCost c m := by
  obtain ⟨b', st, st', l, h1, h2, h3, h4, h5⟩ := baseSolve_some.1 h
  obtain rfl : b = b' := by rw [hb] at h1; exact Except.ok.inj h1
  obtain ⟨k, -, hk, hd⟩ := runs_of_whileLoop h3
  obtain ⟨i1, i2⟩ := lmInit_ok.1 h2
  obtain ⟨c', r', e1, e2⟩ := initState_ok.1 i1
  rw [hc] at e1
  simp only [Except.ok.injEq, Prod.mk.injEq] at e1
  obtain ⟨rfl, rfl⟩ := e1
  obtain ⟨-, j1, j2, j3, j4, j5⟩ := stuck_runs (base := LMState.toState) (P := fun _ => True) (N := s.maxIterations) (b := b) (c := c)
    (by
      intro p p' l' _ q1 q2 q3
      obtain ⟨w1, w2, w3⟩ := (lm_rejects q3).1 (by show NotFinite p.toState.cost; rw [q2]; exact hn)
      obtain ⟨_, _, _, _, _, _, _, _, _, _, _, _, _, _, _, w4, w5⟩ := lmStep_ok.1 q3
      refine ⟨trivial, w1.trans q1, w2.trans q2, by rw [w4]; rfl, w3, ?_⟩
      rw [w5]; exact showsCost_print q2) hk trivial (by rw [e2]) (by rw [e2]) (by rw [e2]) (by rw [e2])
  rw [j1] at h4
  refine ⟨h4, l, ?_, j5⟩
  have := j4 hd
  rw [h5, j2, j3, show k = (max 1 s.maxIterations).toNat by omega]

/-- **C111**, dogleg: the same. -/
theorem C111_stuck_dogleg (s : Dogleg Ext) {a b out : Assign Ext} {log : List (Msg Ext)} {fuel : Nat} {c : Ext}
    {r : List Ext} (hb : a.updateStorageLayout C g.layout = .ok b) (hc : g.computeCost b = .ok (c, r)) (hn : NotFinite c)
    (h : s.solve C g fuel a = .ok (some (out, log))) :
    b.updateStorageLayout C a.layout = .ok out ∧
      ∃ l, log = l ++ hcbPrint s.verbose (.terminated (max 1 s.maxIterations).toNat c) ∧ ∀ m ∈ l, ShowsCost c m := by
  obtain ⟨b', st, st', l, h1, h2, h3, h4, h5⟩ := baseSolve_some.1 h
  obtain rfl : b = b' := by rw [hb] at h1; exact Except.ok.inj h1
  obtain ⟨k, -, hk, hd⟩ := runs_of_whileLoop h3
  obtain ⟨i1, i2⟩ := doglegInit_ok.1 h2
  obtain ⟨c', r', e1, e2⟩ := initState_ok.1 i1
  rw [hc] at e1
  simp only [Except.ok.injEq, Prod.mk.injEq] at e1
  obtain ⟨rfl, rfl⟩ := e1
  obtain ⟨-, j1, j2, j3, j4, j5⟩ := stuck_runs (base := DoglegState.toState) (P := fun _ => True) (N := s.maxIterations) (b := b) (c := c)
    (by
      intro p p' l' _ q1 q2 q3
      obtain ⟨w1, w2, w3⟩ := (dogleg_rejects q3).1 (by show NotFinite p.toState.cost; rw [q2]; exact hn)
      obtain ⟨_, _, _, _, _, _, _, _, _, _, _, _, _, _, _, _, _, w4, w5⟩ := doglegSolverStep_ok.1 q3
      refine ⟨trivial, w1.trans q1, w2.trans q2, by rw [w4]; rfl, w3, ?_⟩
      rw [w5]; exact showsCost_print q2) hk trivial (by rw [e2]) (by rw [e2]) (by rw [e2]) (by rw [e2])
  rw [j1] at h4
  refine ⟨h4, l, ?_, j5⟩
  have := j4 hd
  rw [h5, j2, j3, show k = (max 1 s.maxIterations).toNat by omega]

/-! ### From a cost that is not NaN -/

/-- **C111**, Levenberg-Marquardt. If the cost of the initial assignments is not NaN, neither is that of the returned ones, however
often a proposal has the cost NaN: such proposals are rejected. -/
theorem C111_never_nan_levenberg_marquardt (s : LevenbergMarquardt Ext) {a b out : Assign Ext} {log : List (Msg Ext)} {fuel : Nat}
    {c : Ext} {r : List Ext} (hb : a.updateStorageLayout C g.layout = .ok b) (hc : g.computeCost b = .ok (c, r)) (hn : c ≠ nan)
    (h : s.solve C g fuel a = .ok (some (out, log))) :
    ∃ f c' r', f.updateStorageLayout C a.layout = .ok out ∧ g.computeCost f = .ok (c', r') ∧ c' ≠ nan := by
  obtain ⟨b', st, st', l, h1, h2, h3, h4, h5⟩ := baseSolve_some.1 h
  obtain rfl : b = b' := by rw [hb] at h1; exact Except.ok.inj h1
  obtain ⟨k, -, hk, hd⟩ := runs_of_whileLoop h3
  obtain ⟨r', hr'⟩ := C41_levenberg_marquardt s h2 hk
  refine ⟨_, _, r', h4, hr', ?_⟩
  refine hk.invariant (P := fun p => p.cost ≠ nan) (fun p p' l' hp hs he => hp ((lm_rejects hs).2 he)) ?_
  obtain ⟨c', r', e1, e2⟩ := initState_ok.1 (lmInit_ok.1 h2).1
  rw [hc] at e1
  simp only [Except.ok.injEq, Prod.mk.injEq] at e1
  rw [e2, ← e1.1]; exact hn

/-- **C111**, dogleg: the same. -/
theorem C111_never_nan_dogleg (s : Dogleg Ext) {a b out : Assign Ext} {log : List (Msg Ext)} {fuel : Nat}
    {c : Ext} {r : List Ext} (hb : a.updateStorageLayout C g.layout = .ok b) (hc : g.computeCost b = .ok (c, r)) (hn : c ≠ nan)
    (h : s.solve C g fuel a = .ok (some (out, log))) :
    ∃ f c' r', f.updateStorageLayout C a.layout = .ok out ∧ g.computeCost f = .ok (c', r') ∧ c' ≠ nan := by
  obtain ⟨b', st, st', l, h1, h2, h3, h4, h5⟩ := baseSolve_some.1 h
  obtain rfl : b = b' := by rw [hb] at h1; exact Except.ok.inj h1
  obtain ⟨k, -, hk, hd⟩ := runs_of_whileLoop h3
  obtain ⟨r', hr'⟩ := C41_dogleg s h2 hk
  refine ⟨_, _, r', h4, hr', ?_⟩
  refine hk.invariant (P := fun p => p.cost ≠ nan) (fun p p' l' hp hs he => hp ((dogleg_rejects hs).2 he)) ?_
  obtain ⟨c', r', e1, e2⟩ := initState_ok.1 (doglegInit_ok.1 h2).1
  rw [hc] at e1
  simp only [Except.ok.injEq, Prod.mk.injEq] at e1
  rw [e2, ← e1.1]; exact hn

/-! ### After a proposal whose cost is NaN -/

/-- **C111**, Levenberg-Marquardt, after a proposal whose residual is NaN, with linear solvers through which NaN passes. The solver
keeps the residual of the rejected proposal. If the steps computed from such residuals (`bad`) lead to the cost NaN and to such residuals
again, whatever the damping, nothing is accepted any more: the remaining iterations leave the assignments as they are. -/
theorem C111_frozen_levenberg_marquardt (s : LevenbergMarquardt Ext) {p p' : LMState Ext} {k : Nat} {log : List (Msg Ext)}
    {bad : List Ext → Prop} (hbad : bad p.residual)
    (hprop : ∀ r A ATb l i d b c r', bad r → g.jacobian p.assignments r = .ok A → A.T.matmul (r.map (- ·)) = .ok ATb →
      s.linear A ATb l i = .ok d → p.assignments.manifoldRetract C ⟨d, g.localLayout⟩ = .ok b → g.computeCost b = .ok (c, r') →
      c = nan ∧ bad r')
    (h : Runs (fun s => s.done) (s.step C g) k p p' log) :
    p'.assignments = p.assignments ∧ p'.cost = p.cost ∧ bad p'.residual := by
  refine h.invariant (P := fun p' => p'.assignments = p.assignments ∧ p'.cost = p.cost ∧ bad p'.residual) ?_ ⟨rfl, rfl, hbad⟩
  rintro q q' l ⟨h1, h2, h3⟩ hq
  obtain ⟨A, ATb, delta, b, c, r, qual, conv, e1, e2, e3, e4, e5, e6, -, rfl, -⟩ := lmStep_ok.1 hq
  rw [h1] at e1 e4
  obtain ⟨rfl, hb⟩ := hprop _ _ _ _ _ _ _ _ _ h3 e1 e2 e3 e4 e5
  obtain ⟨y, rfl⟩ := stepQuality_of e6
  rw [quality_nan, le_nan]
  exact ⟨h1, h2, hb⟩

/-- **C111**, dogleg. A proposal whose cost is NaN leaves the assignments, the cost and the radius: the trust region is not made
smaller, since comparisons with NaN are false. -/
theorem C111_radius (s : Dogleg Ext) {p p' : DoglegState Ext} {l : List (Msg Ext)} (h : s.step C g p = .ok (p', l))
    {A : Coo Ext} {ATb gn d : List Ext} {b : Assign Ext} {r : List Ext} (h1 : g.jacobian p.assignments p.residual = .ok A)
    (h2 : A.T.matmul (p.residual.map (- ·)) = .ok ATb) (h3 : s.linear A ATb (fin 0) p.iterations = .ok gn)
    (h4 : doglegStep A ATb gn p.radius = .ok d) (h5 : p.assignments.manifoldRetract C ⟨d, g.localLayout⟩ = .ok b)
    (h6 : g.computeCost b = .ok (nan, r)) :
    p'.assignments = p.assignments ∧ p'.cost = p.cost ∧ p'.radius = p.radius ∧ p'.residual = r := by
  obtain ⟨A', ATb', gn', delta, b', c, r', qual, conv, e1, e2, e3, e4, e5, e6, e7, -, rfl, -⟩ := doglegSolverStep_ok.1 h
  rw [h1] at e1; cases Except.ok.inj e1
  have e2' := h2.symm.trans e2; cases Except.ok.inj e2'
  rw [fin_lit_zero] at e3
  have e3' := h3.symm.trans e3; cases Except.ok.inj e3'
  rw [h4] at e4; cases Except.ok.inj e4
  rw [h5] at e5; cases Except.ok.inj e5
  rw [h6] at e6; cases Except.ok.inj e6
  obtain ⟨y, rfl⟩ := stepQuality_of e7
  rw [quality_nan, le_nan]
  refine ⟨rfl, rfl, ?_, rfl⟩
  simp [doglegNext, doglegRadius, nan_lt, lt_nan]

/-- **C111**, Levenberg-Marquardt with conjugate gradients. Here the residual of a rejected proposal does no harm if it is NaN: the
linear solver then answers with a step of zeros, and the next iteration starts from the residual of the assignments and more damping. -/
theorem C111_recovers {s : LevenbergMarquardt Ext} {p p' : LMState Ext} {l : List (Msg Ext)} {tol : Nat → Ext}
    (hlin : s.linear = cgLinear tol) (h : s.step C g p = .ok (p', l)) {A : Coo Ext} (h1 : g.jacobian p.assignments p.residual = .ok A)
    (hA : CooWF A) {ATb : List Ext} (h2 : A.T.matmul (p.residual.map (- ·)) = .ok ATb) (hl : ATb.length = A.shape.2) (hn : nan ∈ ATb)
    (hr : nan ∈ p.residual) (hrl : p.residual.length = A.shape.1)
    (hz : p.assignments.manifoldRetract C ⟨List.replicate A.shape.2 (fin 0), g.localLayout⟩ = .ok p.assignments) :
    p'.assignments = p.assignments ∧ p'.cost = p.cost ∧ p'.lambd = s.updateLambda false p.lambd ∧
      ∃ c, g.computeCost p.assignments = .ok (c, p'.residual) := by
  obtain ⟨A', ATb', delta, b', c, r', qual, conv, e1, e2, e3, e4, e5, e6, -, rfl, -⟩ := lmStep_ok.1 h
  rw [h1] at e1; cases Except.ok.inj e1
  have e2' := h2.symm.trans e2; cases Except.ok.inj e2'
  rw [hlin] at e3
  unfold cgLinear at e3
  rw [cgSolve_nan hA hl hn] at e3; cases Except.ok.inj e3
  rw [hz] at e4; cases Except.ok.inj e4
  rw [stepQuality_nan (p := p.toState) hA (by simp) hrl (.inr hr)] at e6
  cases Except.ok.inj e6
  rw [le_nan]
  exact ⟨rfl, rfl, rfl, c, e5⟩

/-! ### Example: one variable, the residual `√x` -/

namespace Root
open Ex (CE x)

noncomputable def lay : Layout := Layout.make CE [x] false
noncomputable def llay : Layout := Layout.make CE [x] true

/-- One factor with the residual `√x` and unit noise, computed on extended reals: NaN for negative numbers. -/
noncomputable def G : GraphOps Ext where
  layout := lay
  localLayout := llay
  computeCost a := let r := a.storage.map Ext.sqrt; .ok (sumSq r, r)
  jacobian a _ := .ok ⟨a.storage.map fun v => fin (1 / 2) / Ext.sqrt v, [0], [0], (1, 1)⟩

/-- `x = v` -/
noncomputable def at_ (v : Ext) : Assign Ext := ⟨[v], lay⟩

theorem update_eq (v : Ext) : (at_ v).updateStorageLayout CE lay = .ok (at_ v) := rfl

theorem cost_eq {v : ℝ} (hv : 0 ≤ v) : G.computeCost (at_ (fin v)) = .ok (fin v, [fin (Real.sqrt v)]) := by
  have h : Ext.sqrt (fin v) = fin (Real.sqrt v) := fin_sqrt hv
  have h2 := fin_sumSq [Real.sqrt v]
  simp only [List.map_cons, List.map_nil] at h2
  show Except.ok (sumSq [Ext.sqrt (fin v)], [Ext.sqrt (fin v)]) = _
  rw [h, h2]
  congr 3
  simp [sqNorm, Real.sq_sqrt hv]

theorem cost_nan {v : Ext} (hv : Ext.sqrt v = nan) : G.computeCost (at_ v) = .ok (nan, [nan]) := by
  show Except.ok (sumSq [Ext.sqrt v], [Ext.sqrt v]) = _
  rw [hv]; rfl

theorem jac_eq {v : ℝ} (hv : 0 < v) (r : List Ext) :
    G.jacobian (at_ (fin v)) r = .ok ⟨[fin (1 / 2 / Real.sqrt v)], [0], [0], (1, 1)⟩ := by
  show Except.ok (⟨[fin (1 / 2) / Ext.sqrt (fin v)], [0], [0], (1, 1)⟩ : Coo Ext) = _
  have h : Ext.sqrt (fin v) = fin (Real.sqrt v) := fin_sqrt hv.le
  rw [h, fin_div (Real.sqrt_pos.2 hv).ne']

theorem retract_eq (v d : Ext) : (at_ v).manifoldRetract CE ⟨[d], llay⟩ = .ok (at_ (v + d)) := rfl

/-- One step from `x = v`: the proposal is negative, or NaN. -/
theorem step_eq {v : ℝ} (hv : 0 < v) {s : LevenbergMarquardt Ext} {l₀ : ℝ} (hl₀ : 0 ≤ l₀) (hsmall : v * (l₀ + 1 / 100000) < 1 / 4)
    (hlin : ∀ j b l i, 0 ≤ l → s.linear ⟨[fin j], [0], [0], (1, 1)⟩ [fin b] (fin l) i = .ok [fin (b / (j ^ 2 + l + 1 / 100000))])
    (hnan : ∀ j l i, s.linear ⟨[fin j], [0], [0], (1, 1)⟩ [nan] l i = .ok [nan]) (p : LMState Ext) (h1 : p.assignments = at_ (fin v))
    (h2 : p.cost = fin v) (h3 : (p.residual = [fin (Real.sqrt v)] ∧ p.lambd = fin l₀) ∨ p.residual = [nan]) :
    ∃ p' l, s.step CE G p = .ok (p', l) ∧ (p'.assignments = at_ (fin v) ∧ p'.cost = fin v ∧
      ((p'.residual = [fin (Real.sqrt v)] ∧ p'.lambd = fin l₀) ∨ p'.residual = [nan])) ∧ (∀ m ∈ l, ShowsCost (fin v) m) ∧
      p'.iterations = p.iterations + 1 ∧ p'.done = decide ((p.iterations : Int) ≥ s.maxIterations - 1) := by
  set w := Real.sqrt v with hw
  have hwp : 0 < w := Real.sqrt_pos.2 hv
  have hww : w ^ 2 = v := Real.sq_sqrt hv.le
  -- the step is followed by a rejection
  have finish : ∀ {y d : Ext}, (Coo.T ⟨[fin (1 / 2 / w)], [0], [0], (1, 1)⟩ : Coo Ext).matmul (p.residual.map fun x => -x) = .ok [y] →
      s.linear ⟨[fin (1 / 2 / w)], [0], [0], (1, 1)⟩ [y] p.lambd p.iterations = .ok [d] → Ext.sqrt (fin v + d) = nan →
      p.residual.length = 1 →
      ∃ p' l, s.step CE G p = .ok (p', l) ∧ (p'.assignments = at_ (fin v) ∧ p'.cost = fin v ∧
        ((p'.residual = [fin w] ∧ p'.lambd = fin l₀) ∨ p'.residual = [nan])) ∧ (∀ m ∈ l, ShowsCost (fin v) m) ∧
        p'.iterations = p.iterations + 1 ∧ p'.done = decide ((p.iterations : Int) ≥ s.maxIterations - 1) := by
    intro y d e1 e2 e3 e4
    have e5 := stepQuality_nan (A := ⟨[fin (1 / 2 / w)], [0], [0], (1, 1)⟩) (p := p.toState) (co := nan) (d := [d])
      ⟨rfl, rfl, by simp, by simp⟩ rfl e4 (.inl rfl)
    have e6 : ∃ conv, s.converged CE p.toState nan ⟨[d], G.localLayout⟩ [y] = .ok conv := by
      unfold Criteria.converged Criteria.convergedGradient
      rw [h1]
      exact ⟨_, rfl⟩
    obtain ⟨conv, e6⟩ := e6
    have key := (lmStep_ok (C := CE) (g := G) (s := s) (p := p)).2 ⟨_, [y], [d], at_ (fin v + d), nan, [nan], nan, conv,
      by rw [h1]; exact jac_eq hv _, e1, e2, by rw [h1]; exact retract_eq _ _, cost_nan e3, e5, e6, rfl, rfl⟩
    rw [le_nan] at key
    refine ⟨_, _, key, ⟨?_, h2, .inr rfl⟩, showsCost_print h2, rfl, by simp [lmNext, Criteria.exceeded]⟩
    rw [← h1]; rfl
  rcases h3 with ⟨h3, h4⟩ | h3
  · have e1 : (Coo.T ⟨[fin (1 / 2 / w)], [0], [0], (1, 1)⟩ : Coo Ext).matmul (p.residual.map fun x => -x) =
        .ok [fin (-(1 / 2))] := by
      rw [h3]
      show Except.ok [fin 0 + fin (1 / 2 / w) * -fin w] = _
      rw [fin_neg, fin_mul, fin_add]
      congr 3
      field_simp
      ring
    refine finish e1 (by rw [h4]; exact hlin _ _ _ _ hl₀) ?_ (by rw [h3]; rfl)
    rw [fin_add]
    unfold Ext.sqrt
    simp only
    rw [if_pos]
    have hp : 0 < (1 / 2 / w) ^ 2 + l₀ + 1 / 100000 := by positivity
    rw [neg_div, ← sub_eq_add_neg, sub_neg, lt_div_iff₀ hp]
    have : v * (1 / 2 / w) ^ 2 = 1 / 4 := by
      rw [← hww]; field_simp; norm_num
    nlinarith
  · refine finish (y := nan) (d := nan) ?_ (hnan _ _ _) rfl (by rw [h3]; rfl)
    rw [h3]; rfl

end Root

/-- **C111**, an execution. One factor with the residual `√x`, from any `x = v > 0`, with small damping and a linear solver that solves
the damped normal equations of this graph and answers NaN to NaN, such as CHOLMOD. The first proposal is negative, so its residual is
NaN. It is rejected, but its residual is kept, and with it NaN: no later step is accepted, whatever the damping. The solver returns
the initial assignments when the iterations are used up. The least cost is `0`, at `x = 0`. -/
theorem C111_frozen_root {v : ℝ} (hv : 0 < v) {s : LevenbergMarquardt Ext} {l₀ : ℝ} (hl₀ : 0 ≤ l₀) (hinit : s.lambdaInitial = fin l₀)
    (hsmall : v * (l₀ + 1 / 100000) < 1 / 4)
    (hlin : ∀ j b l i, 0 ≤ l → s.linear ⟨[fin j], [0], [0], (1, 1)⟩ [fin b] (fin l) i = .ok [fin (b / (j ^ 2 + l + 1 / 100000))])
    (hnan : ∀ j l i, s.linear ⟨[fin j], [0], [0], (1, 1)⟩ [nan] l i = .ok [nan]) {fuel : Nat} (hf : max 1 s.maxIterations ≤ fuel) :
    ∃ log, s.solve Ex.CE Root.G fuel (Root.at_ (fin v)) = .ok (some (Root.at_ (fin v),
      log ++ hcbPrint s.verbose (.terminated (max 1 s.maxIterations).toNat (fin v)))) ∧ ∀ m ∈ log, ShowsCost (fin v) m := by
  obtain ⟨t, log, k1, ⟨k2, k3, -⟩, k4, k5⟩ := whileLoop_counter (base := LMState.toState) (step := s.step Ex.CE Root.G)
    (N := s.maxIterations) (P := fun p => p.assignments = Root.at_ (fin v) ∧ p.cost = fin v ∧
      ((p.residual = [fin (Real.sqrt v)] ∧ p.lambd = fin l₀) ∨ p.residual = [nan])) (Q := ShowsCost (fin v))
    (fun p hp => Root.step_eq hv hl₀ hsmall hlin hnan p hp.1 hp.2.1 hp.2.2)
    fuel ⟨⟨0, Root.at_ (fin v), fin v, [fin (Real.sqrt v)], false⟩, fin l₀⟩ ⟨rfl, rfl, .inl ⟨rfl, rfl⟩⟩ rfl (by omega) (by
      show s.maxIterations - ((0 : Nat) : Int) ≤ fuel
      omega)
  refine ⟨log, ?_, k5⟩
  apply baseSolve_some.2
  refine ⟨_, _, t, log, Root.update_eq _, ?_, k1, ?_, ?_⟩
  · unfold LevenbergMarquardt.init initState
    rw [Root.cost_eq hv.le, hinit]; rfl
  · show t.assignments.updateStorageLayout _ _ = _
    rw [k2]; exact Root.update_eq _
  · have e : t.iterations = (max 1 s.maxIterations).toNat := by
      have : (t.iterations : Int) = max (((0 : Nat) : Int) + 1) s.maxIterations := k4
      omega
    rw [k3, e]

/-- A linear solver for systems with one unknown: `(j² + l + 1e-5) x = b` on extended reals. -/
noncomputable def Root.lin : LinSolver Ext := fun A b l _ =>
  .ok (List.zipWith (fun j y => y / (j * j + l + fin (1 / 100000))) A.values b)

theorem Root.lin_fin (j b l : ℝ) (i : Nat) (hl : 0 ≤ l) :
    Root.lin ⟨[fin j], [0], [0], (1, 1)⟩ [fin b] (fin l) i = .ok [fin (b / (j ^ 2 + l + 1 / 100000))] := by
  show Except.ok [fin b / (fin j * fin j + fin l + fin (1 / 100000))] = _
  have : 0 < j * j + l + 1 / 100000 := by nlinarith [mul_self_nonneg j]
  rw [fin_mul, fin_add, fin_add, fin_div this.ne', sq]

theorem Root.lin_nan (j : ℝ) (l : Ext) (i : Nat) : Root.lin ⟨[fin j], [0], [0], (1, 1)⟩ [nan] l i = .ok [nan] := by
  show Except.ok [nan / _] = _
  rw [nan_div]

/-- The default settings with this linear solver. -/
noncomputable def Root.solver : LevenbergMarquardt Ext :=
  { (LevenbergMarquardt.defaults fun _ _ _ _ => .error .notImplemented).lift with linear := Root.lin }

/-- With the default settings, from `x = 1`. -/
example : ∃ log, Root.solver.solve Ex.CE Root.G 100 (Root.at_ (fin 1)) = .ok (some (Root.at_ (fin 1),
    log ++ hcbPrint true (.terminated 100 (fin 1)))) ∧ ∀ m ∈ log, ShowsCost (fin 1) m :=
  C111_frozen_root (s := Root.solver) (l₀ := 5 / 10000) one_pos (by norm_num)
    (show fin _ = fin _ by congr 1; norm_num [LevenbergMarquardt.defaults]) (by norm_num) Root.lin_fin Root.lin_nan
    (by show max 1 (100 : Int) ≤ 100; norm_num)

/-- The cost at `x = -1` is NaN. -/
example : Root.G.computeCost (Root.at_ (fin (-1))) = .ok (nan, [nan]) ∧ NotFinite nan :=
  ⟨Root.cost_nan (by simp [Ext.sqrt]), fun y h => by cases h⟩

/-- NaN passes through: the residual NaN leads to a proposal with the cost NaN and the residual NaN. -/
example : ∀ r A ATb l i d b c r', r = [nan] → Root.G.jacobian (Root.at_ (fin 1)) r = .ok A → A.T.matmul (r.map (- ·)) = .ok ATb →
    Root.solver.linear A ATb l i = .ok d → (Root.at_ (fin 1)).manifoldRetract Ex.CE ⟨d, Root.G.localLayout⟩ = .ok b →
    Root.G.computeCost b = .ok (c, r') → c = nan ∧ r' = [nan] := by
  intro r A ATb l i d b c r' hr h1 h2 h3 h4 h5
  subst hr
  rw [Root.jac_eq one_pos] at h1; cases Except.ok.inj h1
  have e2 : Except.ok [nan] = (Except.ok ATb : Py (List Ext)) := h2
  cases Except.ok.inj e2
  have e3 := (Root.lin_nan _ l i).symm.trans h3
  cases Except.ok.inj e3
  have e4 := (Root.retract_eq (fin 1) nan).symm.trans h4
  cases Except.ok.inj e4
  rw [Root.cost_nan rfl] at h5
  cases Except.ok.inj h5
  exact ⟨rfl, rfl⟩

/-- With conjugate gradients, the residual NaN leads to the gradient NaN, a step of zeros stays. -/
example : Root.G.jacobian (Root.at_ (fin 1)) [nan] = .ok ⟨[fin (1 / 2 / Real.sqrt 1)], [0], [0], (1, 1)⟩ ∧
    (Coo.T ⟨[fin (1 / 2 / Real.sqrt 1)], [0], [0], (1, 1)⟩ : Coo Ext).matmul [-nan] = .ok [nan] ∧
    (Root.at_ (fin 1)).manifoldRetract Ex.CE ⟨[fin 0], Root.G.localLayout⟩ = .ok (Root.at_ (fin 1)) :=
  ⟨Root.jac_eq one_pos _, rfl, (Root.retract_eq _ _).trans (by rw [fin_add, add_zero])⟩

end Jaxfg.Props
