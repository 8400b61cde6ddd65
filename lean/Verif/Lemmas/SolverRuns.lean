/- Executions of the solvers from finite states. -/
import Verif.Lemmas.DoglegStep
import Verif.Lemmas.SolverSolve
import Verif.Props.Linearize
import Verif.Props.Graph

namespace Jaxfg
open Ext (fin)
open Spec Matrix

/-! ### Sane graphs -/

theorem mem_zero_vec {l : List ℝ} {n : Nat} (h : l.length = n) : (∀ y ∈ l, y = 0) ↔ Spec.vec l n = 0 := by
  constructor
  · intro hz
    funext i
    show l.getD i 0 = 0
    rw [getD_lt _ (by omega)]
    exact hz _ (List.getElem_mem _)
  · intro hz y hy
    obtain ⟨k, hk, rfl⟩ := List.getElem_of_mem hy
    have := congrFun hz ⟨k, by omega⟩
    change l.getD k 0 = 0 at this
    rwa [getD_lt _ hk] at this

section
variable {C : Ty → VarClass ℝ} {g : GraphOps ℝ} {ws : List Var}

/-- Retraction keeps well-formed assignments. -/
theorem isAssignment_retract {a b d : Assign ℝ} (ha : IsAssignmentOf C ws a) (h : a.manifoldRetract C d = .ok b) :
    IsAssignmentOf C ws b := by
  obtain ⟨h1, h2⟩ := manifoldRetract_shape h
  refine ⟨ha.1, ?_, ?_⟩
  · rw [h1]; exact ha.2.1
  · rw [h1, h2]; exact ha.2.2

/-- Retraction by zero. -/
theorem Spec.SaneGraph.zero_stays (hg : SaneGraph C g ws) (hz : ZeroRetract C) {a : Assign ℝ} (ha : IsAssignmentOf C ws a)
    (hl : a.layout = g.layout) {d : List ℝ} (hd : ∀ y ∈ d, y = 0) (hlen : d.length = g.localLayout.dim) :
    a.manifoldRetract C ⟨d, g.localLayout⟩ = .ok a := by
  obtain ⟨f, hf⟩ := exists_rep ha
  have hδ : IsAssignmentOf C ws ⟨d, g.localLayout⟩ := ⟨hg.nodup, by simp only [hg.localLayout, make_localFlag], hlen⟩
  obtain ⟨e, he⟩ := exists_rep hδ
  have hfl : a.layout.localFlag = false := by rw [hl, hg.layout]; rfl
  have hel : (⟨d, g.localLayout⟩ : Assign ℝ).layout.localFlag = true := by simp only [hg.localLayout, make_localFlag]
  rw [hfl] at hf
  rw [hel] at he
  obtain ⟨b, h1, h2, h3⟩ := hf.retract_ok hg.classes he (fun _ _ => rfl)
  rw [h1]
  congr 1
  have : b.storage = a.storage := by
    rw [h3.storage, hf.storage, List.flatMap_def, List.flatMap_def]
    congr 1
    apply List.map_congr_left
    intro v hv
    have hv' := mem_grouped.1 hv
    have hw : WellShaped (C v.ty).default := (hg.classes v.ty).1
    have hez : ∀ y ∈ e v, y = 0 := by
      intro y hy
      apply hd
      rw [show d = (grouped ws).flatMap e from he.storage]
      exact List.mem_flatMap.2 ⟨v, hv, hy⟩
    rw [hz v.ty _ _ (isValueOf_unravel hw (hf.len v hv')) hez (he.len v hv'), flatten_unravel hw (hf.len v hv')]
  cases a; cases b; simp_all

/-- States that occur in executions. -/
structure GoodState (C : Ty → VarClass ℝ) (g : GraphOps ℝ) (ws : List Var) (p : State ℝ) : Prop where
  assignment : IsAssignmentOf C ws p.assignments
  layout : p.assignments.layout = g.layout
  cost : ∃ r, g.computeCost p.assignments = .ok (p.cost, r)
  residual : ∃ a c, IsAssignmentOf C ws a ∧ a.layout = g.layout ∧ g.computeCost a = .ok (c, p.residual)

theorem GoodState.jac (hg : SaneGraph C g ws) {p : State ℝ} (h : GoodState C g ws p) {A : Coo ℝ}
    (hA : g.jacobian p.assignments p.residual = .ok A) : CooWF A ∧ A.shape.2 = g.localLayout.dim := by
  obtain ⟨a, c, h1, h2, h3⟩ := h.residual
  exact hg.jacobian _ _ _ _ _ h.assignment h.layout h1 h2 h3 hA

theorem GoodState.all {P : Coo ℝ → Prop} (hP : AllJacobians C g ws P) {p : State ℝ} (h : GoodState C g ws p) {A : Coo ℝ}
    (hA : g.jacobian p.assignments p.residual = .ok A) : P A := by
  obtain ⟨a, c, h1, h2, h3⟩ := h.residual
  exact hP _ _ _ _ _ h.assignment h.layout h1 h2 h3 hA

theorem GoodState.start {a : Assign ℝ} (ha : IsAssignmentOf C ws a) (hl : a.layout = g.layout) {c : ℝ}
    {r : List ℝ} (hc : g.computeCost a = .ok (c, r)) (k : Nat) (d : Bool) : GoodState C g ws ⟨k, a, c, r, d⟩ :=
  ⟨ha, hl, ⟨r, hc⟩, a, c, ha, hl, hc⟩

/-- A retraction is a good state, whether it is taken or not. -/
theorem GoodState.next {p : State ℝ} (h : GoodState C g ws p) {d : Assign ℝ} {b : Assign ℝ}
    (hb : p.assignments.manifoldRetract C d = .ok b) {c : ℝ} {r : List ℝ} (hc : g.computeCost b = .ok (c, r)) (acc : Bool)
    {q : State ℝ} (h1 : q.assignments = if acc then b else p.assignments) (h2 : q.cost = if acc then c else p.cost)
    (h3 : q.residual = r) : GoodState C g ws q := by
  have hb1 := isAssignment_retract h.assignment hb
  have hb2 := (manifoldRetract_shape hb).1.trans h.layout
  refine ⟨?_, ?_, ?_, b, c, hb1, hb2, by rw [h3]; exact hc⟩
  · rw [h1]; cases acc
    · exact h.assignment
    · exact hb1
  · rw [h1]; cases acc
    · exact h.layout
    · exact hb2
  · rw [h1, h2]; cases acc
    · exact h.cost
    · exact ⟨r, hc⟩

end

/-- Graphs made of well-formed factors are sane. -/
theorem sane_graph {F : Nat → FactorClass} {C : Ty → VarClass ℝ} (hC : GoodClasses C) {fs : List Factor}
    (hfs : ∀ f ∈ fs, FactorWF F C f) (hne : fs ≠ []) :
    ∃ g, Graph.make C fs = .ok g ∧ SaneGraph C (g.ops F C) (Graph.variablesOf fs) := by
  obtain ⟨g, hg, hG⟩ := graph_ok (F := F) hfs hne
  have hs := variablesOf_spec fs
  have holds : ∀ a, IsAssignmentOf C (Graph.variablesOf fs) a → a.layout = g.layout →
      ∃ val, Holds C fs (Graph.variablesOf fs) val a := by
    intro a ha hl
    have hfl : a.layout.localFlag = false := by rw [hl, hG.layout]; rfl
    obtain ⟨f, hf⟩ := exists_rep ha
    rw [hfl] at hf
    refine ⟨fun v => unravel (C v.ty).default (f v), ha, hfl, hs.2, fun v hv => hf.getValue_ok hv⟩
  refine ⟨g, hg, hC, hs.1, hG.layout, hG.localLayout, ?_, ?_⟩
  · intro a c r h
    simp only [Graph.ops, Graph.computeCost, py_bind_eq_ok, py_return_eq_ok] at h
    obtain ⟨r', -, h2⟩ := h
    obtain ⟨rfl, rfl⟩ := Prod.mk.inj h2
    rfl
  · intro a a' c r A ha hl ha' hl' hc hA
    obtain ⟨val, hv⟩ := holds a ha hl
    obtain ⟨val', hv'⟩ := holds a' ha' hl'
    have : ∀ f, ∃ w, f ∈ fs → whitenedAt F val' f = .ok w ∧ w.length = rdim f := by
      intro f
      by_cases hf : f ∈ fs
      · obtain ⟨u, h1, h2⟩ := whiten_ok (hfs f hf).noise ((hfs f hf).residual _ (hv'.valuesFor hC hf))
        exact ⟨u, fun _ => ⟨h1, h2⟩⟩
      · exact ⟨[], fun h => absurd h hf⟩
    choose w hw using this
    have hcost := Props.cost_ok _ _ hC hne hfs hG hv' (fun f hf => (hw f hf).1)
    have hr : r = (evalOrder fs).flatMap w := by
      have : g.computeCost F C a' = .ok (c, r) := hc
      rw [hcost] at this
      exact (Prod.mk.inj (Except.ok.inj this)).2.symm
    have : ∀ f, ∃ R, f ∈ fs →
        ((F f.cls).jacobians f.self (f.vars.map val)).mapM (fun J => f.noise.whitenJacobian J (w f)) = .ok R := by
      intro f
      by_cases hf : f ∈ fs
      · obtain ⟨R, h1, _⟩ := whitenedJacobians_ok (hfs f hf) (hv.valuesFor hC hf) (hw f hf).2
        exact ⟨R, fun _ => h1⟩
      · exact ⟨[], fun h => absurd h hf⟩
    choose R hR using this
    obtain ⟨A', h1, h2, h3, -⟩ := jacobian_ok hC hfs hne hG hv (fun f hf => (hw f hf).2) hR
    have hA' : g.computeWhitenedResidualJacobian F C a r = .ok A := hA
    rw [hr, h1] at hA'
    cases Except.ok.inj hA'
    exact ⟨h2, by rw [h3]; rfl⟩

/-! ### Finite states -/

section
variable {CE : Ty → VarClass Ext} {gE : GraphOps Ext} {C : Ty → VarClass ℝ} {g : GraphOps ℝ} {ws : List Var}

theorem initState_fin (h : Lifts CE gE C g) {a : Assign ℝ} {st : State Ext} :
    initState gE (a.map fin) = .ok st ↔ ∃ c r, g.computeCost a = .ok (c, r) ∧ st = State.map fin ⟨0, a, c, r, false⟩ := by
  rw [initState_ok, h.cost]
  constructor
  · rintro ⟨c, r, h1, rfl⟩
    obtain ⟨⟨c', r'⟩, h2, h3⟩ := py_map_eq_ok.1 h1
    obtain ⟨rfl, rfl⟩ := Prod.mk.inj h3
    exact ⟨c', r', h2, rfl⟩
  · rintro ⟨c, r, h1, rfl⟩
    exact ⟨fin c, r.map fin, by rw [h1]; rfl, rfl⟩

theorem lmInit_fin (h : Lifts CE gE C g) {sE : LevenbergMarquardt Ext} {s : LevenbergMarquardt ℝ} (hs : LiftsLM sE s) {a : Assign ℝ}
    {st : LMState Ext} : sE.init gE (a.map fin) = .ok st ↔
      ∃ c r, g.computeCost a = .ok (c, r) ∧ st = LMState.map fin ⟨⟨0, a, c, r, false⟩, s.lambdaInitial⟩ := by
  rw [lmInit_ok, initState_fin h, hs.lambdaInitial]
  constructor
  · rintro ⟨⟨c, r, h1, h2⟩, h3⟩
    refine ⟨c, r, h1, ?_⟩
    obtain ⟨t, l⟩ := st
    simp only at h2 h3
    rw [h2, h3]; rfl
  · rintro ⟨c, r, h1, rfl⟩
    exact ⟨⟨c, r, h1, rfl⟩, rfl⟩

theorem doglegInit_fin (h : Lifts CE gE C g) {sE : Dogleg Ext} {s : Dogleg ℝ} (hs : LiftsDogleg sE s) {a : Assign ℝ}
    {st : DoglegState Ext} : sE.init gE (a.map fin) = .ok st ↔
      ∃ c r, g.computeCost a = .ok (c, r) ∧ st = DoglegState.map fin ⟨⟨0, a, c, r, false⟩, s.radiusInitial⟩ := by
  rw [doglegInit_ok, initState_fin h, hs.radiusInitial]
  constructor
  · rintro ⟨⟨c, r, h1, h2⟩, h3⟩
    refine ⟨c, r, h1, ?_⟩
    obtain ⟨t, l⟩ := st
    simp only at h2 h3
    rw [h2, h3]; rfl
  · rintro ⟨c, r, h1, rfl⟩
    exact ⟨⟨c, r, h1, rfl⟩, rfl⟩

/-- In a Gauss-Newton execution from finite numbers everything is finite. -/
theorem gn_runs_fin (h : Lifts CE gE C g) {sE : GaussNewton Ext} {s : GaussNewton ℝ} (hs : LiftsGN sE s) {p : State ℝ}
    (hp : GoodState C g ws p) {k : Nat} {st : State Ext} {log : List (Msg Ext)}
    (hr : Runs (fun s => s.done) (sE.step CE gE) k (p.map fin) st log) : ∃ q : State ℝ, st = q.map fin ∧ GoodState C g ws q := by
  refine hr.invariant (P := fun st => ∃ q : State ℝ, st = q.map fin ∧ GoodState C g ws q) ?_ ⟨p, rfl, hp⟩
  rintro _ p' l ⟨q, rfl, hq⟩ hstep
  obtain ⟨A, ATr, d, b, c, r, conv, -, -, -, hb, hc, -, rfl, -⟩ := (gnStep_fin h hs).1 hstep
  exact ⟨_, rfl, hq.next hb hc true rfl rfl rfl⟩

/-- In a Levenberg-Marquardt execution from finite numbers everything is finite. -/
theorem lm_runs_fin (h : Lifts CE gE C g) {sE : LevenbergMarquardt Ext} {s : LevenbergMarquardt ℝ} (hs : LiftsLM sE s)
    (hf : s.lambdaFactor ≠ 0) {p : LMState ℝ} (hp : GoodState C g ws p.toState) {k : Nat} {st : LMState Ext} {log : List (Msg Ext)}
    (hr : Runs (fun s => s.done) (sE.step CE gE) k (p.map fin) st log) :
    ∃ q : LMState ℝ, st = q.map fin ∧ GoodState C g ws q.toState := by
  refine hr.invariant (P := fun st => ∃ q : LMState ℝ, st = q.map fin ∧ GoodState C g ws q.toState) ?_ ⟨p, rfl, hp⟩
  rintro _ p' l ⟨q, rfl, hq⟩ hstep
  obtain ⟨A, ATr, d, b, c, r, As, acc, conv, -, -, -, hb, hc, -, -, -, -, rfl, -⟩ := (lmStep_fin h hs hf).1 hstep
  exact ⟨_, rfl, hq.next hb hc acc rfl rfl rfl⟩

/-- Dogleg steps are finite if the linear solver maps zero to zero. -/
theorem dogleg_hfin_of {g : GraphOps ℝ} {s : Dogleg ℝ} (hL : ZeroAtZero s.linear) {p : DoglegState ℝ}
    (hJ : ∀ A, g.jacobian p.assignments p.residual = .ok A → CooWF A) (hρ : 0 < p.radius) :
    ∀ A ATb gn dE, g.jacobian p.assignments p.residual = .ok A → A.T.matmul (p.residual.map fun x => -x) = .ok ATb →
      s.linear A ATb 0 p.iterations = .ok gn → doglegStep (A.map fin) (ATb.map fin) (gn.map fin) (fin p.radius) = .ok dE →
      ∃ d : List ℝ, dE = d.map fin := by
  intro A ATb gn dE hA hb hgn hd
  have hwf := hJ A hA
  obtain ⟨hr, hbl, hbv⟩ := descent_ok hwf hb
  have hlen : gn.length = A.shape.2 := by
    by_contra hne
    unfold doglegStep at hd
    simp only [py_bind_eq_ok] at hd
    obtain ⟨x, -, h2⟩ := hd
    rw [if_pos (by simpa [hbl] using hne)] at h2
    simp at h2
  obtain ⟨h1, h2⟩ := doglegStep_fin hwf hb hlen hρ
  by_cases hn : nrm gn ≤ p.radius
  · exact ⟨gn, by rw [h1 hn] at hd; exact (Except.ok.inj hd).symm⟩
  · have hne : descent (cooMatrix A A.shape.1 A.shape.2) (Spec.vec p.residual A.shape.1) ≠ 0 := by
      intro h0
      rw [← hbv] at h0
      have := (mem_zero_vec hlen).1 (hL A ATb 0 _ gn ((mem_zero_vec hbl).2 h0) hgn)
      apply hn
      rw [nrm_eq hlen, this]
      simp [hρ.le]
    obtain ⟨d, hd1, -⟩ := h2 (not_le.1 hn) hne
    exact ⟨d, by rw [hd1] at hd; exact (Except.ok.inj hd).symm⟩

theorem dogleg_hfin (hg : SaneGraph C g ws) {s : Dogleg ℝ} (hL : ZeroAtZero s.linear) {p : DoglegState ℝ}
    (hp : GoodState C g ws p.toState) (hρ : 0 < p.radius) :
    ∀ A ATb gn dE, g.jacobian p.assignments p.residual = .ok A → A.T.matmul (p.residual.map fun x => -x) = .ok ATb →
      s.linear A ATb 0 p.iterations = .ok gn → doglegStep (A.map fin) (ATb.map fin) (gn.map fin) (fin p.radius) = .ok dE →
      ∃ d : List ℝ, dE = d.map fin := dogleg_hfin_of hL (fun _ hA => (hp.jac hg hA).1) hρ

theorem nextRadius_pos {q : Ext} {ρ : ℝ} {d : List ℝ} (h : 0 < ρ) : 0 < nextRadius q ρ d := by
  unfold nextRadius
  split
  · linarith
  · split
    · exact lt_max_of_lt_left h
    · exact h

/-- In a dogleg execution from finite numbers everything is finite and the radius stays positive. -/
theorem dogleg_runs_fin (h : Lifts CE gE C g) (hg : SaneGraph C g ws) {sE : Dogleg Ext} {s : Dogleg ℝ} (hs : LiftsDogleg sE s)
    (hL : ZeroAtZero s.linear) {p : DoglegState ℝ} (hp : GoodState C g ws p.toState) (hρ : 0 < p.radius) {k : Nat}
    {st : DoglegState Ext} {log : List (Msg Ext)} (hr : Runs (fun s => s.done) (sE.step CE gE) k (p.map fin) st log) :
    ∃ q : DoglegState ℝ, st = q.map fin ∧ GoodState C g ws q.toState ∧ 0 < q.radius := by
  refine hr.invariant (P := fun st => ∃ q : DoglegState ℝ, st = q.map fin ∧ GoodState C g ws q.toState ∧ 0 < q.radius) ?_
    ⟨p, rfl, hp, hρ⟩
  rintro _ p' l ⟨q, rfl, hq, hρ⟩ hstep
  obtain ⟨A, ATr, gn, d, b, c, r, As, q', conv, -, -, -, -, hb, hc, -, -, -, -, rfl, -⟩ :=
    (doglegSolverStep_fin h hs (dogleg_hfin hg hL hq hρ)).1 hstep
  exact ⟨_, rfl, hq.next hb hc _ rfl rfl rfl, nextRadius_pos hρ⟩

end

/-! ### Tests -/

theorem foldl_max_lt {x t : ℝ} {xs : List ℝ} : xs.foldl max x < t ↔ ∀ y ∈ x :: xs, y < t := by
  induction xs generalizing x with
  | nil => simp
  | cons y ys ih =>
    rw [List.foldl_cons, ih]
    simp only [List.mem_cons, forall_eq_or_imp, max_lt_iff, and_assoc]

theorem convergedTest_ok {C : Ty → VarClass ℝ} {t : Criteria ℝ} {p : State ℝ} {c : ℝ} {delta ng : List ℝ} {ll : Layout} {conv : Bool}
    (h : convergedTest C t p c delta ll ng = .ok conv) : conv = true ↔ StopReason C t p c delta ng ll := by
  unfold convergedTest at h
  simp only [py_bind_eq_ok, py_return_eq_ok] at h
  obtain ⟨b, hb, rfl⟩ := h
  unfold gradientTest at hb
  simp only [py_bind_eq_ok] at hb
  obtain ⟨moved, h1, h2⟩ := hb
  unfold StopReason
  have hb' : b = true ↔ (t.gradientToleranceStartStep ≤ p.iterations ∧ ∃ moved, p.assignments.manifoldRetract C ⟨ng, ll⟩ = .ok moved ∧
      ∀ y ∈ List.zipWith (· - ·) p.assignments.storage moved.storage, y < t.gradientTolerance) := by
    cases hz : List.zipWith (· - ·) p.assignments.storage moved.storage with
    | nil => rw [hz] at h2; cases h2
    | cons x xs =>
      rw [hz] at h2
      cases h2
      rw [decide_eq_true_eq, foldl_max_lt, h1, ← hz]
      simp
  rw [Bool.or_eq_true, Bool.or_eq_true, hb']
  unfold costTest parameterTest nrm
  rw [decide_eq_true_eq, decide_eq_true_eq, or_assoc]

end Jaxfg
