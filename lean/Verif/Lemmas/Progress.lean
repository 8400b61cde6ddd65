/- Steps of the solvers that cannot fail. -/
import Verif.Lemmas.SolverRuns
import Verif.Spec.Progress

namespace Jaxfg
open Ext (fin)
open Spec Matrix

/-! ### Loops -/

section
variable {S : Type} {σ : Type}

theorem whileLoop_progress {done : σ → Bool} {step : σ → Py (σ × List (Msg S))} {P : σ → Prop}
    (h : ∀ s, P s → ∃ s' log, step s = .ok (s', log) ∧ P s') (n : Nat) (s : σ) (hs : P s) :
    ∃ o, whileLoop done step n s = .ok o ∧ ∀ s' log, o = some (s', log) → P s' := by
  induction n generalizing s with
  | zero =>
    refine ⟨_, rfl, fun s' log h => ?_⟩
    split at h
    · cases h; exact hs
    · cases h
  | succ n ih =>
    unfold whileLoop
    split
    · exact ⟨_, rfl, fun s' log h => by cases h; exact hs⟩
    · obtain ⟨s1, l1, h1, h2⟩ := h s hs
      obtain ⟨o, h3, h4⟩ := ih s1 h2
      rw [h1]
      simp only [py_bind_ok, h3]
      refine ⟨_, rfl, fun s' log h => ?_⟩
      cases o with
      | none => cases h
      | some q => cases h; exact h4 _ _ rfl

theorem forLoop_progress {step : σ → Py (σ × List (Msg S))} {P : σ → Prop}
    (h : ∀ s, P s → ∃ s' log, step s = .ok (s', log) ∧ P s') (n : Nat) (s : σ) (hs : P s) :
    ∃ s' log, forLoop step n s = .ok (s', log) ∧ P s' := by
  induction n generalizing s with
  | zero => exact ⟨s, [], rfl, hs⟩
  | succ n ih =>
    obtain ⟨s1, l1, h1, h2⟩ := h s hs
    obtain ⟨s2, l2, h3, h4⟩ := ih s1 h2
    unfold forLoop
    rw [h1]
    simp only [py_bind_ok, h3]
    exact ⟨s2, _, rfl, h4⟩

end

/-! ### Graphs -/

/-- Nothing that a solver asks of a graph raises. -/
structure TotalGraph (C : Ty → VarClass ℝ) (g : GraphOps ℝ) (ws : List Var) : Prop where
  sane : SaneGraph C g ws
  cost : ∀ a, IsAssignmentOf C ws a → a.layout = g.layout → ∃ c r, g.computeCost a = .ok (c, r)
  jacobian : ∀ a a' c r, IsAssignmentOf C ws a → a.layout = g.layout → IsAssignmentOf C ws a' → a'.layout = g.layout →
    g.computeCost a' = .ok (c, r) → ∃ A, g.jacobian a r = .ok A ∧ A.shape.1 = r.length

theorem total_graph {F : Nat → FactorClass} {C : Ty → VarClass ℝ} (hC : GoodClasses C) {fs : List Factor}
    (hfs : ∀ f ∈ fs, FactorWF F C f) (hne : fs ≠ []) :
    ∃ g, Graph.make C fs = .ok g ∧ TotalGraph C (g.ops F C) (Graph.variablesOf fs) := by
  obtain ⟨g, hg, hsane⟩ := sane_graph (F := F) hC hfs hne
  obtain ⟨g', hg', hG⟩ := graph_ok (F := F) hfs hne
  rw [hg] at hg'; cases Except.ok.inj hg'
  have hs := variablesOf_spec fs
  have holds : ∀ a, IsAssignmentOf C (Graph.variablesOf fs) a → a.layout = g.layout →
      ∃ val, Holds C fs (Graph.variablesOf fs) val a := by
    intro a ha hl
    have hfl : a.layout.localFlag = false := by rw [hl, hG.layout]; rfl
    obtain ⟨f, hf⟩ := exists_rep ha
    rw [hfl] at hf
    refine ⟨fun v => unravel (C v.ty).default (f v), ha, hfl, hs.2, fun v hv => hf.getValue_ok hv⟩
  have whit : ∀ val a, Holds C fs (Graph.variablesOf fs) val a →
      ∃ w : Factor → List ℝ, ∀ f ∈ fs, whitenedAt F val f = .ok (w f) ∧ (w f).length = rdim f := by
    intro val a hv
    have : ∀ f, ∃ w, f ∈ fs → whitenedAt F val f = .ok w ∧ w.length = rdim f := by
      intro f
      by_cases hf : f ∈ fs
      · obtain ⟨u, h1, h2⟩ := whiten_ok (hfs f hf).noise ((hfs f hf).residual _ (hv.valuesFor hC hf))
        exact ⟨u, fun _ => ⟨h1, h2⟩⟩
      · exact ⟨[], fun h => absurd h hf⟩
    choose w hw using this
    exact ⟨w, hw⟩
  refine ⟨g, hg, hsane, fun a ha hl => ?_, fun a a' c r ha hl ha' hl' hc => ?_⟩
  · obtain ⟨val, hv⟩ := holds a ha hl
    obtain ⟨w, hw⟩ := whit val a hv
    exact ⟨_, _, Props.cost_ok _ _ hC hne hfs hG hv (fun f hf => (hw f hf).1)⟩
  · obtain ⟨val, hv⟩ := holds a ha hl
    obtain ⟨val', hv'⟩ := holds a' ha' hl'
    obtain ⟨w, hw⟩ := whit val' a' hv'
    have hcost := Props.cost_ok _ _ hC hne hfs hG hv' (fun f hf => (hw f hf).1)
    have hr : r = (evalOrder fs).flatMap w := by
      have : g.computeCost F C a' = .ok (c, r) := hc
      rw [hcost] at this
      exact (Prod.mk.inj (Except.ok.inj this)).2.symm
    have : ∀ f, ∃ R, f ∈ fs →
        ((F f.cls).jacobians f.self (f.vars.map val)).mapM (fun J => f.noise.whitenJacobian J (w f)) = .ok R := by
      intro f
      by_cases hf : f ∈ fs
      · obtain ⟨R, h1, _⟩ := whitenedJacobians_ok (hfs f hf) (hv.valuesFor hC hf) (hw f hf).2
        exact ⟨R, fun _ => h1⟩
      · exact ⟨[], fun h => absurd h hf⟩
    choose R hR using this
    obtain ⟨A, h1, h2, h3, -⟩ := jacobian_ok hC hfs hne hG hv (fun f hf => (hw f hf).2) hR
    have hA : g.computeWhitenedResidualJacobian F C a r = .ok A := by rw [hr]; exact h1
    refine ⟨A, hA, ?_⟩
    rw [h3, hr, hG.residualDim]
    exact (length_flatMap_blocks fun f hf => (hw f (mem_groupedBy.1 hf)).2).symm

/-! ### Steps -/

section
variable {CE : Ty → VarClass Ext} {gE : GraphOps Ext} {C : Ty → VarClass ℝ} {g : GraphOps ℝ} {ws : List Var}

/-- A step of the right size can be taken. -/
theorem TotalGraph.retract (hg : TotalGraph C g ws) {a : Assign ℝ} (ha : IsAssignmentOf C ws a) (hl : a.layout = g.layout)
    {d : List ℝ} (hd : d.length = g.localLayout.dim) :
    ∃ b c r, a.manifoldRetract C ⟨d, g.localLayout⟩ = .ok b ∧ g.computeCost b = .ok (c, r) ∧ b.storage.length = a.storage.length := by
  obtain ⟨f, hf⟩ := exists_rep ha
  have hδ : IsAssignmentOf C ws ⟨d, g.localLayout⟩ := ⟨hg.sane.nodup, by simp only [hg.sane.localLayout, make_localFlag], hd⟩
  obtain ⟨e, he⟩ := exists_rep hδ
  have hfl : a.layout.localFlag = false := by rw [hl, hg.sane.layout]; rfl
  have hel : (⟨d, g.localLayout⟩ : Assign ℝ).layout.localFlag = true := by simp only [hg.sane.localLayout, make_localFlag]
  rw [hfl] at hf
  rw [hel] at he
  obtain ⟨b, h1, h2, h3⟩ := hf.retract_ok hg.sane.classes he (fun _ _ => rfl)
  obtain ⟨c, r, hc⟩ := hg.cost b (isAssignment_retract ha h1) (h2.trans hl)
  exact ⟨b, c, r, h1, hc, (manifoldRetract_shape h1).2⟩

/-- The tests can be computed. -/
theorem TotalGraph.tests (hg : TotalGraph C g ws) (hdim : 0 < g.layout.dim) (t : Criteria ℝ) {p : State ℝ}
    (hp : GoodState C g ws p) (c : ℝ) (d : List ℝ) {ng : List ℝ} (hn : ng.length = g.localLayout.dim) :
    ∃ conv, convergedTest C t p c d g.localLayout ng = .ok conv := by
  obtain ⟨b, -, -, h1, -, h2⟩ := hg.retract hp.assignment hp.layout hn
  have hlen : 0 < (List.zipWith (· - ·) p.assignments.storage b.storage).length := by
    rw [List.length_zipWith, h2, min_self, hp.assignment.2.2, hp.layout]; exact hdim
  unfold convergedTest gradientTest
  rw [h1]
  simp only [py_bind_ok]
  cases hz : List.zipWith (· - ·) p.assignments.storage b.storage with
  | nil => rw [hz] at hlen; simp at hlen
  | cons x xs => exact ⟨_, rfl⟩

/-- The linear system of a state. -/
theorem TotalGraph.system (hg : TotalGraph C g ws) {p : State ℝ} (hp : GoodState C g ws p) :
    ∃ A, g.jacobian p.assignments p.residual = .ok A ∧ CooWF A ∧ A.shape.1 = p.residual.length ∧ A.shape.2 = g.localLayout.dim := by
  obtain ⟨a, c, h1, h2, h3⟩ := hp.residual
  obtain ⟨A, hA, hs⟩ := hg.jacobian _ _ _ _ hp.assignment hp.layout h1 h2 h3
  obtain ⟨hwf, hs2⟩ := hp.jac hg.sane hA
  exact ⟨A, hA, hwf, hs, hs2⟩

theorem gn_progress (h : Lifts CE gE C g) (hg : TotalGraph C g ws) (hdim : 0 < g.layout.dim) {sE : GaussNewton Ext}
    {s : GaussNewton ℝ} (hs : LiftsGN sE s) (hL : AllJacobians C g ws (TotalSolver s.linear)) {p : State ℝ} (hp : GoodState C g ws p) :
    ∃ (q : State ℝ) (log : List (Msg Ext)), sE.step CE gE (p.map fin) = .ok (q.map fin, log) ∧ GoodState C g ws q := by
  obtain ⟨A, hA, hwf, hs1, hs2⟩ := hg.system hp
  obtain ⟨y, h1, h2, -⟩ := matmul_ok (Props.cooWF_T hwf) (x := p.residual) hs1.symm
  have h2 : y.length = A.shape.2 := h2
  obtain ⟨d, h3, h4⟩ := hp.all hL hA (y.map fun x => -x) 0 p.iterations (by simpa using h2) le_rfl
  obtain ⟨b, c, r, h5, h6, -⟩ := hg.retract hp.assignment hp.layout (h4.trans hs2)
  obtain ⟨conv, h7⟩ := hg.tests hdim s.toCriteria hp c d (ng := y.map fun x => -x) (by simpa using h2.trans hs2)
  exact ⟨_, _, (gnStep_fin h hs).2 ⟨A, y, d, b, c, r, conv, hA, h1, h3, h5, h6, h7, rfl, rfl⟩, hp.next h5 h6 true rfl rfl rfl⟩

theorem fixed_progress (h : Lifts CE gE C g) (hg : TotalGraph C g ws) {sE : FixedIteration Ext}
    {L : LinSolver ℝ} (hs : LiftsSolver sE.linear L) (hL : AllJacobians C g ws (TotalSolver L)) {p : State ℝ} (hp : GoodState C g ws p) :
    ∃ (q : State ℝ) (log : List (Msg Ext)), sE.step CE gE (p.map fin) = .ok (q.map fin, log) ∧ GoodState C g ws q := by
  obtain ⟨A, hA, hwf, hs1, hs2⟩ := hg.system hp
  obtain ⟨y, h1, h2, -⟩ := matmul_ok (Props.cooWF_T hwf) (x := p.residual) hs1.symm
  have h2 : y.length = A.shape.2 := h2
  obtain ⟨d, h3, h4⟩ := hp.all hL hA (y.map fun x => -x) 0 p.iterations (by simpa using h2) le_rfl
  obtain ⟨b, c, r, h5, h6, -⟩ := hg.retract hp.assignment hp.layout (h4.trans hs2)
  exact ⟨_, _, (fixedStep_fin h hs).2 ⟨A, y, d, b, c, r, hA, h1, h3, h5, h6, rfl, rfl⟩, hp.next h5 h6 true rfl rfl rfl⟩

theorem nextLambda_nonneg {s : LevenbergMarquardt ℝ} (hf : 0 < s.lambdaFactor) (hm : 0 ≤ s.lambdaMin) (acc : Bool) {l : ℝ} (hl : 0 ≤ l) :
    0 ≤ nextLambda s acc l := by
  unfold nextLambda
  split
  · positivity
  · exact le_max_of_le_left hm

theorem lm_progress (h : Lifts CE gE C g) (hg : TotalGraph C g ws) (hdim : 0 < g.layout.dim) {sE : LevenbergMarquardt Ext}
    {s : LevenbergMarquardt ℝ} (hs : LiftsLM sE s) (hf : 0 < s.lambdaFactor) (hm : 0 ≤ s.lambdaMin)
    (hL : AllJacobians C g ws (TotalSolver s.linear)) {p : LMState ℝ} (hp : GoodState C g ws p.toState) (hl : 0 ≤ p.lambd) :
    ∃ (q : LMState ℝ) (log : List (Msg Ext)), sE.step CE gE (p.map fin) = .ok (q.map fin, log) ∧ GoodState C g ws q.toState ∧
      0 ≤ q.lambd := by
  obtain ⟨A, hA, hwf, hs1, hs2⟩ := hg.system hp
  obtain ⟨y, h1, h2, -⟩ := matmul_ok (Props.cooWF_T hwf) (x := p.residual.map fun x => -x) (by rw [List.length_map]; exact hs1.symm)
  have h2 : y.length = A.shape.2 := h2
  obtain ⟨d, h3, h4⟩ := hp.all hL hA y p.lambd p.iterations h2 hl
  obtain ⟨b, c, r, h5, h6, -⟩ := hg.retract hp.assignment hp.layout (h4.trans hs2)
  obtain ⟨conv, h7⟩ := hg.tests hdim s.toCriteria hp c d (ng := y) (h2.trans hs2)
  obtain ⟨As, h8, h9, -⟩ := matmul_ok hwf h4
  exact ⟨_, _, (lmStep_fin h hs hf.ne').2 ⟨A, y, d, b, c, r, As, _, conv, hA, h1, h3, h5, h6, h8, h9.trans hs1, rfl, h7, rfl, rfl⟩,
    hp.next h5 h6 _ rfl rfl rfl, nextLambda_nonneg hf hm _ hl⟩

theorem dogleg_progress (h : Lifts CE gE C g) (hg : TotalGraph C g ws) (hdim : 0 < g.layout.dim) {sE : Dogleg Ext}
    {s : Dogleg ℝ} (hs : LiftsDogleg sE s) (hz : ZeroAtZero s.linear)
    (hL : AllJacobians C g ws (TotalSolver s.linear)) {p : DoglegState ℝ} (hp : GoodState C g ws p.toState) (hρ : 0 < p.radius) :
    ∃ (q : DoglegState ℝ) (log : List (Msg Ext)), sE.step CE gE (p.map fin) = .ok (q.map fin, log) ∧ GoodState C g ws q.toState ∧
      0 < q.radius := by
  obtain ⟨A, hA, hwf, hs1, hs2⟩ := hg.system hp
  obtain ⟨y, h1, h2, -⟩ := matmul_ok (Props.cooWF_T hwf) (x := p.residual.map fun x => -x) (by rw [List.length_map]; exact hs1.symm)
  have h2 : y.length = A.shape.2 := h2
  obtain ⟨gn, h3, h4⟩ := hp.all hL hA y 0 p.iterations h2 le_rfl
  have hd : ∃ d : List ℝ, doglegStep (A.map fin) (y.map fin) (gn.map fin) (fin p.radius) = .ok (d.map fin) ∧ d.length = A.shape.2 := by
    obtain ⟨k1, k2⟩ := doglegStep_fin hwf h1 h4 hρ
    by_cases hn : nrm gn ≤ p.radius
    · exact ⟨gn, k1 hn, h4⟩
    · obtain ⟨-, hbl, hbv⟩ := descent_ok hwf h1
      obtain ⟨d, e1, e2, -⟩ := k2 (not_le.1 hn) (by
        intro h0
        rw [← hbv] at h0
        have := (mem_zero_vec h4).1 (hz A y 0 _ gn ((mem_zero_vec hbl).2 h0) h3)
        apply hn
        rw [nrm_eq h4, this]
        simp [hρ.le])
      exact ⟨d, e1, e2⟩
  obtain ⟨d, hd1, hd2⟩ := hd
  obtain ⟨b, c, r, h5, h6, -⟩ := hg.retract hp.assignment hp.layout (hd2.trans hs2)
  obtain ⟨conv, h7⟩ := hg.tests hdim s.toCriteria hp c d (ng := y) (h2.trans hs2)
  obtain ⟨As, h8, h9, -⟩ := matmul_ok hwf hd2
  exact ⟨_, _, (doglegSolverStep_fin h hs (dogleg_hfin hg.sane hz hp hρ)).2
    ⟨A, y, gn, d, b, c, r, As, _, conv, hA, h1, h3, hd1, h5, h6, h8, h9.trans hs1, rfl, h7, rfl, rfl⟩,
    hp.next h5 h6 _ rfl rfl rfl, nextRadius_pos hρ⟩

end

end Jaxfg
