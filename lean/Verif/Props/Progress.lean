/-
Property C72: solving a well-formed problem does not raise. See Verif.Props.SolverReal for the setting: real arithmetic, inside a
program that also knows infinities and NaNs.
-/
import Verif.Lemmas.Progress
import Verif.Lemmas.SolverOrder
import Verif.Lemmas.Stationary
import Verif.Lemmas.SymmetryPose
import Verif.Lemmas.ExamplePoly
import Verif.Props.Solver
import Verif.Props.SolverSpecial
import Verif.Props.Retraction

namespace Jaxfg.Props
open Spec
open Ext (fin)

section
variable {CE : Ty → VarClass Ext} {gE : GraphOps Ext} {C : Ty → VarClass ℝ} {g : GraphOps ℝ} {ws vars : List Var} {a : Assign ℝ}

/-- To the order of the graph. -/
theorem progress_in (hg : SaneGraph C g ws) (ha : IsAssignmentOf C vars a) (hl : a.layout.localFlag = false)
    (hv : ∀ v, v ∈ vars ↔ v ∈ ws) (hpos : ∀ v ∈ ws, 0 < (C v.ty).paramDim) :
    ∃ b, a.updateStorageLayout C g.layout = .ok b ∧ IsAssignmentOf C ws b ∧ b.layout = g.layout := by
  obtain ⟨f, hf⟩ := exists_rep ha
  rw [hl] at hf
  have hu := hf.update_unique hg.nodup hv (fun v hm => hpos v ((hv v).1 hm))
  rw [← hg.layout] at hu
  refine ⟨_, hu, Rep.isAssignment (loc := false) (f := f) ⟨hg.nodup, hg.layout, fun v hm => hf.len v ((hv v).2 hm), rfl⟩, rfl⟩

/-- Back to the order of the caller. -/
theorem progress_out (hg : SaneGraph C g ws) (ha : IsAssignmentOf C vars a) (hl : a.layout.localFlag = false)
    (hv : ∀ v, v ∈ vars ↔ v ∈ ws) (hpos : ∀ v ∈ ws, 0 < (C v.ty).paramDim) {b : Assign ℝ} (hb : IsAssignmentOf C ws b)
    (hbl : b.layout = g.layout) :
    ∃ o, b.updateStorageLayout C a.layout = .ok o ∧ IsAssignmentOf C vars o ∧ o.layout = a.layout := by
  obtain ⟨f, hf⟩ := exists_rep hb
  have : b.layout.localFlag = false := by rw [hbl, hg.layout]; rfl
  rw [this] at hf
  have hu := hf.update_unique ha.1 (fun v => (hv v).symm) (fun v hm => hpos v hm)
  have hal : a.layout = Layout.make C vars false := by have := ha.2.1; rwa [hl] at this
  rw [← hal] at hu
  refine ⟨_, hu, Rep.isAssignment (loc := false) (f := f) ⟨ha.1, hal, fun v hm => hf.len v ((hv v).1 hm), rfl⟩, rfl⟩

/-- The loop of `solve`. -/
theorem progress_solve {σ : Type} {verbose : Bool} {base : σ → State Ext} {init : Assign Ext → Py σ}
    {step : σ → Py (σ × List (Msg Ext))} {N : Int} (h : Lifts CE gE C g) (hg : TotalGraph C g ws) (ha : IsAssignmentOf C vars a)
    (hl : a.layout.localFlag = false) (hv : ∀ v, v ∈ vars ↔ v ∈ ws) (hpos : ∀ v ∈ ws, 0 < (C v.ty).paramDim)
    (P : σ → Prop) (hP : ∀ s, P s → ∃ q : State ℝ, base s = q.map fin ∧ GoodState C g ws q)
    (hinit : ∀ b : Assign ℝ, IsAssignmentOf C ws b → b.layout = g.layout → ∃ s, init (b.map fin) = .ok s ∧ P s)
    (hstep : ∀ s, P s → ∃ s' log, step s = .ok (s', log) ∧ P s')
    (hend : EndsWithin CE gE base init step (baseSolve CE gE verbose base init step) N (a.map fin)) :
    Returns C (baseSolve CE gE verbose base init step) N vars a := by
  obtain ⟨b, hb, hb1, hb2⟩ := progress_in hg.sane ha hl hv hpos
  obtain ⟨s, hs, hs1⟩ := hinit b hb1 hb2
  have hbE : (a.map fin).updateStorageLayout CE gE.layout = .ok (b.map fin) := by
    rw [h.layout, h.updateStorageLayout, hb]; rfl
  have out : ∀ {s'}, P s' → ∃ o, (base s').assignments.updateStorageLayout CE (a.map fin).layout = .ok (o.map fin) ∧
      IsAssignmentOf C vars o ∧ o.layout = a.layout := by
    intro s' hs'
    obtain ⟨q, hq, hq1⟩ := hP s' hs'
    obtain ⟨o, ho, ho1, ho2⟩ := progress_out hg.sane ha hl hv hpos hq1.assignment hq1.layout
    refine ⟨o, ?_, ho1, ho2⟩
    rw [hq]
    show (q.assignments.map fin).updateStorageLayout CE a.layout = _
    rw [h.updateStorageLayout, ho]; rfl
  rcases hend with ⟨e, he⟩ | ⟨b', st, k, st', log, o, log', h1, h2, h3, -, -, -, h4, h5⟩
  · exfalso
    have he := he (max 1 N).toNat (by omega)
    obtain ⟨r, hr, hr1⟩ := whileLoop_progress (done := fun s => (base s).done) hstep (max 1 N).toNat s hs1
    unfold baseSolve at he
    rw [hbE] at he
    simp only [py_bind_ok, hs, hr] at he
    cases r with
    | none => cases he
    | some p =>
      obtain ⟨o, ho, -⟩ := out (hr1 p.1 p.2 rfl)
      simp only [ho, py_bind_ok] at he
      cases he
  · rw [hbE] at h1; cases h1
    rw [hs] at h2; cases h2
    have hP' : P st' := h3.invariant (P := P) (fun s s' l hs hst => by
      obtain ⟨s2, l2, e1, e2⟩ := hstep s hs
      rw [hst] at e1; cases e1; exact e2) hs1
    obtain ⟨o', ho, ho1, ho2⟩ := out hP'
    rw [h4] at ho; cases ho
    exact ⟨o', log', ho1, ho2, h5⟩

end

section
variable (F : Nat → FactorClass) (C : Ty → VarClass ℝ)

/-- **C72.** Let the graph be made of well-formed factors, and the initial values be given for exactly its variables. Let the linear
solver solve every system with a Jacobian of this graph (CHOLMOD does: `C72_cholmod`). Then `solve` neither raises nor computes
forever nor produces infinities or NaNs. This needs a positive damping factor and non-negative damping (Levenberg-Marquardt) or a
positive trust region and a linear solver that maps zero to zero (dogleg). The solver with a fixed number of steps does not
convert the assignments to the order of the graph, so they are in that order here (see C40). -/
theorem C72_solve_returns (hC : GoodClasses C) (fs : List Factor) (hne : fs ≠ []) (hfs : ∀ f ∈ fs, FactorWF F C f)
    (hpos : ∀ f ∈ fs, ∀ v ∈ f.vars, 0 < (C v.ty).paramDim) :
    ∃ g, Graph.make C fs = .ok g ∧ ∀ CE gE, Lifts CE gE C (g.ops F C) →
      ∀ vars a, IsAssignmentOf C vars a → a.layout.localFlag = false → (∀ v, v ∈ vars ↔ ∃ f ∈ fs, v ∈ f.vars) →
        (∀ sE s, LiftsGN sE s → AllJacobians C (g.ops F C) (Graph.variablesOf fs) (TotalSolver s.linear) →
          Returns C (sE.solve CE gE) s.maxIterations vars a) ∧
        (∀ sE s, LiftsLM sE s → AllJacobians C (g.ops F C) (Graph.variablesOf fs) (TotalSolver s.linear) →
          0 < s.lambdaFactor → 0 ≤ s.lambdaMin → 0 ≤ s.lambdaInitial → Returns C (sE.solve CE gE) s.maxIterations vars a) ∧
        (∀ sE s, LiftsDogleg sE s → AllJacobians C (g.ops F C) (Graph.variablesOf fs) (TotalSolver s.linear) → ZeroAtZero s.linear →
          0 < s.radiusInitial → Returns C (sE.solve CE gE) s.maxIterations vars a) ∧
        (∀ (sE : FixedIteration Ext) L, LiftsSolver sE.linear L → AllJacobians C (g.ops F C) (Graph.variablesOf fs) (TotalSolver L) →
          a.layout = g.layout → Returns C (sE.solve CE gE) sE.iterations vars a) := by
  obtain ⟨g, hg, hT⟩ := total_graph (F := F) hC hfs hne
  have hs := variablesOf_spec fs
  have hp : ∀ v ∈ Graph.variablesOf fs, 0 < (C v.ty).paramDim := fun v hv => by
    obtain ⟨f, hf, hv⟩ := (hs.2 v).1 hv; exact hpos f hf v hv
  have hdim : 0 < (g.ops F C).layout.dim := by
    obtain ⟨f, hf⟩ := List.exists_mem_of_ne_nil _ hne
    obtain ⟨v, hv⟩ := List.exists_mem_of_ne_nil _ (hfs f hf).vars
    have hm : v ∈ Graph.variablesOf fs := (hs.2 v).2 ⟨f, hf, hv⟩
    rw [hT.sane.layout, make_dim _ hs.1]
    have h1 : 0 < dimOf C false v.ty := hp v hm
    refine lt_of_lt_of_le h1 (List.single_le_sum (by simp) _ (List.mem_map.2 ⟨v, mem_grouped.2 hm, rfl⟩))
  refine ⟨g, hg, fun CE gE h vars a ha hl hvars => ?_⟩
  have hv : ∀ v, v ∈ vars ↔ v ∈ Graph.variablesOf fs := fun v => by rw [hvars, hs.2]
  refine ⟨fun sE s hsE hL => ?_, fun sE s hsE hL h1 h2 h3 => ?_, fun sE s hsE hL h1 h2 => ?_, fun sE L hsE hL h1 => ?_⟩
  · have hm : sE.maxIterations = s.maxIterations := congrArg Criteria.maxIterations hsE.criteria
    have := C38_gauss_newton CE gE sE (a.map fin)
    rw [hm] at this
    refine progress_solve h hT ha hl hv hp
      (fun st => ∃ q : State ℝ, st = q.map fin ∧ GoodState C (g.ops F C) (Graph.variablesOf fs) q)
      (fun st h => h) (fun b hb hbl => ?_) ?_ this
    · obtain ⟨c, r, hc⟩ := hT.cost b hb hbl
      exact ⟨_, (initState_fin h).2 ⟨c, r, hc, rfl⟩, _, rfl, GoodState.start hb hbl hc 0 false⟩
    · rintro _ ⟨q, rfl, hq⟩
      obtain ⟨q', log, e1, e2⟩ := gn_progress h hT hdim hsE hL hq
      exact ⟨_, log, e1, q', rfl, e2⟩
  · have hm : sE.maxIterations = s.maxIterations := congrArg Criteria.maxIterations hsE.criteria
    have := C38_levenberg_marquardt CE gE sE (a.map fin)
    rw [hm] at this
    refine progress_solve h hT ha hl hv hp
      (fun st => ∃ q : LMState ℝ, st = q.map fin ∧ GoodState C (g.ops F C) (Graph.variablesOf fs) q.toState ∧ 0 ≤ q.lambd)
      (fun st ⟨q, e, hq, _⟩ => ⟨q.toState, by rw [e]; rfl, hq⟩) (fun b hb hbl => ?_) ?_ this
    · obtain ⟨c, r, hc⟩ := hT.cost b hb hbl
      exact ⟨_, (lmInit_fin h hsE).2 ⟨c, r, hc, rfl⟩, _, rfl, GoodState.start hb hbl hc 0 false, h3⟩
    · rintro _ ⟨q, rfl, hq, hq2⟩
      obtain ⟨q', log, e1, e2, e3⟩ := lm_progress h hT hdim hsE h1 h2 hL hq hq2
      exact ⟨_, log, e1, q', rfl, e2, e3⟩
  · have hm : sE.maxIterations = s.maxIterations := congrArg Criteria.maxIterations hsE.criteria
    have := C38_dogleg CE gE sE (a.map fin)
    rw [hm] at this
    refine progress_solve h hT ha hl hv hp
      (fun st => ∃ q : DoglegState ℝ, st = q.map fin ∧ GoodState C (g.ops F C) (Graph.variablesOf fs) q.toState ∧ 0 < q.radius)
      (fun st ⟨q, e, hq, _⟩ => ⟨q.toState, by rw [e]; rfl, hq⟩) (fun b hb hbl => ?_) ?_ this
    · obtain ⟨c, r, hc⟩ := hT.cost b hb hbl
      exact ⟨_, (doglegInit_fin h hsE).2 ⟨c, r, hc, rfl⟩, _, rfl, GoodState.start hb hbl hc 0 false, h2⟩
    · rintro _ ⟨q, rfl, hq, hq2⟩
      obtain ⟨q', log, e1, e2, e3⟩ := dogleg_progress h hT hdim hsE h1 hL hq hq2
      exact ⟨_, log, e1, q', rfl, e2, e3⟩
  · have hg' : gE.layout = g.layout := h.layout
    obtain ⟨c, r, hc⟩ := hT.cost a (by
      refine ⟨hs.1, ?_, ha.2.2⟩
      rw [hl, h1]; exact hT.sane.layout) h1
    have hgood := GoodState.start (C := C) (g := g.ops F C) (ws := Graph.variablesOf fs) (a := a) (by
      refine ⟨hs.1, ?_, ha.2.2⟩
      rw [hl, h1]; exact hT.sane.layout) h1 hc 0 false
    have hi := (initState_fin h (a := a)).2 ⟨c, r, hc, rfl⟩
    obtain ⟨cE, rE, hcE, -⟩ := initState_ok.1 hi
    have hstep : ∀ st : State Ext, (∃ q : State ℝ, st = q.map fin ∧ GoodState C (g.ops F C) (Graph.variablesOf fs) q) →
        ∃ st' log, sE.step CE gE st = .ok (st', log) ∧
          ∃ q : State ℝ, st' = q.map fin ∧ GoodState C (g.ops F C) (Graph.variablesOf fs) q := by
      rintro _ ⟨q, rfl, hq⟩
      obtain ⟨q', log, e1, e2⟩ := fixed_progress h hT hsE hL hq
      exact ⟨_, log, e1, q', rfl, e2⟩
    have hres : ∀ q : State ℝ, GoodState C (g.ops F C) (Graph.variablesOf fs) q →
        IsAssignmentOf C vars q.assignments ∧ q.assignments.layout = a.layout := by
      intro q hq
      have hl : q.assignments.layout = a.layout := hq.layout.trans h1.symm
      refine ⟨⟨ha.1, ?_, hq.assignment.2.2⟩, hl⟩
      rw [hl]; exact ha.2.1
    cases hu : sE.unroll with
    | true =>
      obtain ⟨st', log, e1, q, rfl, hq⟩ := forLoop_progress hstep sE.iterations.toNat _ ⟨_, rfl, hgood⟩
      obtain ⟨r1, r2⟩ := hres q hq
      refine ⟨q.assignments, _, r1, r2, fun fuel _ => fixedSolve_some.2 ⟨_, q.map fin, log, hi, ?_, rfl, rfl⟩⟩
      rw [hu, if_pos rfl, e1]; rfl
    | false =>
      rcases (fixed_counted (C := CE) (g := gE) sE).terminates (max 1 sE.iterations).toNat (s := State.map fin ⟨0, a, c, r, false⟩)
        rfl (by omega) (by simp only [id, State.map]; omega) with ⟨e, he⟩ | ⟨k, t, log, -, -, h5, -, h7⟩
      · exfalso
        have he := he _ le_rfl
        obtain ⟨o, ho, -⟩ := whileLoop_progress (done := fun s => (id s : State Ext).done) hstep (max 1 sE.iterations).toNat _
          ⟨_, rfl, hgood⟩
        rw [ho] at he; cases he
      · obtain ⟨q, rfl, hq⟩ := h5.invariant (P := fun st => ∃ q : State ℝ, st = q.map fin ∧
          GoodState C (g.ops F C) (Graph.variablesOf fs) q) (fun s s' l hs hst => by
            obtain ⟨s2, l2, e1, e2⟩ := hstep s hs
            rw [hst] at e1; cases e1; exact e2) ⟨_, rfl, hgood⟩
        obtain ⟨r1, r2⟩ := hres q hq
        refine ⟨q.assignments, _, r1, r2, fun fuel hf => fixedSolve_some.2 ⟨_, q.map fin, log, hi, ?_, rfl, rfl⟩⟩
        rw [hu, if_neg (by simp)]
        exact h7 fuel (by omega)

/-- **C72, CHOLMOD.** CHOLMOD solves every system with a Jacobian of the graph: its constant damping makes all systems regular. -/
theorem C72_cholmod (hC : GoodClasses C) (fs : List Factor) (hne : fs ≠ []) (hfs : ∀ f ∈ fs, FactorWF F C f)
    (stale : Pattern → ScipyCoo ℝ → ℝ → List ℝ → Py (List ℝ)) (addr : Nat) :
    ∃ g, Graph.make C fs = .ok g ∧ AllJacobians C (g.ops F C) (Graph.variablesOf fs)
      (TotalSolver fun A b l _ => (cholmodSolve stale .empty addr A b l).1) := by
  obtain ⟨g, hg, hS⟩ := sane_graph (F := F) hC hfs hne
  refine ⟨g, hg, fun a a' c r A h1 h2 h3 h4 h5 h6 b l i hb hl => ?_⟩
  obtain ⟨hA, -⟩ := hS.jacobian a a' c r A h1 h2 h3 h4 h5 h6
  obtain ⟨-, x, k1, k2, -⟩ := C35_cholmod stale .empty addr A hA b hb l hl (fun p hp => by cases hp)
  exact ⟨x, k1, k2⟩

/-- **C72, the other problems.** With initial values for other variables than those of the graph, or with increments instead of
values, the solvers that convert the storage order raise an assertion error. -/
theorem C72_wrong_variables (hC : GoodClasses C) (fs : List Factor) (hne : fs ≠ []) (hfs : ∀ f ∈ fs, FactorWF F C f) :
    ∃ g, Graph.make C fs = .ok g ∧ ∀ CE gE, Lifts CE gE C (g.ops F C) →
      ∀ vars a, IsAssignmentOf C vars a → ¬ (a.layout.localFlag = false ∧ ∀ v, v ∈ vars ↔ ∃ f ∈ fs, v ∈ f.vars) →
        ∀ fuel, (∀ sE : GaussNewton Ext, sE.solve CE gE fuel (a.map fin) = .error .assertion) ∧
          (∀ sE : LevenbergMarquardt Ext, sE.solve CE gE fuel (a.map fin) = .error .assertion) ∧
          (∀ sE : Dogleg Ext, sE.solve CE gE fuel (a.map fin) = .error .assertion) := by
  obtain ⟨g, hg, hS⟩ := sane_graph (F := F) hC hfs hne
  have hs := variablesOf_spec fs
  refine ⟨g, hg, fun CE gE h vars a ha hn fuel => ?_⟩
  have e : (a.map fin).updateStorageLayout CE gE.layout = .error .assertion := by
    rw [h.layout, h.updateStorageLayout, hS.layout,
      (C09_update_storage_layout C vars (Graph.variablesOf fs) false a ha hs.1).2 (by simpa only [hs.2] using hn)]
    rfl
  refine ⟨fun sE => ?_, fun sE => ?_, fun sE => ?_⟩
  · unfold GaussNewton.solve baseSolve; rw [e]; rfl
  · unfold LevenbergMarquardt.solve baseSolve; rw [e]; rfl
  · unfold Dogleg.solve baseSolve; rw [e]; rfl

/-- **C72, pose graphs.** Priors and measurements between poses of SO(2), SE(2), SO(3) and SE(3), noise models of the right size,
CHOLMOD, default settings: from any initial values for the variables of the graph, also from values that are no poses, the three
solvers with termination tests return. -/
theorem C72_pose_graphs (K : Ty → LieType) (hK : ∀ t, C t = (K t).ops.varClass) (fs : List Factor) (hne : fs ≠ [])
    (hfs : ∀ f ∈ fs, ∃ P, Measures F K f P)
    (hnoise : ∀ f ∈ fs, ∀ v ∈ f.vars, NoiseWF f.noise (K v.ty).ops.tangentDim (K v.ty).ops.tangentDim)
    (stale : Pattern → ScipyCoo ℝ → ℝ → List ℝ → Py (List ℝ)) (addr : Nat) :
    ∃ g, Graph.make C fs = .ok g ∧ ∀ CE gE, Lifts CE gE C (g.ops F C) →
      ∀ vars a, IsAssignmentOf C vars a → a.layout.localFlag = false → (∀ v, v ∈ vars ↔ ∃ f ∈ fs, v ∈ f.vars) →
        let L : LinSolver ℝ := fun A b l _ => (cholmodSolve stale .empty addr A b l).1
        (∀ sE, LiftsGN sE (GaussNewton.defaults L) → Returns C (sE.solve CE gE) 100 vars a) ∧
        (∀ sE, LiftsLM sE (LevenbergMarquardt.defaults L) → Returns C (sE.solve CE gE) 100 vars a) ∧
        (∀ sE, LiftsDogleg sE (Dogleg.defaults L) → Returns C (sE.solve CE gE) 100 vars a) := by
  have hwf : ∀ f ∈ fs, FactorWF F C f := fun f hf =>
    (C54_wellformed F C K f _ (hfs f hf).choose_spec fun v hv => ⟨hK _, hnoise f hf v hv⟩).1
  obtain ⟨g, hg, h⟩ := C72_solve_returns F C (lie_goodClasses hK) fs hne hwf
    (fun f hf v hv => by rw [hK]; exact lie_paramDim_pos _)
  obtain ⟨g', hg', hL⟩ := C72_cholmod F C (lie_goodClasses hK) fs hne hwf stale addr
  rw [hg] at hg'; cases Except.ok.inj hg'
  refine ⟨g, hg, fun CE gE hl vars a ha hf hv => ?_⟩
  obtain ⟨h1, h2, h3, -⟩ := h CE gE hl vars a ha hf hv
  refine ⟨fun sE hs => h1 sE _ hs hL, fun sE hs => h2 sE _ hs hL ?_ ?_ ?_,
    fun sE hs => h3 sE _ hs hL (cholmod_zeroAtZero stale addr) ?_⟩ <;>
    norm_num [LevenbergMarquardt.defaults, Dogleg.defaults]

end

theorem PoseEx.measured : ∀ f ∈ PoseEx.fs, ∃ P, Measures PoseEx.F PoseEx.K f P := by
  intro f hf
  simp only [PoseEx.fs, List.mem_cons, List.not_mem_nil, or_false] at hf
  obtain ⟨m1, m2, m3⟩ := PoseEx.measures
  rcases hf with rfl | rfl | rfl
  · exact ⟨_, m1⟩
  · exact ⟨_, m2⟩
  · exact ⟨_, m3⟩

theorem PoseEx.noises : ∀ f ∈ PoseEx.fs, ∀ v ∈ f.vars,
    NoiseWF f.noise (PoseEx.K v.ty).ops.tangentDim (PoseEx.K v.ty).ops.tangentDim := by
  intro f hf v hv
  simp only [PoseEx.fs, List.mem_cons, List.not_mem_nil, or_false] at hf
  rcases hf with rfl | rfl | rfl
  · obtain rfl : v = PoseEx.x := by simpa [PoseEx.prior, PriorFactor.make] using hv
    exact ⟨⟨rfl, rfl⟩, rfl⟩
  · rcases (by simpa [PoseEx.step] using hv : v = PoseEx.x ∨ v = PoseEx.y) with rfl | rfl <;>
      exact ⟨⟨⟨rfl, rfl⟩, rfl⟩, 1, rfl, one_pos⟩
  · rcases (by simpa [PoseEx.turn] using hv : v = PoseEx.r ∨ v = PoseEx.s) with rfl | rfl <;>
      exact ⟨⟨rfl, rfl⟩, rfl⟩

/-- The pose graph of `PoseEx`, solved from poses that do not satisfy its measurements. -/
example (stale : Pattern → ScipyCoo ℝ → ℝ → List ℝ → Py (List ℝ)) (addr : Nat) : ∃ g a, Graph.make PoseEx.C PoseEx.fs = .ok g ∧
    Holds PoseEx.C PoseEx.fs [PoseEx.x, PoseEx.y, PoseEx.r, PoseEx.s] (poseValue PoseEx.K (PoseEx.pose false)) a ∧
    Returns PoseEx.C ((GaussNewton.defaults fun A b l _ => (cholmodSolve stale .empty addr A b l).1).lift.solve
      (fun t => (PoseEx.C t).lift) (g.ops PoseEx.F PoseEx.C).lift) 100 [PoseEx.x, PoseEx.y, PoseEx.r, PoseEx.s] a := by
  obtain ⟨a, ha⟩ := PoseEx.holds false
  obtain ⟨g, hg, h⟩ := C72_pose_graphs PoseEx.F PoseEx.C PoseEx.K (fun _ => rfl) PoseEx.fs (by simp [PoseEx.fs]) PoseEx.measured PoseEx.noises stale addr
  exact ⟨g, a, hg, ha, (h _ _ (lifts_lift _ _) _ a ha.assignment ha.isGlobal ha.sameVars).1 _ (liftsGN_lift _)⟩

end Jaxfg.Props
