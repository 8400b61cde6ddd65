/- C110: solvers with conjugate gradients where no column of the Jacobian vanishes. -/
import Verif.Lemmas.CgFinite
import Verif.Lemmas.Weight
import Verif.Props.ZeroColumn
import Verif.Props.Weight

namespace Jaxfg.Props
open Spec Matrix
open Ext (fin nan)

section
variable {CE : Ty → VarClass Ext} {gE : GraphOps Ext} {C : Ty → VarClass ℝ} {g : GraphOps ℝ} {P : Assign ℝ → Prop}

/-- Conjugate gradients on extended reals are conjugate gradients on reals where the solvers call them. -/
theorem cg_agrees (hP : ∀ a r A, P a → ResidualIn g P r → g.jacobian a r = .ok A → CooWF A ∧ ∀ j < A.shape.2, ¬ ZeroAt A j)
    (tol : Nat → ℝ) : AgreesOn g P (cgLinear fun i => fin (tol i)) (fun A b l i => cgSolve A b l (tol i)) := by
  intro a r A b ha hr hj hb l hl i
  obtain ⟨hwf, hcol⟩ := hP a r A ha hr hj
  obtain ⟨-, l2, l3⟩ := matmul_vec (cooWF_T hwf) hb
  have l3' : vec b A.shape.2 = (cooMatrix A A.shape.1 A.shape.2)ᵀ *ᵥ vec (r.map fun x => -x) A.shape.1 := by
    rw [← cooMatrix_T]; exact l3
  exact cgSolveS_eq hwf (fun j => hcol j j.2) l2 hl _ l3' (tol i)

/-- **C110**, Gauss-Newton. Let `P` contain the initial values, be closed under retraction, and no Jacobian in `P` have a column of zeros.
With conjugate gradients the solver then does in arithmetic with infinities and NaN what it does in real numbers. -/
theorem C110_gauss_newton (h : Lifts CE gE C g) (hP : NoZeroColumns C g P) (s : GaussNewton ℝ) (tol : Nat → ℝ)
    (hs : s.linear = fun A b l i => cgSolve A b l (tol i)) (a : Assign ℝ) (ha : ∀ b, a.updateStorageLayout C g.layout = .ok b → P b)
    (fuel : Nat) :
    ({ s.lift with linear := cgLinear fun i => fin (tol i) } : GaussNewton Ext).solve CE gE fuel (a.map fin) =
      s.lift.solve CE gE fuel (a.map fin) := by
  have hlift : s.lift = { s.lift with linear := LinSolver.lift fun A b l i => cgSolve A b l (tol i) } := by
    rw [← hs]; rfl
  unfold GaussNewton.solve
  refine baseSolve_congr fun b st hb hi => ?_
  rw [h.updateStorageLayout, h.layout] at hb
  obtain ⟨b, hb0, rfl⟩ := py_map_eq_ok.1 hb
  obtain ⟨c, r, hc0, rfl⟩ := (initState_fin h).1 hi
  refine whileLoop_congr (fun st => ∃ p : State ℝ, st = p.map fin ∧ P p.assignments ∧ ResidualIn g P p.residual) ?_ ?_ fuel _ ⟨_, rfl, ha b hb0, b, c, ha b hb0, hc0⟩
  · rintro _ ⟨p, rfl, hp, hr⟩ -
    have := gn_step_agrees h hP (cg_agrees hP.columns tol) s.lift p hp hr
    rw [← hlift] at this
    exact this
  · rintro _ st' log ⟨p, rfl, hp, hr⟩ - hst
    obtain ⟨A, ATr, d, b', c', r', conv, -, -, -, hb', hc', -, rfl, -⟩ := (gnStep_fin h (liftsGN_lift s)).1 hst
    have hb1 := hP.retract _ _ _ hp hb'
    exact ⟨_, rfl, hb1, b', c', hb1, hc'⟩

/-- **C110**, Levenberg-Marquardt. -/
theorem C110_levenberg_marquardt (h : Lifts CE gE C g) (hP : NoZeroColumns C g P) (s : LevenbergMarquardt ℝ) (tol : Nat → ℝ)
    (hs : s.linear = fun A b l i => cgSolve A b l (tol i)) (hf : 0 < s.lambdaFactor) (hmin : 0 ≤ s.lambdaMin) (hl : 0 ≤ s.lambdaInitial)
    (a : Assign ℝ) (ha : ∀ b, a.updateStorageLayout C g.layout = .ok b → P b) (fuel : Nat) :
    ({ s.lift with linear := cgLinear fun i => fin (tol i) } : LevenbergMarquardt Ext).solve CE gE fuel (a.map fin) =
      s.lift.solve CE gE fuel (a.map fin) := by
  have hlift : s.lift = { s.lift with linear := LinSolver.lift fun A b l i => cgSolve A b l (tol i) } := by
    rw [← hs]; rfl
  unfold LevenbergMarquardt.solve
  refine baseSolve_congr fun b st hb hi => ?_
  rw [h.updateStorageLayout, h.layout] at hb
  obtain ⟨b, hb0, rfl⟩ := py_map_eq_ok.1 hb
  obtain ⟨p, rfl, hp, hr, hpl⟩ : ∃ p : LMState ℝ, st = p.map fin ∧ P p.assignments ∧ ResidualIn g P p.residual ∧ 0 ≤ p.lambd := by
    unfold LevenbergMarquardt.init at hi
    simp only [py_bind_eq_ok] at hi
    obtain ⟨st0, h0, h1⟩ := hi
    obtain ⟨c, r, hc0, rfl⟩ := (initState_fin h).1 h0
    exact ⟨⟨⟨0, b, c, r, false⟩, s.lambdaInitial⟩, (Except.ok.inj h1).symm, ha b hb0, ⟨b, c, ha b hb0, hc0⟩, hl⟩
  refine whileLoop_congr (fun st => ∃ p : LMState ℝ, st = p.map fin ∧ P p.assignments ∧ ResidualIn g P p.residual ∧ 0 ≤ p.lambd) ?_ ?_ fuel _ ⟨p, rfl, hp, hr, hpl⟩
  · rintro _ ⟨p, rfl, hp, hr, hpl⟩ -
    have := lm_step_agrees h (cg_agrees hP.columns tol) s.lift p hp hr hpl
    rw [← hlift] at this
    exact this
  · rintro _ st' log ⟨p, rfl, hp, hr, hpl⟩ - hst
    obtain ⟨A, ATb, d, b', c', r', As, acc, conv, -, -, -, hb', hc', -, -, -, -, rfl, -⟩ := (lmStep_fin h (liftsLM_lift s) hf.ne').1 hst
    have hb1 := hP.retract _ _ _ hp hb'
    refine ⟨_, rfl, ?_, ⟨b', c', hb1, hc'⟩, nextLambda_nonneg hf hmin acc hpl⟩
    cases acc
    · exact hp
    · exact hb1

/-- **C110**, dogleg. -/
theorem C110_dogleg (h : Lifts CE gE C g) (hP : NoZeroColumns C g P) (s : Dogleg ℝ) (tol : Nat → ℝ)
    (hs : s.linear = fun A b l i => cgSolve A b l (tol i)) (hρ : 0 < s.radiusInitial)
    (a : Assign ℝ) (ha : ∀ b, a.updateStorageLayout C g.layout = .ok b → P b) (fuel : Nat) :
    ({ s.lift with linear := cgLinear fun i => fin (tol i) } : Dogleg Ext).solve CE gE fuel (a.map fin) =
      s.lift.solve CE gE fuel (a.map fin) := by
  have hlift : s.lift = { s.lift with linear := LinSolver.lift fun A b l i => cgSolve A b l (tol i) } := by
    rw [← hs]; rfl
  unfold Dogleg.solve
  refine baseSolve_congr fun b st hb hi => ?_
  rw [h.updateStorageLayout, h.layout] at hb
  obtain ⟨b, hb0, rfl⟩ := py_map_eq_ok.1 hb
  obtain ⟨p, rfl, hp, hr, hpr⟩ : ∃ p : DoglegState ℝ, st = p.map fin ∧ P p.assignments ∧ ResidualIn g P p.residual ∧ 0 < p.radius := by
    unfold Dogleg.init at hi
    simp only [py_bind_eq_ok] at hi
    obtain ⟨st0, h0, h1⟩ := hi
    obtain ⟨c, r, hc0, rfl⟩ := (initState_fin h).1 h0
    exact ⟨⟨⟨0, b, c, r, false⟩, s.radiusInitial⟩, (Except.ok.inj h1).symm, ha b hb0, ⟨b, c, ha b hb0, hc0⟩, hρ⟩
  refine whileLoop_congr (fun st => ∃ p : DoglegState ℝ, st = p.map fin ∧ P p.assignments ∧ ResidualIn g P p.residual ∧ 0 < p.radius) ?_ ?_ fuel _ ⟨p, rfl, hp, hr, hpr⟩
  · rintro _ ⟨p, rfl, hp, hr, -⟩ -
    have := dogleg_step_agrees h (cg_agrees hP.columns tol) s.lift p hp hr
    rw [← hlift] at this
    exact this
  · rintro _ st' log ⟨p, rfl, hp, hr, hpr⟩ - hst
    obtain ⟨A, ATb, gn, d, b', c', r', As, q, conv, -, -, -, -, hb', hc', -, -, -, -, rfl, -⟩ := (doglegSolverStep_fin h (liftsDogleg_lift s)
      (dogleg_hfin_of (by rw [hs]; exact cg_zeroAtZero tol) (fun A hA => (hP.columns _ _ _ hp hr hA).1) hpr)).1 hst
    have hb1 := hP.retract _ _ _ hp hb'
    refine ⟨_, rfl, ?_, ⟨b', c', hb1, hc'⟩, nextRadius_pos hpr⟩
    show P (if _ then b' else p.assignments)
    split
    · exact hb1
    · exact hp

/-- **C110**, a fixed number of Gauss-Newton steps, unrolled or not. -/
theorem C110_fixed_iteration (h : Lifts CE gE C g) (hP : NoZeroColumns C g P) (sE : FixedIteration Ext) (tol : Nat → ℝ)
    (hs : sE.linear = cgLinear fun i => fin (tol i)) (a : Assign ℝ) (ha : P a) (fuel : Nat) :
    sE.solve CE gE fuel (a.map fin) =
      ({ sE with linear := LinSolver.lift fun A b l i => cgSolve A b l (tol i) } : FixedIteration Ext).solve CE gE fuel (a.map fin) := by
  have hstep : ∀ st, (∃ p : State ℝ, st = p.map fin ∧ P p.assignments ∧ ResidualIn g P p.residual) → sE.step CE gE st =
      ({ sE with linear := LinSolver.lift fun A b l i => cgSolve A b l (tol i) } : FixedIteration Ext).step CE gE st := by
    rintro _ ⟨p, rfl, hp, hr⟩
    have := fixed_step_agrees h hP (cg_agrees hP.columns tol) sE p hp hr
    rw [← this]
    congr 1
    cases sE
    simp only at hs
    rw [hs]
  have hstay : ∀ st st' log, (∃ p : State ℝ, st = p.map fin ∧ P p.assignments ∧ ResidualIn g P p.residual) →
      ({ sE with linear := LinSolver.lift fun A b l i => cgSolve A b l (tol i) } : FixedIteration Ext).step CE gE st = .ok (st', log) →
      ∃ p : State ℝ, st' = p.map fin ∧ P p.assignments ∧ ResidualIn g P p.residual := by
    rintro _ st' log ⟨p, rfl, hp, hr⟩ hst
    obtain ⟨A, ATr, d, b', c', r', -, -, -, hb', hc', rfl, -⟩ :=
      (fixedStep_fin h (liftsSolver_lift fun A b l i => cgSolve A b l (tol i))).1 hst
    have hb1 := hP.retract _ _ _ hp hb'
    exact ⟨_, rfl, hb1, b', c', hb1, hc'⟩
  unfold FixedIteration.solve
  cases hc : gE.computeCost (a.map fin) with
  | error e => rfl
  | ok cr =>
    simp only [py_bind_ok]
    cases hi : initState gE (a.map fin) with
    | error e => rfl
    | ok st =>
      simp only [py_bind_ok]
      obtain ⟨c, r, hc0, rfl⟩ := (initState_fin h).1 hi
      rw [forLoop_congr _ hstep hstay _ _ ⟨_, rfl, ha, a, c, ha, hc0⟩,
        whileLoop_congr _ (fun st hst _ => hstep st hst) (fun st st' log hst _ => hstay st st' log hst) fuel _ ⟨_, rfl, ha, a, c, ha, hc0⟩]

end

/-- A matrix of full column rank has no column of zeros. -/
theorem noZero_of_rank {A : Coo ℝ} (hA : ∀ v, cooMatrix A A.shape.1 A.shape.2 *ᵥ v = 0 → v = 0) : ∀ j < A.shape.2, ¬ ZeroAt A j := by
  intro j hj hz
  have h0 : cooMatrix A A.shape.1 A.shape.2 *ᵥ Pi.single ⟨j, hj⟩ 1 = 0 := by
    funext i
    rw [mulVec_single_one]
    show cooMatrix A A.shape.1 A.shape.2 i ⟨j, hj⟩ = 0
    refine List.sum_eq_zero fun x hx => ?_
    obtain ⟨e, he, rfl⟩ := List.mem_map.1 hx
    obtain ⟨he, h2⟩ := List.mem_filter.1 he
    exact hz e he (of_decide_eq_true h2).2
  have := congrFun (hA _ h0) ⟨j, hj⟩
  simp at this

/-- **C110, rank.** It is enough that all Jacobians in `P` have full column rank. -/
theorem C110_full_rank (C : Ty → VarClass ℝ) (g : GraphOps ℝ) (P : Assign ℝ → Prop)
    (hret : ∀ a d b, P a → a.manifoldRetract C ⟨d, g.localLayout⟩ = .ok b → P b)
    (hrank : ∀ a r A, P a → ResidualIn g P r → g.jacobian a r = .ok A →
      CooWF A ∧ ∀ v, cooMatrix A A.shape.1 A.shape.2 *ᵥ v = 0 → v = 0) : NoZeroColumns C g P :=
  ⟨hret, fun a r A ha hr hA => ⟨(hrank a r A ha hr hA).1, noZero_of_rank (hrank a r A ha hr hA).2⟩⟩

theorem zeroAt_weight {w : ℝ} {A : Coo ℝ} {j : Nat} (h : ZeroAt A j) : ZeroAt (weightCoo w A) j := by
  intro e he hj
  have : entries (weightCoo w A) = (entries A).map fun e => (e.1, e.2.1, w * e.2.2) := by
    unfold entries weightCoo
    simp only
    rw [List.zip_map_right, List.zip_map_right]
    rfl
  rw [this] at he
  obtain ⟨e0, h0, rfl⟩ := List.mem_map.1 he
  show w * e0.2.2 = 0
  rw [h e0 h0 hj, mul_zero]

section
variable (F : Nat → FactorClass) (C : Ty → VarClass ℝ)

/-- Another weight does not make columns vanish. -/
theorem noZero_weight (hC : GoodClasses C) {fs : List Factor} (hne : fs ≠ []) (hfs : ∀ f ∈ fs, FactorWF F C f)
    (hi : ∀ f ∈ fs, IgnoresNoise F f) {w : ℝ} (hw : 0 < w) {g g' : Graph} (hG : GraphOf F C fs g)
    (hG' : GraphOf F C (fs.map (weightFactor w)) g') {P : Assign ℝ → Prop} (hP : NoZeroColumns C (g.ops F C) P) :
    NoZeroColumns C (g'.ops F C) fun a => P a ∧ ∃ val, Stores C (Graph.variablesOf fs) val a := by
  have h := weighted_graph hC hfs hne hi hw hG hG'
  have hback : (fs.map (weightFactor w)).map (weightFactor w⁻¹) = fs := by
    rw [List.map_map]
    conv_rhs => rw [← List.map_id fs]
    exact List.map_congr_left fun f _ => weightFactor_inverse hw f
  have hvo : Graph.variablesOf (fs.map (weightFactor w)) = Graph.variablesOf fs := variablesOf_map fun _ _ => rfl
  have h' := weighted_graph (w := w⁻¹) (fs := fs.map (weightFactor w)) hC (by
    intro f hf
    obtain ⟨f0, h0, rfl⟩ := List.mem_map.1 hf
    exact weightFactor_wf hw (hi f0 h0) (hfs f0 h0)) (by simpa using hne) (by
    intro f hf
    obtain ⟨f0, h0, rfl⟩ := List.mem_map.1 hf
    intro N vals
    have k1 := hi f0 h0 N vals
    have k2 := hi f0 h0 (weightNoise w f0.noise) vals
    exact ⟨k1.1.trans k2.1.symm, k1.2.trans k2.2.symm⟩) (inv_pos.2 hw) hG' (by rw [hback]; exact hG)
  rw [hvo] at h'
  have hs := variablesOf_spec fs
  constructor
  · rintro a d b ⟨ha, val, hval⟩ hb
    rw [h.localLayout] at hb
    refine ⟨hP.retract a d b ha hb, ?_⟩
    obtain ⟨e1, e2⟩ := manifoldRetract_shape hb
    have hia : IsAssignmentOf C (Graph.variablesOf fs) b := by
      obtain ⟨k1, k2, k3⟩ := hval.1.isAssignment
      exact ⟨k1, by rw [e1]; exact k2, by rw [e1, e2]; exact k3⟩
    have hflag : b.layout.localFlag = false := by rw [e1]; exact hval.1.flag
    obtain ⟨f, hf⟩ := exists_rep hia
    rw [hflag] at hf
    exact ⟨_, stores_of_holds (fs := fs) (val := fun v => unravel (C v.ty).default (f v)) hC
      ⟨hia, hflag, hs.2, fun v hv => hf.getValue_ok hv⟩⟩
  · rintro a r A ⟨ha, hval⟩ ⟨a', c', ⟨ha', hval'⟩, hc'⟩ hA
    obtain ⟨k1, k2⟩ := h'.cost hval' hc'
    obtain ⟨k3, k4, -⟩ := h'.jac hval k2 hA
    refine ⟨k4, fun j hj hz => ?_⟩
    exact (hP.columns _ _ _ ha ⟨a', _, ha', k1⟩ k3).2 j hj (zeroAt_weight hz)

/-- **C110, weights.** `C102` for conjugate gradients with infinities and NaN: if no Jacobian of the original graph in `P` has a column of
zeros, the weight of all measurements does not matter. -/
theorem C110_weight (hC : GoodClasses C) (fs : List Factor) (hne : fs ≠ []) (hfs : ∀ f ∈ fs, FactorWF F C f)
    (hpos : ∀ f ∈ fs, ∀ v ∈ f.vars, 0 < (C v.ty).paramDim) (hi : ∀ f ∈ fs, IgnoresNoise F f) (w : ℝ) (hw : 0 < w) (tol : Nat → ℝ) :
    ∃ g g', Graph.make C fs = .ok g ∧ Graph.make C (fs.map (weightFactor w)) = .ok g' ∧
      ∀ CE gE gE', Lifts CE gE C (g.ops F C) → Lifts CE gE' C (g'.ops F C) →
      ∀ P, NoZeroColumns C (g.ops F C) P →
      ∀ vars val a, Holds C fs vars val a → (∀ b, a.updateStorageLayout C g.layout = .ok b → P b) →
      ∀ LE : LinSolver Ext, LE = cgLinear (fun i => fin (tol i)) →
        (∀ (s : GaussNewton ℝ) t', WeightedSettings C vars w s.toCriteria t' →
          SolvesWeighted w (GaussNewton.solve CE gE { s.lift with linear := LE })
            (GaussNewton.solve CE gE' { ({ s with toCriteria := t' } : GaussNewton ℝ).lift with linear := LE }) a) ∧
        (∀ (s : LevenbergMarquardt ℝ) t', WeightedSettings C vars w s.toCriteria t' → 0 < s.lambdaFactor → 0 ≤ s.lambdaMin →
          0 ≤ s.lambdaInitial → SolvesWeighted w (LevenbergMarquardt.solve CE gE { s.lift with linear := LE })
            (LevenbergMarquardt.solve CE gE' { ({ s with toCriteria := t' } : LevenbergMarquardt ℝ).lift with linear := LE }) a) ∧
        (∀ (s : Dogleg ℝ) t', WeightedSettings C vars w s.toCriteria t' → 0 < s.radiusInitial →
          SolvesWeighted w (Dogleg.solve CE gE { s.lift with linear := LE })
            (Dogleg.solve CE gE' { ({ s with toCriteria := t' } : Dogleg ℝ).lift with linear := LE }) a) ∧
        (∀ sE : FixedIteration Ext, sE.linear = LE → a.layout = g.layout →
          SolvesWeighted w (sE.solve CE gE) (sE.solve CE gE') a) := by
  obtain ⟨g, g', hg, hg', hall⟩ := C102_weight F C hC fs hne hfs hpos hi w hw tol
  obtain ⟨g0, e0, hG⟩ := graph_ok (F := F) hfs hne
  obtain rfl : g0 = g := Except.ok.inj (e0.symm.trans hg)
  obtain ⟨g1, e1, hG'⟩ := graph_ok (F := F) (fs := fs.map (weightFactor w)) (C := C) (by
    intro f hf
    obtain ⟨f0, h0, rfl⟩ := List.mem_map.1 hf
    exact weightFactor_wf hw (hi f0 h0) (hfs f0 h0)) (by simpa using hne)
  obtain rfl : g1 = g' := Except.ok.inj (e1.symm.trans hg')
  refine ⟨_, _, hg, hg', ?_⟩
  rintro CE gE gE' hl hl' P hP vars val a ha hPa _ rfl
  obtain ⟨w1, w2, w3, w4⟩ := hall CE gE gE' hl hl' vars val a ha _ rfl
  have hP' := noZero_weight F C hC hne hfs hi hw hG hG' hP
  have hlay : (g1.ops F C).layout = (g0.ops F C).layout := (weighted_graph hC hfs hne hi hw hG hG').layout
  have hs := variablesOf_spec fs
  obtain ⟨b, u1, -, u2⟩ := (stores_of_holds hC ha).update hs.1 (fun v => by rw [ha.sameVars, hs.2]) fun v hv => by
    obtain ⟨f, hf, hv⟩ := (ha.sameVars v).1 hv; exact hpos f hf v hv
  rw [← hG.layout] at u1
  have hPa' : ∀ x, a.updateStorageLayout C (g1.ops F C).layout = .ok x → P x ∧ ∃ val, Stores C (Graph.variablesOf fs) val x := by
    intro x hx
    rw [hlay] at hx
    have hx : a.updateStorageLayout C g0.layout = .ok x := hx
    obtain rfl : b = x := Except.ok.inj (u1.symm.trans hx)
    exact ⟨hPa b hx, val, u2⟩
  refine ⟨?_, ?_, ?_, ?_⟩
  · intro s t' ht fuel out log hq
    have e := C110_gauss_newton hl hP { s with linear := fun A b l i => cgSolve A b l (tol i) } tol rfl a hPa fuel
    have e' := C110_gauss_newton hl' hP' { s with toCriteria := t', linear := fun A b l i => cgSolve A b l (tol i) } tol rfl a hPa' fuel
    exact e'.trans (w1 _ _ { s with linear := fun A b l i => cgSolve A b l (tol i) } _ (liftsGN_lift _) (liftsGN_lift _) rfl ⟨t', rfl, ht⟩ fuel out log (e.symm.trans hq))
  · intro s t' ht hf hm hi fuel out log hq
    have e := C110_levenberg_marquardt hl hP { s with linear := fun A b l i => cgSolve A b l (tol i) } tol rfl hf hm hi a hPa fuel
    have e' := C110_levenberg_marquardt hl' hP' { s with toCriteria := t', linear := fun A b l i => cgSolve A b l (tol i) } tol rfl
      hf hm hi a hPa' fuel
    exact e'.trans (w2 _ _ { s with linear := fun A b l i => cgSolve A b l (tol i) } _ (liftsLM_lift _) (liftsLM_lift _) rfl hf.ne' ⟨t', rfl, ht⟩ fuel out log (e.symm.trans hq))
  · intro s t' ht hr fuel out log hq
    have e := C110_dogleg hl hP { s with linear := fun A b l i => cgSolve A b l (tol i) } tol rfl hr a hPa fuel
    have e' := C110_dogleg hl' hP' { s with toCriteria := t', linear := fun A b l i => cgSolve A b l (tol i) } tol rfl hr a hPa' fuel
    exact e'.trans (w3 _ _ { s with linear := fun A b l i => cgSolve A b l (tol i) } _ (liftsDogleg_lift _) (liftsDogleg_lift _) rfl hr ⟨t', rfl, ht⟩ fuel out log (e.symm.trans hq))
  · intro sE hsE hal fuel out log hq
    have u0 : a.updateStorageLayout C g0.layout = .ok a := by
      unfold Assign.updateStorageLayout; rw [hal, hG.layout, layoutEq_refl C hs.1]; rfl
    have e := C110_fixed_iteration hl hP sE tol hsE a (hPa a u0) fuel
    have e' := C110_fixed_iteration hl' hP' sE tol hsE a (hPa' a (by rw [hlay]; exact u0)) fuel
    have := w4 { sE with linear := LinSolver.lift fun A b l i => cgSolve A b l (tol i) } (liftsSolver_lift fun A b l i => cgSolve A b l (tol i)) hal fuel out log
      (e.symm.trans hq)
    exact e'.trans this

end

/-! ### Example -/

section
open Poly

/-- Non-vacuity: the measurement `x - 1` has the Jacobian 1 at every assignment of `x`. -/
theorem poly_noZero : NoZeroColumns Ex.C ((g (-1) 1 0).ops F Ex.C) fun a => ∃ v, a = at_ v := by
  constructor
  · rintro _ d b ⟨v, rfl⟩ hb
    obtain ⟨e1, e2⟩ := manifoldRetract_shape hb
    obtain ⟨st, l⟩ := b
    obtain rfl : l = _ := e1
    match st, e2 with
    | [v'], _ => exact ⟨v', rfl⟩
  · rintro _ r A ⟨v, rfl⟩ ⟨_, c, ⟨v', rfl⟩, hc⟩ hA
    rw [cost_eq] at hc
    obtain ⟨-, rfl⟩ := Prod.mk.inj (Except.ok.inj hc)
    rw [jac_eq] at hA
    obtain rfl := Except.ok.inj hA
    exact ⟨⟨rfl, rfl, by simp, by simp⟩, fun j hj => by
      have : j = 0 := by simpa using hj
      simp [ZeroAt, entries, this]⟩

/-- With it, the hypotheses of C110 hold for the assignments of `x`, and for the default settings of all solvers. -/
example (v : ℝ) (L : LinSolver ℝ) : (∃ CE gE, Lifts CE gE Ex.C ((g (-1) 1 0).ops F Ex.C)) ∧
    (∀ b, (at_ v).updateStorageLayout Ex.C (g (-1) 1 0).layout = .ok b → ∃ v', b = at_ v') ∧
    0 < (LevenbergMarquardt.defaults L).lambdaFactor ∧ 0 ≤ (LevenbergMarquardt.defaults L).lambdaMin ∧
    0 ≤ (LevenbergMarquardt.defaults L).lambdaInitial ∧ 0 < (Dogleg.defaults L).radiusInitial := by
  refine ⟨⟨_, _, lifts_lift _ _⟩, fun b hb => ⟨v, ?_⟩, ?_⟩
  · have : (at_ v).updateStorageLayout Ex.C (g (-1) 1 0).layout = .ok (at_ v) := rfl
    exact (Except.ok.inj (this.symm.trans hb)).symm
  · norm_num [LevenbergMarquardt.defaults, Dogleg.defaults]

end

end Jaxfg.Props
