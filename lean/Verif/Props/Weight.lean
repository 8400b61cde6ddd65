/-
Property C102: the weight of all measurements. See Verif.Props.SolverReal for the setting: real arithmetic, inside a program that
also knows infinities and NaNs.
-/
import Verif.Lemmas.WeightExt
import Verif.Lemmas.SymmetryPose
import Verif.Lemmas.ExamplePoly
import Verif.Props.Likelihood

namespace Jaxfg.Props
open Spec
open Ext (fin)
open Matrix hiding vec

/-- **C102, steps.** A conjugate gradient step does not depend on the common weight of the measurements: the damping and the
stopping rule scale with them (jaxfg/sparse/_linear_solve.py:51-53, 116). -/
theorem C102_cg (tol : Nat → ℝ) : WeightFree (fun A b l i => cgSolve A b l (tol i)) :=
  fun _ hw A b l i => weight_cgSolve hw A b l (tol i)

/-- **C102, steps with infinities and NaN.** The same for conjugate gradients in the arithmetic of the program, for every matrix, also one
with columns of zeros, where the code divides by zero, and for entries that are not finite. -/
theorem C102_cg_infinite (w : ℝ) (hw : 0 < w) (values : List Ext) (rows cols : List Nat) (shape : Nat × Nat) (b : List Ext) (l tol : Ext) :
    cgSolveS ⟨values.map (fin w * ·), rows, cols, shape⟩ (b.map (fin (w ^ 2) * ·)) l tol = cgSolveS ⟨values, rows, cols, shape⟩ b l tol :=
  weight_cgSolveE hw ⟨values, rows, cols, shape⟩ b l tol

/-- **C102, units.** Conjugate gradient steps, with a tolerance of zero, do not depend on the units of the variables either: if the
coordinate `j` is measured in other units, the coordinate `j` of the step is the same step in other units. -/
theorem C102_units (A : Coo ℝ) (hA : CooWF A) (b : List ℝ) (hb : b.length = A.shape.2) (lambd : ℝ) (hl : 0 ≤ lambd)
    (hrank : ∀ v, cooMatrix A A.shape.1 A.shape.2 *ᵥ v = 0 → v = 0) (s : Nat → ℝ) (hs : ∀ j, s j ≠ 0) :
    ∃ x, cgSolve A b lambd 0 = .ok x ∧ x.length = A.shape.2 ∧
      cgSolve (scaleColumns s A) (b.mapIdx fun j v => v * s j) lambd 0 = .ok (x.mapIdx fun j v => v / s j) :=
  cg_units hA hb hl hrank hs

section
variable (F : Nat → FactorClass) (C : Ty → VarClass ℝ)

/-- **C102, any such linear solver.** Let the steps of the linear solver not depend on the weight. Multiply the square root
precisions of all factors by `w`. All solvers return what they returned for the original graph, and print `w²` times its costs.
The gradient test must be off or have a tolerance that fits. -/
theorem C102_weight_free (hC : GoodClasses C) (fs : List Factor) (hne : fs ≠ []) (hfs : ∀ f ∈ fs, FactorWF F C f)
    (hpos : ∀ f ∈ fs, ∀ v ∈ f.vars, 0 < (C v.ty).paramDim) (hi : ∀ f ∈ fs, IgnoresNoise F f) (w : ℝ) (hw : 0 < w) :
    ∃ g g', Graph.make C fs = .ok g ∧ Graph.make C (fs.map (weightFactor w)) = .ok g' ∧
      ∀ CE gE gE', Lifts CE gE C (g.ops F C) → Lifts CE gE' C (g'.ops F C) →
      ∀ vars val a, Holds C fs vars val a → ∀ L, WeightFree L → SizedSolutions L →
        (∀ sE sE' s s', LiftsGN sE s → LiftsGN sE' s' → s.linear = L → (∃ t', s' = { s with toCriteria := t' } ∧
          WeightedSettings C vars w s.toCriteria t') → SolvesWeighted w (sE.solve CE gE) (sE'.solve CE gE') a) ∧
        (∀ sE sE' s s', LiftsLM sE s → LiftsLM sE' s' → s.linear = L → s.lambdaFactor ≠ 0 → (∃ t', s' = { s with toCriteria := t' } ∧
          WeightedSettings C vars w s.toCriteria t') → SolvesWeighted w (sE.solve CE gE) (sE'.solve CE gE') a) ∧
        (∀ sE sE' s s', LiftsDogleg sE s → LiftsDogleg sE' s' → s.linear = L → ZeroAtZero L → 0 < s.radiusInitial →
          (∃ t', s' = { s with toCriteria := t' } ∧ WeightedSettings C vars w s.toCriteria t') →
          SolvesWeighted w (sE.solve CE gE) (sE'.solve CE gE') a) ∧
        (∀ sE : FixedIteration Ext, LiftsSolver sE.linear L → a.layout = g.layout →
          SolvesWeighted w (sE.solve CE gE) (sE.solve CE gE') a) := by
  obtain ⟨g, hg, hG⟩ := graph_ok (F := F) hfs hne
  obtain ⟨g', hg', hG'⟩ := graph_ok (F := F) (fs := fs.map (weightFactor w)) (C := C) (by
    intro f hf
    obtain ⟨f0, h0, rfl⟩ := List.mem_map.1 hf
    exact weightFactor_wf hw (hi f0 h0) (hfs f0 h0)) (by simpa using hne)
  refine ⟨g, g', hg, hg', fun CE gE gE' hl hl' vars val a ha L hF hZ => ?_⟩
  have h := weighted_graph hC hfs hne hi hw hG hG'
  have hs := variablesOf_spec fs
  obtain ⟨b, u1, -, u2⟩ := (stores_of_holds hC ha).update hs.1 (fun v => by rw [ha.sameVars, hs.2]) fun v hv => by
    obtain ⟨f, hf, hv⟩ := (ha.sameVars v).1 hv; exact hpos f hf v hv
  rw [← hG.layout] at u1
  have hin : ∀ {x}, a.updateStorageLayout C (g.ops F C).layout = .ok x → ∃ val, Stores C (Graph.variablesOf fs) val x := by
    intro x hx
    have hx : a.updateStorageLayout C g.layout = .ok x := hx
    obtain rfl : b = x := Except.ok.inj (u1.symm.trans hx)
    exact ⟨val, u2⟩
  have tests : ∀ {t t'}, WeightedSettings C vars w t t' →
      WeightTests C w (g.ops F C).localLayout (fun a => ∃ val, Stores C (Graph.variablesOf fs) val a) t t' := by
    intro t t' ht
    have : (g.ops F C).localLayout = Layout.make C (Graph.variablesOf fs) true := hG.localLayout
    rw [this]
    refine weight_tests hC hs.1 hw ?_
    rcases ht with ht | ⟨h1, h2⟩
    · exact .inl ht
    · exact .inr ⟨fun v hv => h1 v (by rw [ha.sameVars, ← hs.2]; exact hv), h2⟩
  refine ⟨?_, ?_, ?_, ?_⟩
  · rintro sE sE' s _ h1 h2 rfl ⟨t', rfl, h3⟩ fuel out log hq
    exact h.gnSolve hw hl hl' h1 h2 rfl rfl hF hZ (tests h3) hin hq
  · rintro sE sE' s _ h1 h2 rfl h4 ⟨t', rfl, h3⟩ fuel out log hq
    exact h.lmSolve hw hl hl' h1 h2 h4 hF hZ (tests h3) hin hq
  · rintro sE sE' s _ h1 h2 rfl h4 h5 ⟨t', rfl, h3⟩ fuel out log hq
    exact h.doglegSolve hw hl hl' h1 h2 hF h4 h5 (tests h3) hin hq
  · intro sE h1 h2 fuel out log hq
    have e1 : a.updateStorageLayout C g.layout = .ok a := by
      unfold Assign.updateStorageLayout; rw [h2, hG.layout, layoutEq_refl C hs.1]; rfl
    exact h.fixedSolve hw hl hl' h1 hF hZ (hin e1) hq

/-- **C102.** With conjugate gradients, and any tolerances, the weight of all measurements does not matter: all solvers return what
they returned for the original graph, and print `w²` times its costs. The gradient test must be off or have a tolerance that fits. -/
theorem C102_weight (hC : GoodClasses C) (fs : List Factor) (hne : fs ≠ []) (hfs : ∀ f ∈ fs, FactorWF F C f)
    (hpos : ∀ f ∈ fs, ∀ v ∈ f.vars, 0 < (C v.ty).paramDim) (hi : ∀ f ∈ fs, IgnoresNoise F f) (w : ℝ) (hw : 0 < w) (tol : Nat → ℝ) :
    ∃ g g', Graph.make C fs = .ok g ∧ Graph.make C (fs.map (weightFactor w)) = .ok g' ∧
      ∀ CE gE gE', Lifts CE gE C (g.ops F C) → Lifts CE gE' C (g'.ops F C) →
      ∀ vars val a, Holds C fs vars val a → ∀ L : LinSolver ℝ, L = (fun A b l i => cgSolve A b l (tol i)) →
        (∀ sE sE' s s', LiftsGN sE s → LiftsGN sE' s' → s.linear = L → (∃ t', s' = { s with toCriteria := t' } ∧
          WeightedSettings C vars w s.toCriteria t') → SolvesWeighted w (sE.solve CE gE) (sE'.solve CE gE') a) ∧
        (∀ sE sE' s s', LiftsLM sE s → LiftsLM sE' s' → s.linear = L → s.lambdaFactor ≠ 0 → (∃ t', s' = { s with toCriteria := t' } ∧
          WeightedSettings C vars w s.toCriteria t') → SolvesWeighted w (sE.solve CE gE) (sE'.solve CE gE') a) ∧
        (∀ sE sE' s s', LiftsDogleg sE s → LiftsDogleg sE' s' → s.linear = L → 0 < s.radiusInitial →
          (∃ t', s' = { s with toCriteria := t' } ∧ WeightedSettings C vars w s.toCriteria t') →
          SolvesWeighted w (sE.solve CE gE) (sE'.solve CE gE') a) ∧
        (∀ sE : FixedIteration Ext, LiftsSolver sE.linear L → a.layout = g.layout →
          SolvesWeighted w (sE.solve CE gE) (sE.solve CE gE') a) := by
  obtain ⟨g, g', hg, hg', h⟩ := C102_weight_free F C hC fs hne hfs hpos hi w hw
  refine ⟨g, g', hg, hg', ?_⟩
  rintro CE gE gE' hl hl' vars val a ha _ rfl
  obtain ⟨h1, h2, h3, h4⟩ := h CE gE gE' hl hl' vars val a ha _ (C102_cg tol) (cg_sized tol)
  exact ⟨h1, h2, fun sE sE' s s' k1 k2 k3 => h3 sE sE' s s' k1 k2 k3 (cg_zeroAtZero tol), h4⟩

end

/-! ### Examples -/

section
open Poly

/-- Measurements of another weight. -/
example : weightFactor 3 (f (-1) 1 0) = ⟨0, [Ex.x], .diagonal ⟨[1], [3]⟩, [⟨[3], [-1, 1, 0]⟩]⟩ := by
  simp [weightFactor, weightNoise, f]

theorem poly_ignoresNoise (p q s : ℝ) : IgnoresNoise F (f p q s) := fun _ _ => ⟨rfl, rfl⟩

/-- The hypotheses of C102 for the measurement `x - 1`, with default settings but without the gradient test, and with a fitting
gradient test. -/
example (w : ℝ) : GoodClasses Ex.C ∧ (∀ v ∈ [f (-1) 1 0], FactorWF F Ex.C v) ∧ (∀ v ∈ [f (-1) 1 0], IgnoresNoise F v) ∧
    (∃ val, Holds Ex.C [f (-1) 1 0] [Ex.x] val (at_ 0)) ∧
    WeightedSettings Ex.C [Ex.x] w { Criteria.defaults with gradientToleranceStartStep := 100 }
      { Criteria.defaults with gradientToleranceStartStep := 100 } ∧
    WeightedSettings Ex.C [Ex.x] w Criteria.defaults
      { Criteria.defaults with gradientTolerance := w ^ 2 * Criteria.defaults.gradientTolerance } :=
  ⟨Ex.good, by simpa using f_wf _ _ _, by simpa using poly_ignoresNoise _ _ _, Poly1.holds_at _ _ _ _,
    .inl ⟨rfl, by norm_num, by norm_num [Criteria.defaults]⟩, .inr ⟨fun v _ => rfl, rfl⟩⟩

/-- The hypotheses of `C102_units` for a matrix of full column rank. -/
example : ∃ x, cgSolve exTall [1, 1] 2 0 = .ok x ∧ x.length = 2 ∧
    cgSolve (scaleColumns (fun j => j + 1) exTall) [1, 2] 2 0 = .ok (x.mapIdx fun j v => v / (j + 1)) := by
  have := C102_units exTall (by unfold CooWF exTall; simp) [1, 1] rfl 2 (by norm_num) (by
    intro v hv
    have hv : cooMatrix exTall 3 2 *ᵥ v = 0 := hv
    have h0 := congrFun hv 0
    have h1 := congrFun hv 1
    simp [exTall, cooMatrix, entries, mulVec, dotProduct, Fin.sum_univ_two] at h0 h1
    funext i
    fin_cases i
    · exact h0
    · exact h1) (fun j => (j : ℝ) + 1) (fun j => by positivity)
  obtain ⟨x, h1, h2, h3⟩ := this
  refine ⟨x, h1, h2, ?_⟩
  have e : ([1, 1].mapIdx fun (j : Nat) (v : ℝ) => v * ((j : ℝ) + 1)) = [1, 2] := by norm_num [List.mapIdx_cons]
  rw [e] at h3
  exact h3

/-- One step. -/
theorem fixed_one {CE : Ty → VarClass Ext} {gE : GraphOps Ext} {C : Ty → VarClass ℝ} {g : GraphOps ℝ} (hl : Lifts CE gE C g)
    {sE : FixedIteration Ext} {L : LinSolver ℝ} (hs : LiftsSolver sE.linear L) (h1 : sE.iterations = 1) {fuel : Nat} (hfu : 0 < fuel)
    {a b : Assign ℝ} {c c' : ℝ} {r r' : List ℝ} {A : Coo ℝ} {ATr d : List ℝ} (k1 : g.computeCost a = .ok (c, r))
    (k2 : g.jacobian a r = .ok A) (k3 : A.T.matmul r = .ok ATr) (k4 : L A (ATr.map fun x => -x) 0 0 = .ok d)
    (k5 : a.manifoldRetract C ⟨d, g.localLayout⟩ = .ok b) (k6 : g.computeCost b = .ok (c', r')) :
    ∃ log, sE.solve CE gE fuel (a.map fin) = .ok (some (b.map fin, log)) := by
  have hstep : sE.step CE gE (State.map fin ⟨0, a, c, r, false⟩) =
      .ok (State.map fin ⟨1, b, c', r', true⟩, hcbPrint sE.verbose (.iteration 0 none (fin c) none)) :=
    (fixedStep_fin hl hs).2 ⟨A, ATr, d, b, c', r', k2, k3, k4, k5, k6, by rw [h1]; rfl, rfl⟩
  obtain ⟨fuel, rfl⟩ : ∃ n, fuel = n + 1 := ⟨fuel - 1, by omega⟩
  refine ⟨_, fixedSolve_some.2 ⟨_, State.map fin ⟨1, b, c', r', true⟩, hcbPrint sE.verbose (.iteration 0 none (fin c) none),
    (initState_fin hl).2 ⟨c, r, k1, rfl⟩, ?_, rfl, rfl⟩⟩
  cases sE.unroll
  · simp only [Bool.false_eq_true, if_false]
    unfold whileLoop
    rw [hstep]
    cases fuel <;> simp [whileLoop, State.map, bind, Except.bind, pure, Except.pure]
  · rw [if_pos rfl, h1]
    show ((forLoop (sE.step CE gE) 1 _).map some) = _
    unfold forLoop
    rw [hstep]
    simp [forLoop, bind, Except.bind, pure, Except.pure, Except.map]

/-- **C102, CHOLMOD.** The direct solver adds `1e-5` to the diagonal and damps with the identity matrix
(jaxfg/sparse/_linear_solve.py:83-88), so its steps depend on the weight: for the measurement `x - 1`, one step from `x = 0` goes
to `1 / (1 + 1e-5)`; with a hundredth of the weight, it goes to `10 / 11`. -/
theorem C102_cholmod_witness (stale : Pattern → ScipyCoo ℝ → ℝ → List ℝ → Py (List ℝ)) (addr : Nat) :
    ¬ WeightFree (chol stale addr) ∧
    ∃ g g', Graph.make Ex.C [f (-1) 1 0] = .ok g ∧ Graph.make Ex.C ([f (-1) 1 0].map (weightFactor (1 / 100))) = .ok g' ∧
      ∀ CE gE gE', Lifts CE gE Ex.C (g.ops F Ex.C) → Lifts CE gE' Ex.C (g'.ops F Ex.C) →
      ∀ sE : FixedIteration Ext, LiftsSolver sE.linear (chol stale addr) → sE.iterations = 1 → ∀ fuel, 0 < fuel →
        (∃ log, sE.solve CE gE fuel ((at_ 0).map fin) = .ok (some ((at_ (1 / (1 + 1 / 100000))).map fin, log))) ∧
        ∃ log, sE.solve CE gE' fuel ((at_ 0).map fin) = .ok (some ((at_ (10 / 11)).map fin, log)) := by
  have hm : weightCoo (1 / 100) ⟨[1], [0], [0], (1, 1)⟩ = (⟨[1 / 100], [0], [0], (1, 1)⟩ : Coo ℝ) := by simp [weightCoo]
  constructor
  · intro h
    have h1 := h (1 / 100) (by norm_num) ⟨[1], [0], [0], (1, 1)⟩ [1] 0 0
    rw [hm] at h1
    rw [show ([1] : List ℝ).map ((1 / 100 : ℝ) ^ 2 * ·) = [(1 / 100) ^ 2] by simp, chol_eq _ _ _ _ _ le_rfl, chol_eq _ _ _ _ _ le_rfl] at h1
    have h2 := (List.cons.inj (Except.ok.inj h1)).1
    norm_num at h2
  · have hfs : ∀ v ∈ [f (-1) 1 0], FactorWF F Ex.C v := by simpa using f_wf _ _ _
    have hi : ∀ v ∈ [f (-1) 1 0], IgnoresNoise F v := by simpa using poly_ignoresNoise _ _ _
    have hw : (0 : ℝ) < 1 / 100 := by norm_num
    obtain ⟨g0, e0, hG⟩ := graph_ok (F := F) hfs (by simp)
    obtain ⟨g', hg', hG'⟩ := graph_ok (F := F) (fs := [f (-1) 1 0].map (weightFactor (1 / 100))) (C := Ex.C) (by
      intro v hv
      obtain ⟨f0, h0, rfl⟩ := List.mem_map.1 hv
      exact weightFactor_wf hw (hi f0 h0) (hfs f0 h0)) (by simp)
    rw [Poly.make_eq] at e0
    obtain rfl := Except.ok.inj e0
    have h := weighted_graph Ex.good hfs (by simp) hi hw hG hG'
    refine ⟨_, g', Poly.make_eq _ _ _, hg', fun CE gE gE' hl hl' sE hs h1 fuel hfu => ?_⟩
    have st : ∀ v, ∃ val, Stores Ex.C (Graph.variablesOf [f (-1) 1 0]) val (at_ v) := by
      intro v
      obtain ⟨val, hv⟩ := Poly1.holds_at (-1) 1 0 v
      exact ⟨val, stores_of_holds Ex.good hv⟩
    have c0 := cost_eq (-1) 1 0 0
    have j0 := jac_eq (-1) 1 0 0 (-1 + 1 * 0 + 0 * 0 ^ 2)
    constructor
    · refine fixed_one hl hs h1 hfu c0 j0 (matmul_T_eq _ _) (chol_eq stale addr _ _ _ le_rfl _) (b := at_ (1 / (1 + 1 / 100000))) ?_ (cost_eq (-1) 1 0 _)
      refine (retract_eq _ _).trans ?_
      congr 2; norm_num
    · obtain ⟨c1, q1⟩ := h.cost (st 0) c0
      obtain ⟨j1, -⟩ := h.jac (st 0) q1 j0
      obtain ⟨c2, -⟩ := h.cost (st (10 / 11)) (cost_eq (-1) 1 0 _)
      have hm' : weightCoo (1 / 100) ⟨[1 + 2 * 0 * 0], [0], [0], (1, 1)⟩ = (⟨[1 / 100], [0], [0], (1, 1)⟩ : Coo ℝ) := by
        simp [weightCoo]
      rw [hm'] at j1
      have e2 : ([-1 + 1 * 0 + 0 * 0 ^ 2] : List ℝ).map ((1 / 100 : ℝ) * ·) = [-(1 / 100)] := by norm_num
      rw [e2] at c1 j1
      refine fixed_one hl' hs h1 hfu c1 j1 (matmul_T_eq _ _) (chol_eq stale addr _ _ _ le_rfl _) (b := at_ (10 / 11)) ?_ c2
      rw [h.localLayout]
      refine (retract_eq _ _).trans ?_
      congr 2; norm_num

end

end Jaxfg.Props
