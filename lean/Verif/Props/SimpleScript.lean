/- C80: the example script with two poses. -/
import Verif.Lemmas.SimpleScript
import Verif.Props.PoseGraphScript

namespace Jaxfg.Props
open Spec Simple
open Ext (fin)

/-- **C80, the objective.** The script builds a graph for its two variables. Whatever poses the two variables have, stored in
whatever order, the cost is at least 1/3; it is 1/3 only if the first pose is at `(1/3, 0)`, the second at `(5/3, 0)`, both with
angle 0. -/
theorem C80_objective (next : Nat) : ∃ g a, simpleProblem next = .ok (g, a) ∧
    ∀ b vars, IsAssignmentOf g2oClasses vars b → b.layout.localFlag = false → vars.Perm (simpleVariables next) →
      ∀ x₀ y₀ θ₀ x₁ y₁ θ₁ : ℝ, b.getValue g2oClasses ⟨se2Ty, next⟩ = .ok (se2Value x₀ y₀ θ₀) →
        b.getValue g2oClasses ⟨se2Ty, next + 1⟩ = .ok (se2Value x₁ y₁ θ₁) →
        ∃ c r, g.computeCost g2oFactors g2oClasses b = .ok (c, r) ∧ 1 / 3 ≤ c ∧
          (c = 1 / 3 ↔ se2Value x₀ y₀ θ₀ = se2Value (1 / 3) 0 0 ∧ se2Value x₁ y₁ θ₁ = se2Value (5 / 3) 0 0) := by
  refine ⟨_, _, problem_eq next, fun b vars hb hl hp x₀ y₀ θ₀ x₁ y₁ θ₁ h0 h1 => ?_⟩
  have hC : GoodClasses g2oClasses := lie_goodClasses g2oClasses_eq
  have hwf := factors_wf next
  obtain ⟨g', hg', hG⟩ := graph_ok (F := g2oFactors) hwf (by simp)
  obtain rfl : g' = G next := Except.ok.inj (hg'.symm.trans (Simple.make_eq next))
  obtain ⟨val, hval⟩ : ∃ val : Var → Value ℝ, val = fun v => if v = v0 next then se2Value x₀ y₀ θ₀ else se2Value x₁ y₁ θ₁ := ⟨_, rfl⟩
  have e0 : val (v0 next) = se2Value x₀ y₀ θ₀ := by rw [hval]; simp
  have e1 : val (v1 next) = se2Value x₁ y₁ θ₁ := by rw [hval]; simp [v_ne]
  have hmem : ∀ v, v ∈ vars ↔ v = v0 next ∨ v = v1 next := by
    intro v
    rw [hp.mem_iff]
    simp [simpleVariables, v0, v1, se2Ty]
  have hH : Holds g2oClasses [f0 next, f1 next, f2 next] vars val b := by
    refine ⟨hb, hl, fun v => ?_, fun v hv => ?_⟩
    · rw [hmem, mem_vars]
    · rcases (hmem v).1 hv with rfl | rfl
      · rw [e0]; exact h0
      · rw [e1]; exact h1
  obtain ⟨w, hw, hsum⟩ := whitened_eq next val _ _ e0 e1
  have hcost := cost_ok g2oFactors g2oClasses hC (by simp) hwf hG hH hw
  rw [hsum] at hcost
  have hge := objective_ge (x := x₀) (y := y₀) (x' := x₁) (y' := y₁) (Real.cos_sq_add_sin_sq θ₀) (Real.cos_sq_add_sin_sq θ₁)
  refine ⟨_, _, hcost, hge.1, fun h => ?_, fun h => ?_⟩
  · obtain ⟨h2, h3⟩ := hge.2 h
    refine ⟨?_, ?_⟩
    · simpa [se2Value, LieGroup.value, se2FromXyTheta] using h2
    · simpa [se2Value, LieGroup.value, se2FromXyTheta] using h3
  · obtain ⟨h2, h3⟩ := h
    have h2' : se2FromXyTheta x₀ y₀ θ₀ = [1, 0, 1 / 3, 0] := by
      simpa [se2Value, LieGroup.value, se2FromXyTheta] using h2
    have h3' : se2FromXyTheta x₁ y₁ θ₁ = [1, 0, 5 / 3, 0] := by
      simpa [se2Value, LieGroup.value, se2FromXyTheta] using h3
    rw [h2', h3', resid_axis]
    norm_num [sqNorm]

/-- The run of the solver in `C80_solution`. -/
theorem simple_run (next : Nat) {stale : Pattern → ScipyCoo ℝ → ℝ → List ℝ → Py (List ℝ)} {cache : Nat → CholmodCache} {addr : Nat}
    {CE : Ty → VarClass Ext} {gE : GraphOps Ext} {sE : GaussNewton Ext} (hcache : ∀ i, CacheOK (cache i) addr)
    (hl : Lifts CE gE g2oClasses ((G next).ops g2oFactors g2oClasses))
    (hs : LiftsGN sE (GaussNewton.defaults fun A b l i => (cholmodSolve stale (cache i) addr A b l).1)) :
    ∀ fuel, 2 ≤ fuel → sE.solve CE gE fuel ((at_ next [1, 0, 0, 0] [1, 0, 0, 0]).map fin) =
      .ok (some ((pt next (-2 / 100001 / 100001) (4 / 3 / 300001 / 300001)).map fin,
        [.iteration 0 (some 100) (fin 5) none,
         .iteration 1 (some 100) (fin (1 / 3 + (-2 / 100001) ^ 2 / 2 + 3 * (4 / 3 / 300001) ^ 2 / 2)) none,
         .terminated 2 (fin (1 / 3 + (-2 / 100001 / 100001) ^ 2 / 2 + 3 * (4 / 3 / 300001 / 300001) ^ 2 / 2))])) := by
  have hpt : at_ next [1, 0, 0, 0] [1, 0, 0, 0] = pt next (-2) (4 / 3) := by
    rw [pt, onAxis]; norm_num
  have hc0 : (1 / 3 + (-2 : ℝ) ^ 2 / 2 + 3 * (4 / 3 : ℝ) ^ 2 / 2) = 5 := by norm_num
  have s1 := step_eq hl hcache hs 0 (by norm_num) (-2) (4 / 3) (d := false) (by
    have h1 : costTest Criteria.defaults (stateAt next 0 (-2) (4 / 3) false)
        (1 / 3 + (-2 / 100001) ^ 2 / 2 + 3 * (4 / 3 / 300001) ^ 2 / 2) = false := by
      unfold costTest
      refine decide_eq_false fun h => absurd h.2 ?_
      simp only [stateAt, Criteria.defaults]
      rw [abs_of_neg (by norm_num)]
      norm_num
    have h2 : parameterTest Criteria.defaults (stateAt next 0 (-2) (4 / 3) false) (stepAt (-2) (4 / 3)) = false := by
      unfold parameterTest
      refine decide_eq_false fun h => ?_
      simp only [stateAt, Criteria.defaults] at h
      have e1 : 1 ≤ nrm (stepAt (-2) (4 / 3)) := by
        rw [nrm, Real.one_le_sqrt, stepAt]
        norm_num [sqNorm]
      have e2 : nrm (pt next (-2) (4 / 3)).storage ≤ 2 := by
        rw [← hpt, nrm, Real.sqrt_le_left (by norm_num)]
        norm_num [at_, sqNorm]
      linarith
    rw [h1, h2]; rfl)
  have s2 := step_eq hl hcache hs 1 (by norm_num) (-2 / 100001) (4 / 3 / 300001) (d := true) (by
    have h1 : costTest Criteria.defaults (stateAt next 1 (-2 / 100001) (4 / 3 / 300001) false)
        (1 / 3 + (-2 / 100001 / 100001) ^ 2 / 2 + 3 * (4 / 3 / 300001 / 300001) ^ 2 / 2) = true := by
      unfold costTest
      refine decide_eq_true ?_
      simp only [stateAt, Criteria.defaults]
      refine ⟨by norm_num, ?_⟩
      rw [abs_of_neg (by norm_num)]
      norm_num
    rw [h1]; rfl)
  intro fuel hfuel
  have hu : ∀ (x : Assign ℝ), x.layout = lay next false 4 → (x.map fin).updateStorageLayout CE (lay next false 4) = .ok (x.map fin) := by
    intro x hx
    have : (x.map fin).layout = lay next false 4 := hx
    simp only [Assign.updateStorageLayout, this, lay_refl]
    rfl
  have hlay : gE.layout = lay next false 4 := hl.layout
  refine baseSolve_some.2 ⟨_, (stateAt next 0 (-2) (4 / 3) false).map fin,
    (stateAt next 2 (-2 / 100001 / 100001) (4 / 3 / 300001 / 300001) true).map fin,
    [.iteration 0 (some 100) (fin (1 / 3 + (-2) ^ 2 / 2 + 3 * (4 / 3) ^ 2 / 2)) none] ++
      [.iteration 1 (some 100) (fin (1 / 3 + (-2 / 100001) ^ 2 / 2 + 3 * (4 / 3 / 300001) ^ 2 / 2)) none],
    by rw [hlay]; exact hu _ rfl, ?_, ?_, hu _ rfl, ?_⟩
  · rw [initState_ok]
    refine ⟨_, _, (hl.cost _).trans (by rw [hpt, cost_pt]; rfl), ?_⟩
    rw [hpt]
    rfl
  · have hr := (Runs.refl ((stateAt next 0 (-2) (4 / 3) false).map fin)).step (done := fun s => (id s : State Ext).done) rfl s1
    have hr2 := hr.step rfl s2
    have := whileLoop_of_runs hr2 hfuel (whileLoop_done rfl)
    simpa using this
  · have hv : sE.verbose = true := hs.verbose
    rw [hv, hc0]
    rfl

/-- **C80, the solution.** `graph.solve(initial_assignments)`, that is Gauss-Newton with CHOLMOD and default settings from the default
poses, stops after two iterations. The printed cost is 5 at first, and then `1/3` up to `3e-10`. The returned poses lie on the axis, with
angle 0, at `1/3 - 1/100001² + (2/3)/300001²` and `5/3 - 1/100001² - (2/3)/300001²`, less than `1.1e-10` from the minimum. This holds for
the first call and for the second, when CHOLMOD has kept its analysis of the Jacobian. -/
theorem C80_solution (next : Nat) : ∃ g a, simpleProblem next = .ok (g, a) ∧
    ∀ (stale : Pattern → ScipyCoo ℝ → ℝ → List ℝ → Py (List ℝ)) (cache : Nat → CholmodCache) (addr : Nat) CE gE sE,
      (∀ i p, (cache i).get? addr = some p → p = ((g.localLayout.dim, g.residualDim), (g.jacobianCoords.map Prod.swap).toFinset)) →
      Lifts CE gE g2oClasses (g.ops g2oFactors g2oClasses) →
      LiftsGN sE (GaussNewton.defaults fun A b l i => (cholmodSolve stale (cache i) addr A b l).1) →
      ∃ (o : Assign ℝ) (x₀ x₁ c₁ c₂ : ℝ),
        (∀ fuel, 2 ≤ fuel → sE.solve CE gE fuel (a.map fin) = .ok (some (o.map fin,
          [.iteration 0 (some 100) (fin 5) none, .iteration 1 (some 100) (fin c₁) none, .terminated 2 (fin c₂)]))) ∧
        o.layout = a.layout ∧ o.getValue g2oClasses ⟨se2Ty, next⟩ = .ok (se2Value x₀ 0 0) ∧
        o.getValue g2oClasses ⟨se2Ty, next + 1⟩ = .ok (se2Value x₁ 0 0) ∧
        o.getStackedValue g2oClasses se2Ty = .ok [se2Value x₀ 0 0, se2Value x₁ 0 0] ∧
        x₀ = 1 / 3 - 1 / 100001 ^ 2 + 2 / 3 / 300001 ^ 2 ∧ x₁ = 5 / 3 - 1 / 100001 ^ 2 - 2 / 3 / 300001 ^ 2 ∧
        |x₀ - 1 / 3| < 11 / 10 ^ 11 ∧ |x₁ - 5 / 3| < 11 / 10 ^ 11 ∧ |c₁ - 1 / 3| < 3 / 10 ^ 10 ∧ |c₂ - 1 / 3| < 3 / 10 ^ 20 := by
  refine ⟨_, _, problem_eq next, fun stale cache addr CE gE sE hc hl hs => ?_⟩
  have hcache : ∀ i, CacheOK (cache i) addr := hc
  have ho : pt next (-2 / 100001 / 100001) (4 / 3 / 300001 / 300001) =
      onAxis next (1 / 3 - 1 / 100001 ^ 2 + 2 / 3 / 300001 ^ 2) (5 / 3 - 1 / 100001 ^ 2 - 2 / 3 / 300001 ^ 2) := by
    rw [pt]; norm_num
  refine ⟨pt next (-2 / 100001 / 100001) (4 / 3 / 300001 / 300001), _, _, 1 / 3 + (-2 / 100001) ^ 2 / 2 + 3 * (4 / 3 / 300001) ^ 2 / 2,
    1 / 3 + (-2 / 100001 / 100001) ^ 2 / 2 + 3 * (4 / 3 / 300001 / 300001) ^ 2 / 2, ?_, rfl, by rw [ho]; exact getValue0 ..,
    by rw [ho]; exact getValue1 .., by rw [ho]; exact getStacked .., rfl, rfl, ?_, ?_, ?_, ?_⟩
  · exact simple_run next hcache hl hs
  · rw [abs_of_neg (by norm_num)]; norm_num
  · rw [abs_of_neg (by norm_num)]; norm_num
  · rw [abs_of_pos (by norm_num)]; norm_num
  · rw [abs_of_pos (by norm_num)]; norm_num

/-- Non-vacuity: the initial poses are poses as in `C80_objective`; a new solver, and its lift, are as in `C80_solution`, and so is a
solver that has kept its analysis. -/
example (next addr : Nat) (stale : Pattern → ScipyCoo ℝ → ℝ → List ℝ → Py (List ℝ)) :
    ∃ g a, simpleProblem next = .ok (g, a) ∧ IsAssignmentOf g2oClasses (simpleVariables next) a ∧ a.layout.localFlag = false ∧
      a.getValue g2oClasses ⟨se2Ty, next⟩ = .ok (se2Value 0 0 0) ∧ a.getValue g2oClasses ⟨se2Ty, next + 1⟩ = .ok (se2Value 0 0 0) ∧
      (∃ CE gE, Lifts CE gE g2oClasses (g.ops g2oFactors g2oClasses)) ∧
      (∀ L, ∃ sE, LiftsGN sE (GaussNewton.defaults L)) ∧
      ∃ r A cache, (g.ops g2oFactors g2oClasses).jacobian a r = .ok A ∧
        cache = (cholmodSolve stale .empty addr A [0, 0, 0, 0, 0, 0] 0).2 ∧
        cache.get? addr = some ((g.localLayout.dim, g.residualDim), (g.jacobianCoords.map Prod.swap).toFinset) := by
  have ha : at_ next [1, 0, 0, 0] [1, 0, 0, 0] = onAxis next 0 0 := rfl
  have hlay : (onAxis next 0 0).layout = Layout.make g2oClasses (simpleVariables next) false := (lay_eq next false).symm
  refine ⟨_, _, problem_eq next, ⟨by simp [simpleVariables], hlay, rfl⟩, rfl, getValue0 _ _ _, getValue1 _ _ _,
    ⟨_, _, lifts_lift _ _⟩, fun L => ⟨_, liftsGN_lift _⟩, [0, 0, 0, 0, 0, 0, 0, 0, 0], J 0 0, _, jac_onAxis .., rfl, ?_⟩
  have hS : (J 0 0).T.asScipy = .ok ⟨(J 0 0).values, (J 0 0).cols, (J 0 0).rows, (6, 9)⟩ := rfl
  unfold cholmodSolve
  rw [hS]
  simp [cholmodAnalysis, PyDict.empty, PyDict.get?, PyDict.set, PyDict.contains]
  rfl

end Jaxfg.Props
