/-
C130 for `FixedIterationGaussNewtonSolver`.
-/
import Verif.Props.FileFit

namespace Jaxfg.Props
open Spec
open Ext (fin)

/-- **C130, fixed number of iterations.** In the situation of `C130_file`, `FixedIterationGaussNewtonSolver` with CHOLMOD and `n ≥ 1`
iterations, started with `e` retracted by a small delta `d`, returns `e` retracted by some `d'` with `|d'| ≤ κⁿ |d|`. -/
theorem C130_fixed_iteration (R : Reader) (limit : Int) (next : Nat) (lines : List (List Char)) (g : PoseGraph)
    (hfile : FileSays R limit lines g) (x : Nat → List ℝ) (hx : FitsFile g x) (ht : ∀ i < g.poses.length, TiedToFirst g i)
    (stale : Pattern → ScipyCoo ℝ → ℝ → List ℝ → Py (List ℝ)) (addr : Nat) :
    ∃ data G a₀ e, parseG2o R limit next lines = .ok data ∧ scriptProblem none data = .ok (G, a₀) ∧
      StoresPoses g data.initialPoses.keys x e ∧ e.layout = G.layout ∧
      ∃ κ₀ < 1, ∀ κ, κ₀ < κ → κ < 1 → ∃ ε > 0, ∀ CE gE, Lifts CE gE g2oClasses (G.ops g2oFactors g2oClasses) →
        ∀ d : List ℝ, d.length = G.localLayout.dim → √(sqNorm d) < ε → ∀ a, e.manifoldRetract g2oClasses ⟨d, G.localLayout⟩ = .ok a →
        ∀ sE : FixedIteration Ext, LiftsSolver sE.linear (freshCholmod stale addr) → ∀ n : Nat, sE.iterations = n + 1 →
          ∃ o log d', d'.length = G.localLayout.dim ∧ e.manifoldRetract g2oClasses ⟨d', G.localLayout⟩ = .ok o ∧
            √(sqNorm d') ≤ κ ^ (n + 1) * √(sqNorm d) ∧
            ∀ fuel : Nat, n + 1 ≤ fuel → sE.solve CE gE fuel (a.map fin) = .ok (some (o.map fin, log)) := by
  obtain ⟨data, G, a₀, pose, P, e, h1, h2, hG, hfne, hwf, hP, hnoise, hgauss, hval, he, hlay, hfit, hanch, hst⟩ :=
    file_setup R limit next lines g hfile x hx ht
  have hC : GoodClasses g2oClasses := lie_goodClasses g2oClasses_eq
  obtain ⟨G₁, hG₁, H⟩ := C127_fixed_iteration g2oFactors g2oClasses fileGroup g2oClasses_eq _ hfne P hP hnoise hgauss
  obtain rfl : G₁ = G := Except.ok.inj (hG₁.symm.trans hG)
  obtain ⟨G₂, hG₂, hR⟩ := C72_solve_returns g2oFactors g2oClasses hC _ hfne hwf
    (fun f hf v hv => by rw [g2oClasses_eq]; exact lie_paramDim_pos _)
  obtain rfl : G₂ = G₁ := Except.ok.inj (hG₂.symm.trans hG)
  obtain ⟨G₃, hG₃, hT⟩ := C72_cholmod g2oFactors g2oClasses hC _ hfne hwf stale addr
  obtain rfl : G₃ = G₂ := Except.ok.inj (hG₃.symm.trans hG)
  obtain ⟨G₄, hG₄, hS⟩ := sane_graph (F := g2oFactors) hC hwf hfne
  obtain rfl : G₄ = G₃ := Except.ok.inj (hG₄.symm.trans hG)
  have hchol : AllJacobians g2oClasses (G₄.ops g2oFactors g2oClasses) (Graph.variablesOf data.factors)
      (DampedAt 0 (1 / 100000) (freshCholmod stale addr)) := fun a a' c r A l1 l2 l3 l4 l5 l6 => by
    have := C93_cholmod stale .empty addr (hS.jacobian a a' c r A l1 l2 l3 l4 l5 l6).1 (fun p hp => by cases hp) (le_refl (0 : ℝ))
    rw [zero_add] at this
    exact this
  obtain ⟨κ₀, k1, -, k2⟩ := H _ pose e hval he hlay hfit hanch (1 / 100000) (by norm_num)
  refine ⟨data, G₄, a₀, e, h1, h2, hst, hlay, κ₀, k1, fun κ hκ hκ1 => ?_⟩
  obtain ⟨ε, hε, k3⟩ := k2 κ hκ hκ1.le
  refine ⟨ε, hε, fun CE gE hl d hd hdε a ha sE hs n hn => ?_⟩
  have m := k3 CE gE hl sE _ hs hchol d hd hdε a ha n hn
  have hla : a.layout = e.layout := retract_keeps_layout ha
  obtain ⟨-, -, -, hR⟩ := hR CE gE hl _ a (isAssignment_retract he.assignment ha) (by rw [hla]; exact he.isGlobal) he.sameVars
  obtain ⟨o, log, -, -, hret⟩ := hR sE _ hs hT (hla.trans hlay)
  rw [hn] at hret
  obtain ⟨o', e1, d', q1, q2, q3⟩ := m _ _ _ (hret (n + 1) (by omega))
  exact ⟨o', log, d', q1, q2, q3, fun fuel hf => by rw [hret fuel (by omega), e1]⟩

/-- **C130, `main`, fixed number of iterations.** On a file as in `C130_main`, `main` with this solver ends with the initial poses, too. -/
theorem C130_main_fixed (R : Reader) (limit : Int) (next : Nat) (lines : List (List Char)) (g : PoseGraph)
    (hfile : FileSays R limit lines g) (hx : FitsFile g fun i => (g.poses.getD i (.se2, [])).2)
    (ht : ∀ i < g.poses.length, TiedToFirst g i) (ho : InOrder g)
    (stale : Pattern → ScipyCoo ℝ → ℝ → List ℝ → Py (List ℝ)) (addr : Nat → Nat) :
    ∃ data G a, parseG2o R limit next lines = .ok data ∧ scriptProblem none data = .ok (G, a) ∧ ∀ CE gE (solver : Nat → AnySolver Ext),
      (∀ G : Graph, Lifts CE (gE G) g2oClasses (G.ops g2oFactors g2oClasses)) →
      (∀ j, LiftsAny (solver j) (SolverType.fixedIteration.getSolver (freshCholmod stale (addr j)))) →
      ∀ fuel : Nat, 100 ≤ fuel → ∃ plot, scriptMain CE gE solver fuel none data = .ok (some (a.map fin, plot)) := by
  obtain ⟨data, G, a, vars, k₀, mu, h1, h2, -, -, -, -, H⟩ :=
    C83_main R limit next lines g hfile none (fun _ h => by cases h) .fixedIteration (tied_covered ht)
  obtain ⟨data₁, G₁, a₁, e, p1, p2, p3, p4, κ₀, k1, k2⟩ := C130_fixed_iteration R limit next lines g hfile _ hx ht stale (addr 1)
  obtain rfl : data₁ = data := Except.ok.inj (p1.symm.trans h1)
  obtain ⟨rfl, rfl⟩ : G₁ = G ∧ a₁ = a := by simpa using Except.ok.inj (p2.symm.trans h2)
  obtain ⟨rfl, hstay⟩ := start_unique hfile (tied_covered ht) ho h1 h2 p3 p4
  obtain ⟨κ, hκ, hκ1⟩ := exists_between k1
  obtain ⟨ε, hε, k3⟩ := k2 κ hκ hκ1
  refine ⟨data₁, G₁, a₁, h1, h2, fun CE gE solver hl hs fuel hf => ?_⟩
  obtain ⟨o, x, log, -, -, h⟩ := H stale addr CE gE solver hl hs
  obtain ⟨hg, hm⟩ := h fuel hf
  rw [if_pos rfl] at hg
  have hz : sqNorm (List.replicate G₁.localLayout.dim (0 : ℝ)) = 0 := sqNorm_eq_zero.2 (by simp)
  have h1' := hs 1
  obtain ⟨s1, hs1⟩ : ∃ s1, s1 = solver 1 := ⟨_, rfl⟩
  rw [← hs1] at h1' hg
  cases s1 <;> first | exact absurd h1' id | skip
  rename_i sE
  obtain ⟨-, hlin, -, hit⟩ := h1'
  obtain ⟨o', log', d', q1, q2, q3, q4⟩ := k3 CE (gE G₁) (hl G₁) (List.replicate G₁.localLayout.dim 0) (by simp)
    (by rw [hz, Real.sqrt_zero]; exact hε) a₁ (hstay _ (by simp) hz) sE hlin 9 hit
  rw [hz, Real.sqrt_zero, mul_zero] at q3
  obtain rfl : o' = a₁ := Except.ok.inj (q2.symm.trans (hstay d' q1
    ((Real.sqrt_eq_zero (sqNorm_nonneg _)).1 (le_antisymm q3 (Real.sqrt_nonneg _)))))
  have hoa : o.map fin = o'.map fin := by
    have := Except.ok.inj (hg.symm.trans (q4 fuel (by omega)))
    simp only [Option.some.injEq, Prod.mk.injEq] at this
    exact this.1
  rw [hoa] at hm
  exact ⟨_, hm⟩

namespace G2oScriptEx
open G2oEx

/-- The concrete case: the file of `G2oEx` with poses that satisfy its edges. -/
example (stale : Pattern → ScipyCoo ℝ → ℝ → List ℝ → Py (List ℝ)) : ∃ data G a, parseG2o reader 100000 0 good = .ok data ∧
    scriptProblem none data = .ok (G, a) ∧ ∀ CE gE (solver : Nat → AnySolver Ext),
      (∀ G : Graph, Lifts CE (gE G) g2oClasses (G.ops g2oFactors g2oClasses)) →
      (∀ j, LiftsAny (solver j) (SolverType.fixedIteration.getSolver (freshCholmod stale j))) →
      ∃ plot, scriptMain CE gE solver 100 none data = .ok (some (a.map fin, plot)) := by
  obtain ⟨data, G, a, h1, h2, h⟩ := C130_main_fixed reader 100000 0 _ goodGraph good_says good_fits good_tied inOrder stale id
  exact ⟨data, G, a, h1, h2, fun CE gE solver hl hs => h CE gE solver hl hs 100 le_rfl⟩

/-- The file of `G2oEx` itself: 10 iterations from near the poses (0, 0), (4, 0), (4, 6). -/
example (stale : Pattern → ScipyCoo ℝ → ℝ → List ℝ → Py (List ℝ)) (addr : Nat) : ∃ data G a₀ e,
    parseG2o reader 100000 0 G2oEx.lines = .ok data ∧ scriptProblem none data = .ok (G, a₀) ∧
    StoresPoses graph data.initialPoses.keys fitted e ∧ ∃ κ < 1, ∃ ε > 0, ∀ d : List ℝ, d.length = G.localLayout.dim → √(sqNorm d) < ε →
      ∀ a, e.manifoldRetract g2oClasses ⟨d, G.localLayout⟩ = .ok a →
      ∀ sE : FixedIteration Ext, LiftsSolver sE.linear (freshCholmod stale addr) → sE.iterations = 10 →
      ∃ o log d', d'.length = G.localLayout.dim ∧ e.manifoldRetract g2oClasses ⟨d', G.localLayout⟩ = .ok o ∧
        √(sqNorm d') ≤ κ ^ 10 * √(sqNorm d) ∧
        sE.solve (fun t => (g2oClasses t).lift) (G.ops g2oFactors g2oClasses).lift 10 (a.map fin) = .ok (some (o.map fin, log)) := by
  obtain ⟨data, G, a₀, e, h1, h2, h3, -, κ₀, k1, k2⟩ := C130_fixed_iteration reader 100000 0 _ graph fileSays _ fitsFile tied stale addr
  obtain ⟨κ, hκ, hκ1⟩ := exists_between k1
  obtain ⟨ε, hε, k3⟩ := k2 κ hκ hκ1
  refine ⟨data, G, a₀, e, h1, h2, h3, κ, hκ1, ε, hε, fun d hd hdε a ha sE hs hit => ?_⟩
  obtain ⟨o, log, d', q1, q2, q3, q4⟩ := k3 _ _ (lifts_lift _ _) d hd hdε a ha sE hs 9 hit
  exact ⟨o, log, d', q1, q2, q3, q4 10 le_rfl⟩

end G2oScriptEx

end Jaxfg.Props
