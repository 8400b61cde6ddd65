/- C88: which CHOLMOD analysis a compiled solve uses. -/
import Verif.Lemmas.Compiled
import Verif.Lemmas.ExampleGraph

namespace Jaxfg.Props
open Jaxfg Spec

section
variable {F : Nat → FactorClass} {C : Ty → VarClass ℝ}

/-- **C88, when a compiled solve is reused.** Two calls of `solve` share a compiled function exactly if the solvers have the same
class and static fields (not: tolerances and other numbers), the graphs have the same kinds of factors in the same order of first occurrence and equally many factors of
each kind, and the layouts give every variable the same place. Which variables the factors connect is not compared. -/
theorem C88_when_shared {fs fs' : List Factor} {vars vars' : List Var} {c c' : SolveCall} (h : IsCall F C fs vars c)
    (h' : IsCall F C fs' vars' c') :
    c.sameTrace c' = true ↔ c.solver = c'.solver ∧ kindCounts fs = kindCounts fs' ∧
      SamePlaces C (Graph.variablesOf fs) (Graph.variablesOf fs') false ∧
      SamePlaces C (Graph.variablesOf fs) (Graph.variablesOf fs') true ∧ SamePlaces C vars vars' false :=
  call_sameTrace h h'

theorem firstKeys_id (fs : List Factor) : firstKeys kind fs = firstKeys id (fs.map kind) := by
  induction fs with
  | nil => rfl
  | cons f fs ih => simp only [firstKeys, List.map_cons, ih, id]

theorem kindCounts_of_kinds {fs fs' : List Factor} (h : fs.map kind = fs'.map kind) : kindCounts fs = kindCounts fs' := by
  unfold kindCounts
  rw [firstKeys_id, firstKeys_id, h]
  apply List.map_congr_left
  intro k _
  have key : ∀ gs : List Factor, gs.countP (kind · = k) = (gs.map kind).countP (· = k) := by
    intro gs
    rw [List.countP_map]
    rfl
  rw [key, key, h]

/-- **C88, what a compiled solve ignores.** Two problems with the same variables in the same order, and factors that agree position
by position in everything but the variables that they connect and the numbers in their arrays, share a compiled function, for every
two solver objects of one class with the same static fields. -/
theorem C88_ignores_connections {fs fs' : List Factor} {vars : List Var} {c c' : SolveCall} (h : IsCall F C fs vars c)
    (h' : IsCall F C fs' vars c') (hs : c.solver = c'.solver) (hv : Graph.variablesOf fs = Graph.variablesOf fs')
    (hk : fs.map kind = fs'.map kind) : c.sameTrace c' = true :=
  (call_sameTrace h h').2 ⟨hs, kindCounts_of_kinds hk, fun v => by rw [hv], fun v => by rw [hv], fun _ => rfl⟩

/-- **C88, inside a call.** All Jacobians of a call have the coordinates of its graph. Therefore every subproblem of the call is
answered with one analysis: running them one after the other through the cache gives the answers of `Process.solve`, and leaves the
cache of `Process.solve`. -/
theorem C88_within_a_call (stale : Pattern → ScipyCoo ℝ → ℝ → List ℝ → Py (List ℝ)) (p : Process) (c : SolveCall)
    (subs : List (Coo ℝ × List ℝ × ℝ)) (hne : subs ≠ []) (hon : ∀ s ∈ subs, OnGraph c.graph s.1 ∧ CooWF s.1) (i : Nat) :
    runSubproblems stale (p.compile c).2.cache (p.compile c).1 subs =
      (subs.map fun s => (p.solve stale c).1 s.1 s.2.1 s.2.2 i, (p.solve stale c).2.cache) := by
  unfold Process.solve
  obtain ⟨q, hq⟩ : ∃ q, q = p.compile c := ⟨_, rfl⟩
  rw [← hq]
  simp only
  have key : ∀ (ss : List (Coo ℝ × List ℝ × ℝ)), (∀ s ∈ ss, OnGraph c.graph s.1 ∧ CooWF s.1) →
      runSubproblems stale (cholmodAnalysis q.2.cache q.1 c.graph.transposed).2 q.1 ss =
        (ss.map fun s => (cholmodSolve stale q.2.cache q.1 s.1 s.2.1 s.2.2).1, (cholmodAnalysis q.2.cache q.1 c.graph.transposed).2) := by
    intro ss hss
    induction ss with
    | nil => rfl
    | cons s ss ih =>
      obtain ⟨h1, h2⟩ := hss s (by simp)
      simp only [runSubproblems]
      rw [cholmodSolve_cache h1 h2, cholmodAnalysis_idem, ih fun t ht => hss t (by simp [ht])]
      rw [cholmodSolve_congr (cache' := q.2.cache) (addr' := q.1) h1 (by rw [cholmodAnalysis_idem])]
      rfl
  cases subs with
  | nil => exact absurd rfl hne
  | cons s ss =>
    obtain ⟨h1, h2⟩ := hon s (by simp)
    simp only [runSubproblems]
    rw [cholmodSolve_cache h1 h2, key ss fun t ht => hon t (by simp [ht])]
    rfl

/-- The Jacobians that the solvers compute are of the kind that `C88_within_a_call` asks for. -/
theorem C88_jacobians (hC : GoodClasses C) {fs : List Factor} (hfs : ∀ f ∈ fs, FactorWF F C f) (hne : fs ≠ []) {g : Graph}
    (hg : Graph.make C fs = .ok g) {vars : List Var} {val : Var → Value ℝ} {a : Assign ℝ} (h : Holds C fs vars val a)
    {ρ : Factor → List ℝ} (hρ : ∀ f ∈ fs, (ρ f).length = rdim f) :
    ∃ A, g.computeWhitenedResidualJacobian F C a ((evalOrder fs).flatMap ρ) = .ok A ∧ OnGraph g A ∧ CooWF A := by
  have hvals : ∀ f ∈ fs, ValuesFor C f.vars (f.vars.map val) := fun f hf => h.valuesFor hC hf
  have hR : ∀ f : Factor, ∃ R, f ∈ fs →
      ((F f.cls).jacobians f.self (f.vars.map val)).mapM (fun J => f.noise.whitenJacobian J (ρ f)) = .ok R := by
    intro f
    by_cases hf : f ∈ fs
    · obtain ⟨R', h1, -⟩ := whitenedJacobians_ok (hfs f hf) (hvals f hf) (hρ f hf)
      exact ⟨R', fun _ => h1⟩
    · exact ⟨[], fun h => absurd h hf⟩
  choose R hR using hR
  obtain ⟨A, h1, h2, -⟩ := jacobian_ok hC hfs hne (graphOf_make hfs hne hg) h hρ hR
  exact ⟨A, h1, jacobian_onGraph h1, h2⟩

/-- **C88, history.** In every process, CHOLMOD factorizes the matrices of a call with the analysis of the first call that shares its
compiled function. The answer is the right one if that call had the same sparsity pattern, and whatever the library does with a
foreign analysis (`stale`) otherwise. The dimensions of the two patterns agree in any case. -/
theorem C88_history (stale : Pattern → ScipyCoo ℝ → ℝ → List ℝ → Py (List ℝ)) (calls : List SolveCall)
    (h : ∀ d ∈ calls, ∃ fs vars, IsCall F C fs vars d) {fs : List Factor} {vars : List Var} {c : SolveCall} (hc : IsCall F C fs vars c)
    {A : Coo ℝ} (hA : OnGraph c.graph A) (hwf : CooWF A) (b : List ℝ) (l : ℝ) (i : Nat) :
    let d := (calls.find? (·.sameTrace c)).getD c
    ((Process.after stale calls).solve stale c).1 A b l i =
        cholmodFactorSolve stale (graphPattern d.graph) ⟨A.values, A.cols, A.rows, (A.shape.2, A.shape.1)⟩ (l + 1 / 100000) b ∧
      (graphPattern d.graph).1 = (graphPattern c.graph).1 := by
  intro d
  have han := analysis_after (stale := stale) calls h c ⟨fs, vars, hc⟩
  constructor
  · unfold Process.solve
    obtain ⟨q, hq⟩ : ∃ q, q = (Process.after stale calls).compile c := ⟨_, rfl⟩
    rw [← hq] at han ⊢
    simp only at han ⊢
    unfold cholmodSolve
    rw [asScipy_ok (cooWF_T hwf)]
    have key : (cholmodAnalysis q.2.cache q.1 ⟨A.T.values, A.T.rows, A.T.cols, A.T.shape⟩).1 =
        (cholmodAnalysis q.2.cache q.1 c.graph.transposed).1 := by
      have hp : ScipyCoo.pattern ⟨A.T.values, A.T.rows, A.T.cols, A.T.shape⟩ = c.graph.transposed.pattern := by
        rw [hA.pattern, transposed_pattern]
      unfold cholmodAnalysis
      cases q.2.cache.get? q.1 with
      | some _ => rfl
      | none => simp only [hp]
    simp only [key, han]
    rfl
  · cases hf : calls.find? (·.sameTrace c) with
    | none => simp [d, hf]
    | some e =>
      have he : e.sameTrace c = true := by simpa using List.find?_some hf
      obtain ⟨fe, ve, hce⟩ := h e (List.mem_of_find?_eq_some hf)
      have hd : d = e := by simp [d, hf]
      rw [hd]
      unfold graphPattern
      unfold SolveCall.sameTrace Graph.sameTrace at he
      simp only [Bool.and_eq_true, decide_eq_true_eq] at he
      obtain ⟨⟨⟨-, ⟨⟨-, -⟩, hl⟩, hr⟩, -⟩, -⟩ := he
      rw [(graphOf_make hce.wf hce.ne hce.graph).localLayout, (graphOf_make hc.wf hc.ne hc.graph).localLayout] at hl ⊢
      have := ((layoutEq_iff C (variablesOf_spec fe).1 (variablesOf_spec fs).1).1 hl).2.1
      simp only [this, hr]

/-- **C88 (partial).** If all earlier calls of the process that share the compiled function had the sparsity pattern of this call, then
the call is answered as in a new process: the linear solver gives the same answers on all Jacobians of the graph, and all four
nonlinear solvers return the same. The full statement drops the hypothesis `hsame`; it is false, see `C88_shared`. -/
theorem C88_fresh_partial (stale stale' : Pattern → ScipyCoo ℝ → ℝ → List ℝ → Py (List ℝ)) (calls : List SolveCall)
    (h : ∀ d ∈ calls, ∃ fs vars, IsCall F C fs vars d) {fs : List Factor} {vars : List Var} {c : SolveCall} (hc : IsCall F C fs vars c)
    (hsame : ∀ d ∈ calls, d.sameTrace c = true → graphPattern d.graph = graphPattern c.graph) :
    let L := ((Process.after stale calls).solve stale c).1
    let L₀ := (Process.initial.solve stale' c).1
    let gE := (c.graph.ops F C).lift
    (∀ A, OnGraph c.graph A → ∀ b l i, L A b l i = L₀ A b l i) ∧
      ∀ CE : Ty → VarClass Ext,
        (∀ s : GaussNewton Ext, ({ s with linear := LinSolver.lift L } : GaussNewton Ext).solve CE gE =
          ({ s with linear := LinSolver.lift L₀ } : GaussNewton Ext).solve CE gE) ∧
        (∀ s : LevenbergMarquardt Ext, ({ s with linear := LinSolver.lift L } : LevenbergMarquardt Ext).solve CE gE =
          ({ s with linear := LinSolver.lift L₀ } : LevenbergMarquardt Ext).solve CE gE) ∧
        (∀ s : Dogleg Ext, ({ s with linear := LinSolver.lift L } : Dogleg Ext).solve CE gE =
          ({ s with linear := LinSolver.lift L₀ } : Dogleg Ext).solve CE gE) ∧
        (∀ s : FixedIteration Ext, ({ s with linear := LinSolver.lift L } : FixedIteration Ext).solve CE gE =
          ({ s with linear := LinSolver.lift L₀ } : FixedIteration Ext).solve CE gE) := by
  intro L L₀ gE
  have hpat : graphPattern ((calls.find? (·.sameTrace c)).getD c).graph = graphPattern c.graph := by
    cases hf : calls.find? (·.sameTrace c) with
    | none => rfl
    | some e => exact hsame e (List.mem_of_find?_eq_some hf) (by simpa using List.find?_some hf)
  have han := analysis_after (stale := stale) calls h c ⟨fs, vars, hc⟩
  have han0 := analysis_after (F := F) (C := C) (stale := stale') [] (by simp) c ⟨fs, vars, hc⟩
  rw [hpat] at han
  have key : ∀ A, OnGraph c.graph A → ∀ b l i, L A b l i = L₀ A b l i := by
    intro A hA b l i
    simp only [L, L₀, Process.solve]
    have e0 : Process.initial = Process.after stale' [] := rfl
    obtain ⟨q, hq⟩ : ∃ q, q = (Process.after stale calls).compile c := ⟨_, rfl⟩
    obtain ⟨q0, hq0⟩ : ∃ q, q = (Process.after stale' []).compile c := ⟨_, rfl⟩
    rw [e0, ← hq, ← hq0]
    rw [← hq] at han
    rw [← hq0] at han0
    unfold cholmodSolve
    cases hs : A.T.asScipy with
    | error e => rfl
    | ok S =>
      have hS := asScipy_eq hs
      have hp : S.pattern = c.graph.transposed.pattern := by rw [hS, hA.pattern, transposed_pattern]
      have key : ∀ (k : CholmodCache) (a : Nat), (cholmodAnalysis k a S).1 = (cholmodAnalysis k a c.graph.transposed).1 := by
        intro k a
        unfold cholmodAnalysis
        cases k.get? a with
        | some _ => rfl
        | none => simp only [hp]
      simp only [key, han, han0, List.find?_nil, Option.getD_none]
      unfold cholmodFactorSolve
      have hp' : graphPattern c.graph = S.pattern := by rw [hp, transposed_pattern]
      rw [if_pos hp', if_pos hp']
  exact ⟨key, fun CE => ⟨gn_congr (agreeOn_lift key), lm_congr (agreeOn_lift key), dogleg_congr (agreeOn_lift key),
    fixed_congr (agreeOn_lift key)⟩⟩

end

/-! ### Three scalars: a chain and a star -/

namespace Chain
open Ex

def w : Var := ⟨0, 4⟩
noncomputable def p : Factor := ⟨0, [x], .diagonal ⟨[1], [1]⟩, [⟨[1], [0]⟩]⟩
noncomputable def b (u v : Var) (m : ℝ) : Factor := ⟨1, [u, v], .diagonal ⟨[1], [1]⟩, [⟨[1], [m]⟩]⟩
/-- A chain `x – y – w`. -/
noncomputable def chain : List Factor := [p, b x y 1, b y w 1]
/-- A star `x – y`, `x – w`. -/
noncomputable def star : List Factor := [p, b x y 1, b x w 1]

theorem chain_wf : ∀ f ∈ chain, FactorWF F C f := by
  intro f hf
  simp only [chain, List.mem_cons, List.not_mem_nil, or_false] at hf
  rcases hf with rfl | rfl | rfl
  · exact prior_wf x _ _ ⟨⟨rfl, rfl⟩, rfl⟩ rfl
  · exact between_wf x y rfl _ _ ⟨⟨rfl, rfl⟩, rfl⟩ rfl
  · exact between_wf y w rfl _ _ ⟨⟨rfl, rfl⟩, rfl⟩ rfl

theorem star_wf : ∀ f ∈ star, FactorWF F C f := by
  intro f hf
  simp only [star, List.mem_cons, List.not_mem_nil, or_false] at hf
  rcases hf with rfl | rfl | rfl
  · exact prior_wf x _ _ ⟨⟨rfl, rfl⟩, rfl⟩ rfl
  · exact between_wf x y rfl _ _ ⟨⟨rfl, rfl⟩, rfl⟩ rfl
  · exact between_wf x w rfl _ _ ⟨⟨rfl, rfl⟩, rfl⟩ rfl

theorem vars_chain : Graph.variablesOf chain = [x, y, w] := rfl
theorem vars_star : Graph.variablesOf star = [x, y, w] := rfl

/-- A call of `solve` with a solver of class and settings `k`. -/
theorem call_exists {fs : List Factor} (hfs : ∀ f ∈ fs, FactorWF F C f) (hne : fs ≠ []) (k : Nat) :
    ∃ c, IsCall F C fs [x, y, w] c ∧ c.solver = k := by
  obtain ⟨g, hg, -⟩ := graph_ok hfs hne
  exact ⟨⟨k, g, Layout.make C [x, y, w] false, (Layout.make C [x, y, w] false).dim⟩, ⟨hne, hfs, hg, by decide, rfl, rfl⟩, rfl⟩

theorem groups_chain : groups kind chain = [[p], [b x y 1, b y w 1]] := by
  simp [groups, firstKeys, kind, chain, p, b, Noise.treedef, Noise.leaves, x, y, w]

theorem groups_star : groups kind star = [[p], [b x y 1, b x w 1]] := by
  simp [groups, firstKeys, kind, star, p, b, Noise.treedef, Noise.leaves, x, y, w]

theorem pos_eq : posIn (Layout.make C [x, y, w] true) x = 0 ∧ posIn (Layout.make C [x, y, w] true) y = 1 ∧
    posIn (Layout.make C [x, y, w] true) w = 2 := ⟨rfl, rfl, rfl⟩

theorem coords_chain {g : Graph} (hg : Graph.make C chain = .ok g) :
    g.jacobianCoords = [(0, 0), (1, 0), (2, 1), (1, 1), (2, 2)] ∧ g.residualDim = 3 ∧ g.localLayout.dim = 3 := by
  have h := graphOf_make chain_wf (by simp [chain]) hg
  refine ⟨?_, ?_, ?_⟩
  · rw [h.coords, groups_chain, vars_chain]
    rfl
  · rw [h.residualDim, evalOrder, groupedBy_eq, groups_chain]
    rfl
  · rw [h.localLayout, vars_chain]
    rfl

theorem coords_star {g : Graph} (hg : Graph.make C star = .ok g) :
    g.jacobianCoords = [(0, 0), (1, 0), (2, 0), (1, 1), (2, 2)] ∧ g.residualDim = 3 ∧ g.localLayout.dim = 3 := by
  have h := graphOf_make star_wf (by simp [star]) hg
  refine ⟨?_, ?_, ?_⟩
  · rw [h.coords, groups_star, vars_star]
    rfl
  · rw [h.residualDim, evalOrder, groupedBy_eq, groups_star]
    rfl
  · rw [h.localLayout, vars_star]
    rfl

end Chain

/-- **C88, negation.** A chain of three scalars and a star of the same three scalars, each solved with its own, newly made solver
object: the second solve uses the analysis of the chain, whatever the numbers in the Jacobian, so that its answer is what CHOLMOD
does with a wrong analysis. In a new process it is the solution of the damped normal equations. -/
theorem C88_shared : ∃ c c' : SolveCall, IsCall Ex.F Ex.C Chain.chain [Ex.x, Ex.y, Chain.w] c ∧
    IsCall Ex.F Ex.C Chain.star [Ex.x, Ex.y, Chain.w] c' ∧ c.sameTrace c' = true ∧ graphPattern c.graph ≠ graphPattern c'.graph ∧
    (∀ stale A, OnGraph c'.graph A → CooWF A → ∀ b l i,
      ((Process.after stale [c]).solve stale c').1 A b l i =
        stale (graphPattern c.graph) ⟨A.values, A.cols, A.rows, (A.shape.2, A.shape.1)⟩ (l + 1 / 100000) b) ∧
    (∀ stale A, OnGraph c'.graph A → CooWF A → ∀ b l i, b.length = 3 → 0 ≤ l →
      ∃ x, (Process.initial.solve stale c').1 A b l i = .ok x ∧
        ((cooMatrix A 3 3).transpose * cooMatrix A 3 3 + (l + 1 / 100000) • (1 : Matrix (Fin 3) (Fin 3) ℝ)).mulVec (Spec.vec x 3) =
          Spec.vec b 3) ∧
    ∃ A, OnGraph c'.graph A ∧ CooWF A := by
  obtain ⟨c, hc, hk⟩ := Chain.call_exists Chain.chain_wf (by simp [Chain.chain]) 0
  obtain ⟨c', hc', hk'⟩ := Chain.call_exists Chain.star_wf (by simp [Chain.star]) 0
  have htr : c.sameTrace c' = true := C88_ignores_connections hc hc' (hk.trans hk'.symm) (by rw [Chain.vars_chain, Chain.vars_star])
    (by simp [Chain.chain, Chain.star, Chain.b, kind, Ex.x, Ex.y, Chain.w])
  obtain ⟨a1, a2, a3⟩ := Chain.coords_chain hc.graph
  obtain ⟨b1, b2, b3⟩ := Chain.coords_star hc'.graph
  have hpat : graphPattern c.graph ≠ graphPattern c'.graph := by
    unfold graphPattern
    rw [a1, b1, a2, a3, b2, b3]
    decide
  refine ⟨c, c', hc, hc', htr, hpat, ?_, ?_, ?_⟩
  · intro stale A hA hwf b l i
    have := (C88_history stale [c] (by simpa using ⟨_, _, hc⟩) hc' hA hwf b l i).1
    rw [this]
    simp only [List.find?_cons, htr, Option.getD_some]
    unfold cholmodFactorSolve
    have hp : ScipyCoo.pattern (⟨A.values, A.cols, A.rows, (A.shape.2, A.shape.1)⟩ : ScipyCoo ℝ) = graphPattern c'.graph :=
      hA.pattern A.values
    rw [if_neg (by rw [hp]; exact hpat)]
  · intro stale A hA hwf b l i hb hl
    have hsh : A.shape = (3, 3) := by rw [hA.shape, b2, b3]
    obtain ⟨-, x, hx, -, hsol, -⟩ := C35_cholmod stale .empty 0 A hwf b (by rw [hsh]; exact hb) l hl
      (by intro p hp; simp [PyDict.empty, PyDict.get?] at hp)
    refine ⟨x, hx, ?_⟩
    rw [hsh] at hsol
    exact hsol
  · refine ⟨⟨[1, -1, -1, 1, 1], c'.graph.jacobianCoords.map (·.1), c'.graph.jacobianCoords.map (·.2),
      (c'.graph.residualDim, c'.graph.localLayout.dim)⟩, ⟨rfl, rfl, rfl⟩, ?_⟩
    rw [b1, b2, b3]
    unfold CooWF
    simp

/-- Non-vacuity of `C88_within_a_call` and `C88_fresh_partial`: solving the star again and again. -/
example : ∃ c, IsCall Ex.F Ex.C Chain.star [Ex.x, Ex.y, Chain.w] c ∧
    (∀ d ∈ [c, c], d.sameTrace c = true → graphPattern d.graph = graphPattern c.graph) ∧
    ∃ A, OnGraph c.graph A ∧ CooWF A := by
  obtain ⟨-, c', -, hc', -, -, -, -, hA⟩ := C88_shared
  exact ⟨c', hc', by simp, hA⟩

end Jaxfg.Props
