/- C83: what the pose graph script computes and draws. -/
import Verif.Lemmas.PoseGraphMain
import Verif.Props.PoseGraphScript

namespace Jaxfg.Props
open Spec
open Ext (fin)

/-- `dataclasses.replace` on both sides. -/
theorem liftsAny_replace {sE : AnySolver Ext} {s : AnySolver ℝ} (h : LiftsAny sE s) (hf : s.isFixedIteration = false) (n : Int) :
    ∃ tE t, sE.withMaxIterations n = .ok tE ∧ s.withMaxIterations n = .ok t ∧ LiftsAny tE t := by
  match sE, s, h with
  | .gaussNewton sE, .gaussNewton s, h =>
    have h : LiftsGN sE s := h
    refine ⟨_, _, rfl, rfl, (?_ : LiftsGN _ _)⟩
    exact { h with criteria := congrArg (fun c : Criteria Ext => { c with maxIterations := n }) h.criteria }
  | .levenbergMarquardt sE, .levenbergMarquardt s, h =>
    have h : LiftsLM sE s := h
    refine ⟨_, _, rfl, rfl, (?_ : LiftsLM _ _)⟩
    exact { h with criteria := congrArg (fun c : Criteria Ext => { c with maxIterations := n }) h.criteria }
  | .dogleg sE, .dogleg s, h =>
    have h : LiftsDogleg sE s := h
    refine ⟨_, _, rfl, rfl, (?_ : LiftsDogleg _ _)⟩
    exact { h with criteria := congrArg (fun c : Criteria Ext => { c with maxIterations := n }) h.criteria }

theorem liftsAny_isFixed {sE : AnySolver Ext} {s : AnySolver ℝ} (h : LiftsAny sE s) : sE.isFixedIteration = s.isFixedIteration := by
  cases sE <;> cases s <;> first | rfl | cases h

/-- CHOLMOD in a fresh linear solver object. -/
noncomputable def freshCholmod (stale : Pattern → ScipyCoo ℝ → ℝ → List ℝ → Py (List ℝ)) (addr : Nat) : LinSolver ℝ :=
  fun A b l _ => (cholmodSolve stale .empty addr A b l).1

section
variable (R : Reader) (limit : Int) (next : Nat) (lines : List (List Char)) (g : PoseGraph) (hfile : FileSays R limit lines g)
  (huber : Option ℝ) (hh : ∀ δ, huber = some δ → 0 < δ)
include hfile hh

/-- **C83.** `main` of the script, for each of its four solver types and with or without a Huber threshold, on a text that describes
poses and edges such that every pose other than pose 0 is an end of an edge: it neither raises nor computes forever nor produces
infinities or NaNs. The three solves (two of one step for timing) do not influence each other: the result is that of the last one. It
has one pose for each pose of the text, and they are rigid motions if those of the text are. The drawing is planar exactly if pose 0 is.
It shows the poses of the kind of pose 0: where the text puts them and where the result puts them, each in the order of the text. -/
theorem C83_main (kind : SolverType) (hc : Covered g) : ∃ data G a vars k₀ mu, parseG2o R limit next lines = .ok data ∧
    scriptProblem huber data = .ok (G, a) ∧ vars.Nodup ∧ data.initialPoses.keys = vars ∧ vars.map (·.ty) = g.poses.map (·.1.fileTy) ∧
    g.poses.head? = some (k₀, mu) ∧
    ∀ (stale : Pattern → ScipyCoo ℝ → ℝ → List ℝ → Py (List ℝ)) (addr : Nat → Nat) CE gE (solver : Nat → AnySolver Ext),
      (∀ G : Graph, Lifts CE (gE G) g2oClasses (G.ops g2oFactors g2oClasses)) →
      (∀ j, LiftsAny (solver j) (kind.getSolver (freshCholmod stale (addr j)))) →
      ∃ o x log, StoresPoses g vars x o ∧
        ((∀ p ∈ g.poses, p.1.Valid p.2) → ∀ (i : Nat) (k : LieType) y, g.poses[i]? = some (k, y) → k.Valid (x i)) ∧
        ∀ fuel : Nat, 100 ≤ fuel →
          graphSolve CE (gE G) fuel (a.map fin) (solver (if kind = .fixedIteration then 1 else 3)) = .ok (some (o.map fin, log)) ∧
          scriptMain CE gE solver fuel huber data = .ok (some (o.map fin, ⟨decide (k₀ = .se2),
            (positions g k₀ fun i => (g.poses.getD i (.se2, [])).2).map (List.map fin), (positions g k₀ x).map (List.map fin)⟩)) := by
  obtain ⟨data, G, a, vars, h1, h2, hnd, hkeys, hty, hst, hsolve⟩ := C75_solve R limit next lines g hfile huber hh hc
  obtain ⟨⟨k₀, mu⟩, h0⟩ : ∃ p, g.poses.head? = some p := by
    cases hp : g.poses with
    | nil => exact absurd hp hfile.2
    | cons p ps => exact ⟨p, rfl⟩
  obtain ⟨data', G', a', vars', h1', h2', -, -, -, -, -, hkeys', -, ha', -⟩ := script_problem R limit next lines g hfile huber hh
  obtain rfl : data' = data := Except.ok.inj (h1'.symm.trans h1)
  cases Except.ok.inj (h2'.symm.trans h2)
  obtain rfl : vars' = vars := hkeys'.symm.trans hkeys
  refine ⟨data', G, a, vars', k₀, mu, h1, h2, hnd, hkeys, hty, h0, fun stale addr CE gE solver hl hs => ?_⟩
  have hsound := soundGraph hfile
  -- the last solve
  have last : ∀ j, SolvesTo g vars' a (if kind = .fixedIteration then 10 else 100) ((solver j).solve CE (gE G)) := by
    intro j
    have hj := hs j
    obtain ⟨s1, s2, s3, s4⟩ := hsolve stale (addr j) 100 CE (gE G) (hl G)
    obtain ⟨sj, hsj⟩ : ∃ sj, sj = solver j := ⟨_, rfl⟩
    rw [← hsj] at hj ⊢
    cases kind <;> cases sj <;> first | exact absurd hj id | skip
    · exact s1 _ hj
    · obtain ⟨-, hlin, -, hit⟩ := hj
      have hit' : _ = (10 : Int) := hit
      have := s4 _ hlin
      rw [hit'] at this
      exact this
    · exact s2 _ hj
    · exact s3 _ hj
  -- the solves of one step
  have one : kind ≠ .fixedIteration → ∀ j, ∃ tE, (solver j).withMaxIterations 1 = .ok tE ∧ SolvesTo g vars' a 1 (tE.solve CE (gE G)) := by
    intro hk j
    obtain ⟨s1, s2, s3, -⟩ := hsolve stale (addr j) 1 CE (gE G) (hl G)
    obtain ⟨tE, t, e1, e2, e3⟩ := liftsAny_replace (hs j) (by cases kind <;> first | rfl | exact absurd rfl hk) 1
    refine ⟨tE, e1, ?_⟩
    cases kind
    · cases e2
      cases tE <;> first | exact absurd e3 id | exact s1 _ e3
    · exact absurd rfl hk
    · cases e2
      cases tE <;> first | exact absurd e3 id | exact s2 _ e3
    · cases e2
      cases tE <;> first | exact absurd e3 id | exact s3 _ e3
  obtain ⟨o, log, x, hx, hlay, hval, hret⟩ := last (if kind = .fixedIteration then 1 else 3)
  have hplot := scriptPlot_ok (hl G) hty hsound ha' hst hx hlay h0
  refine ⟨o, x, log, hx, hval, fun fuel hf => ?_⟩
  have hg : graphSolve CE (gE G) fuel (a.map fin) (solver (if kind = .fixedIteration then 1 else 3)) = .ok (some (o.map fin, log)) := by
    refine hret fuel ?_
    split <;> omega
  refine ⟨hg, ?_⟩
  unfold scriptMain
  rw [h2, py_bind_ok]
  have hfix : (solver 0).isFixedIteration = decide (kind = .fixedIteration) := by
    rw [liftsAny_isFixed (hs 0)]
    cases kind <;> rfl
  simp only [hfix]
  by_cases hk : kind = .fixedIteration
  · simp only [hk, decide_true, if_true] at hg ⊢
    simp only [py_bind_ok, pure, Except.pure, hg, hplot]
  · obtain ⟨t1, e1, o1, log1, x1, -, -, -, r1⟩ := one hk 1
    obtain ⟨t2, e2, o2, log2, x2, -, -, -, r2⟩ := one hk 2
    have hf1 : max 1 (1 : Int) ≤ (fuel : Int) := by omega
    have u1 : timedSolve CE (gE G) fuel (a.map fin) (solver 1) = .ok (some ()) := by
      unfold timedSolve graphSolve
      rw [e1, py_bind_ok, r1 fuel hf1]
      rfl
    have u2 : timedSolve CE (gE G) fuel (a.map fin) (solver 2) = .ok (some ()) := by
      unfold timedSolve graphSolve
      rw [e2, py_bind_ok, r2 fuel hf1]
      rfl
    simp only [hk, decide_false, if_false, Bool.false_eq_true] at hg ⊢
    simp only [u1, u2, py_bind_ok, hg, hplot, pure, Except.pure]

/-- **C83, poses without edges.** If some pose other than pose 0 is in no edge, `main` raises `AssertionError` with the solver types that
have a termination test. -/
theorem C83_uncovered (kind : SolverType) (hk : kind ≠ .fixedIteration) (hc : ¬ Covered g) : ∃ data,
    parseG2o R limit next lines = .ok data ∧ ∀ (L : Nat → LinSolver ℝ) CE gE (solver : Nat → AnySolver Ext),
      (∀ G : Graph, Lifts CE (gE G) g2oClasses (G.ops g2oFactors g2oClasses)) → (∀ j, LiftsAny (solver j) (kind.getSolver (L j))) →
      ∀ fuel, scriptMain CE gE solver fuel huber data = .error .assertion := by
  obtain ⟨data, G, a, h1, h2, h3⟩ := C75_uncovered R limit next lines g hfile huber hh hc
  refine ⟨data, h1, fun L CE gE solver hl hs fuel => ?_⟩
  obtain ⟨k1, k2, k3⟩ := h3 CE (gE G) (hl G) fuel
  obtain ⟨tE, t, e1, e2, e3⟩ := liftsAny_replace (hs 1) (by cases kind <;> first | rfl | exact absurd rfl hk) 1
  have hfix : (solver 0).isFixedIteration = false := by
    rw [liftsAny_isFixed (hs 0)]
    cases kind <;> first | rfl | exact absurd rfl hk
  have hu : timedSolve CE (gE G) fuel (a.map fin) (solver 1) = .error .assertion := by
    unfold timedSolve graphSolve
    rw [e1, py_bind_ok]
    have : tE.solve CE (gE G) fuel (a.map fin) = .error .assertion := by
      cases tE with
      | gaussNewton s => exact k1 s
      | levenbergMarquardt s => exact k2 s
      | dogleg s => exact k3 s
      | fixedIteration s =>
        exfalso
        cases kind
        · cases e2; exact e3
        · exact hk rfl
        · cases e2; exact e3
        · cases e2; exact e3
    rw [this]
    rfl
  unfold scriptMain
  rw [h2, py_bind_ok]
  simp only [hfix, Bool.false_eq_true, if_false]
  rw [hu]
  rfl

/-- **C83, order.** If moreover the edges mention the poses in their order (each pose of the text is the end of an edge before any later
pose is), then the graph and the assignments that the script makes store the poses in the same order. -/
theorem C83_same_order (hc : Covered g) (ho : InOrder g) : ∃ data G a, parseG2o R limit next lines = .ok data ∧
    scriptProblem huber data = .ok (G, a) ∧ a.layout = G.layout := by
  obtain ⟨data, G, a, vars, h1, h2, hG, hne, hwf, -, -, hkeys, -, ha, hst, -⟩ := script_problem R limit next lines g hfile huber hh
  obtain ⟨data', h1', hdesc⟩ := (C62_any_file R limit next lines).2 g hfile
  cases Except.ok.inj (h1'.symm.trans h1)
  obtain ⟨G', hG', hGo⟩ := graph_ok (F := g2oFactors) hwf hne
  cases Except.ok.inj (hG'.symm.trans hG)
  refine ⟨data, G, a, h1, h2, ?_⟩
  rw [hGo.layout, script_order (soundGraph hfile) hdesc hc ho, hkeys]
  exact ha.2.1.trans (by rw [hst.isGlobal])

end

namespace G2oScriptEx
open G2oEx

/-- The edges of the file of `G2oEx` mention its poses in order. -/
theorem inOrder : InOrder graph := by
  intro pre i post h j hj
  have h : [0, 1, 1, 2] = pre ++ i :: post := h
  match pre, h with
  | [], h => cases h; omega
  | [_], h => cases h; exact List.mem_singleton.2 (by omega)
  | [_, _], h => cases h; simp; omega
  | [_, _, _], h => cases h; simp; omega
  | _ :: _ :: _ :: _ :: l, h => simp at h

/-- The script on the file of `G2oEx` with the default linear solver objects, each at its own address. -/
example (stale : Pattern → ScipyCoo ℝ → ℝ → List ℝ → Py (List ℝ)) : ∃ data,
    parseG2o reader 100000 0 G2oEx.lines = .ok data ∧ ∃ o p,
    scriptMain (fun t => (g2oClasses t).lift) (fun G => (G.ops g2oFactors g2oClasses).lift)
      (fun j => .gaussNewton (GaussNewton.defaults (freshCholmod stale j)).lift) 100 (some (1 / 2)) data = .ok (some (o, p)) ∧
    p.planar = true ∧ p.initial = [[fin ((0 : Int) : ℝ), fin ((0 : Int) : ℝ)], [fin ((5 : Int) : ℝ), fin ((0 : Int) : ℝ)],
      [fin ((5 : Int) : ℝ), fin ((7 : Int) : ℝ)]] ∧ p.optimized.length = 3 := by
  have hh : ∀ δ, some (1 / 2 : ℝ) = some δ → 0 < δ := by rintro δ h; cases h; norm_num
  obtain ⟨data, G, a, vars, k₀, mu, h1, -, -, -, -, h0, h⟩ := C83_main reader 100000 0 _ graph fileSays (some (1 / 2)) hh .gaussNewton covered
  obtain ⟨o, x, log, -, -, h⟩ := h stale id _ _ (fun j => .gaussNewton (GaussNewton.defaults (freshCholmod stale j)).lift)
    (fun G => lifts_lift g2oClasses (G.ops g2oFactors g2oClasses)) (fun j => liftsGN_lift (GaussNewton.defaults (freshCholmod stale j)))
  cases h0
  refine ⟨data, h1, _, _, (h 100 le_rfl).2, rfl, ?_, rfl⟩
  rfl

end G2oScriptEx

/-- **C83, the guard.** The timed solves change `max_iterations`; with the solver type that has no such field they raise `TypeError`
before anything is solved, so the script needs its `isinstance` test (scripts/pose_graph_g2o.py:81-83), and with the other three types
they do not raise for that reason. -/
theorem C83_guard (kind : SolverType) (L : LinSolver ℝ) (solver : AnySolver Ext) (hs : LiftsAny solver (kind.getSolver L)) :
    (kind = .fixedIteration → ∀ CE gE fuel a, timedSolve CE gE fuel a solver = .error .type) ∧
    (kind ≠ .fixedIteration → ∃ s, solver.withMaxIterations 1 = .ok s) := by
  cases kind <;> cases solver <;> first | exact absurd hs id | skip
  · exact ⟨fun h => by simp at h, fun _ => ⟨_, rfl⟩⟩
  · exact ⟨fun _ _ _ _ _ => rfl, fun h => absurd rfl h⟩
  · exact ⟨fun h => by simp at h, fun _ => ⟨_, rfl⟩⟩
  · exact ⟨fun h => by simp at h, fun _ => ⟨_, rfl⟩⟩

end Jaxfg.Props
