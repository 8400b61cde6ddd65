/- C75: solving the pose graph of a g2o file. -/
import Verif.Lemmas.PoseGraphScript
import Verif.Props.G2oAny
import Verif.Props.Invariants
import Verif.Props.FixedAnyOrder

namespace Jaxfg.Props
open Spec
open Ext (fin)
open Matrix hiding vec

section
variable (R : Reader) (limit : Int) (next : Nat) (lines : List (List Char)) (g : PoseGraph) (hfile : FileSays R limit lines g)
  (huber : Option ℝ) (hh : ∀ δ, huber = some δ → 0 < δ)
include hfile hh

/-- **C75, the problem.** From a text that describes poses and edges, the script builds a graph and initial poses. If every pose
other than pose 0 is an end of an edge, the cost of the graph is the objective that the text describes, whatever the poses are:
also for poses that are not the initial ones, stored in any order, with quaternions of any length. -/
theorem C75_objective : ∃ data G a vars, parseG2o R limit next lines = .ok data ∧ scriptProblem huber data = .ok (G, a) ∧
    vars.Nodup ∧ data.initialPoses.keys = vars ∧ vars.map (·.ty) = g.poses.map (·.1.fileTy) ∧
    StoresPoses g vars (fun i => (g.poses.getD i (.se2, [])).2) a ∧
    (Covered g → ∀ x b, StoresPoses g vars x b →
      ∃ r, G.computeCost g2oFactors g2oClasses b = .ok (fileObjective huber g x, r)) := by
  obtain ⟨data, G, a, vars, h1, h2, hG, hfne, hwf, hcov, hnd, hkeys, hty, ha, hst, hobj⟩ := script_problem R limit next lines g hfile huber hh
  have hC : GoodClasses g2oClasses := lie_goodClasses g2oClasses_eq
  have hlen : vars.length = g.poses.length := by simpa using congrArg List.length hty
  obtain ⟨G', hG', hGo⟩ := graph_ok (F := g2oFactors) hwf hfne
  obtain rfl : G' = G := Except.ok.inj (hG'.symm.trans hG)
  refine ⟨data, G', a, vars, h1, h2, hnd, hkeys, hty, hst, ?_⟩
  · intro hc x b hb
    obtain ⟨⟨ws, hb1, hperm⟩, hb2, hb3⟩ := hb
    have hcv : ∀ v, v ∈ ws ↔ ∃ f ∈ scriptFactors huber data, v ∈ f.vars := by
      intro v
      rw [hcov, hperm.mem_iff]
      constructor
      · intro hv
        obtain ⟨i, hi⟩ := List.mem_iff_getElem?.1 hv
        refine ⟨i, hi, ?_⟩
        by_cases h0 : i = 0
        · exact .inl h0
        · exact .inr (hc i (by rw [← hlen]; exact (List.getElem?_eq_some_iff.1 hi).1) h0)
      · rintro ⟨i, hi, -⟩
        exact List.mem_of_getElem? hi
    obtain ⟨val, hvaldef⟩ : ∃ val : Var → Value ℝ, val = fun v => (b.getValue g2oClasses v).toOption.getD ⟨0, []⟩ := ⟨_, rfl⟩
    have hv2 : ∀ (i : Nat) (v : Var) (k : LieType) y, vars[i]? = some v → g.poses[i]? = some (k, y) → val v = k.ops.value (x i) := by
      intro i v k y hi hp
      rw [hvaldef]
      simp only [hb3 i v k y hi hp]
      rfl
    have hH : Holds g2oClasses (scriptFactors huber data) ws val b := by
      refine ⟨hb1, hb2, hcv, fun v hv => ?_⟩
      obtain ⟨i, hi⟩ := List.mem_iff_getElem?.1 (hperm.mem_iff.1 hv)
      have hlt : i < g.poses.length := by rw [← hlen]; exact (List.getElem?_eq_some_iff.1 hi).1
      obtain ⟨⟨k, y⟩, hp⟩ : ∃ p, g.poses[i]? = some p := ⟨_, List.getElem?_eq_getElem hlt⟩
      rw [hb3 i v k y hi hp, hv2 i v k y hi hp]
    obtain ⟨w, hw, hsum⟩ := hobj val x hv2
    exact ⟨_, by rw [cost_ok _ _ hC hfne hwf hGo hH hw, hsum]⟩

/-- **C75, solving.** If every pose other than pose 0 is an end of an edge, then Gauss-Newton, Levenberg-Marquardt and dogleg with
CHOLMOD and default settings, except for any number of iterations, return poses for the poses of the text. So does the solver with a
fixed number of iterations (which need not be good poses: see C40, C83). -/
theorem C75_solve (hc : Covered g) : ∃ data G a vars, parseG2o R limit next lines = .ok data ∧
    scriptProblem huber data = .ok (G, a) ∧ vars.Nodup ∧ data.initialPoses.keys = vars ∧ vars.map (·.ty) = g.poses.map (·.1.fileTy) ∧
    StoresPoses g vars (fun i => (g.poses.getD i (.se2, [])).2) a ∧
    ∀ (stale : Pattern → ScipyCoo ℝ → ℝ → List ℝ → Py (List ℝ)) (addr : Nat) (N : Int) CE gE,
      Lifts CE gE g2oClasses (G.ops g2oFactors g2oClasses) →
      let L : LinSolver ℝ := fun A b l _ => (cholmodSolve stale .empty addr A b l).1
      (∀ sE, LiftsGN sE { GaussNewton.defaults L with maxIterations := N } → SolvesTo g vars a N (sE.solve CE gE)) ∧
      (∀ sE, LiftsLM sE { LevenbergMarquardt.defaults L with maxIterations := N } → SolvesTo g vars a N (sE.solve CE gE)) ∧
      (∀ sE, LiftsDogleg sE { Dogleg.defaults L with maxIterations := N } → SolvesTo g vars a N (sE.solve CE gE)) ∧
      (∀ sE : FixedIteration Ext, LiftsSolver sE.linear L → SolvesTo g vars a sE.iterations (sE.solve CE gE)) := by
  obtain ⟨data, G, a, vars, h1, h2, hG, hfne, hwf, hcov, hnd, hkeys, hty, ha, hst, -⟩ := script_problem R limit next lines g hfile huber hh
  refine ⟨data, G, a, vars, h1, h2, hnd, hkeys, hty, hst, fun stale addr N CE gE hl => ?_⟩
  have hsound := soundGraph hfile
  have hC : GoodClasses g2oClasses := lie_goodClasses g2oClasses_eq
  have hlen : vars.length = g.poses.length := by simpa using congrArg List.length hty
  have hpos : ∀ f ∈ scriptFactors huber data, ∀ v ∈ f.vars, 0 < (g2oClasses v.ty).paramDim := fun f hf v hv => by
    rw [g2oClasses_eq]; exact lie_paramDim_pos _
  have hcv : ∀ v, v ∈ vars ↔ ∃ f ∈ scriptFactors huber data, v ∈ f.vars := by
    intro v
    rw [hcov]
    constructor
    · intro hv
      obtain ⟨i, hi⟩ := List.mem_iff_getElem?.1 hv
      refine ⟨i, hi, ?_⟩
      by_cases h0 : i = 0
      · exact .inl h0
      · exact .inr (hc i (by rw [← hlen]; exact (List.getElem?_eq_some_iff.1 hi).1) h0)
    · rintro ⟨i, hi, -⟩
      exact List.mem_of_getElem? hi
  have hat : ∀ v ∈ vars, ∃ (i : Nat) (k : LieType) (y : List ℝ), vars[i]? = some v ∧ g.poses[i]? = some (k, y) ∧ fileGroup v.ty = k := by
    intro v hv
    obtain ⟨i, hi⟩ := List.mem_iff_getElem?.1 hv
    have hlt : i < g.poses.length := by rw [← hlen]; exact (List.getElem?_eq_some_iff.1 hi).1
    obtain ⟨⟨k, y⟩, hp⟩ : ∃ p, g.poses[i]? = some p := ⟨_, List.getElem?_eq_getElem hlt⟩
    refine ⟨i, k, y, hi, hp, ?_⟩
    have e := congrArg (fun l : List Ty => l[i]?) hty
    simp only [List.getElem?_map, hi, hp, Option.map_some, Option.some.injEq] at e
    rw [e, fileGroup_fileTy (hsound.poses _ (List.mem_of_getElem? hp)).1]
  obtain ⟨pose, hpd⟩ : ∃ pose : Var → List ℝ, pose = fun v => (g.poses.getD (vars.idxOf v) (.se2, [])).2 := ⟨_, rfl⟩
  have hpose : ∀ (i : Nat) (v : Var), vars[i]? = some v → pose v = (g.poses.getD i (.se2, [])).2 := by
    intro i v hi
    obtain ⟨hlt, rfl⟩ := List.getElem?_eq_some_iff.1 hi
    rw [hpd]
    simp only
    rw [hnd.idxOf_getElem i hlt]
  have hH : Holds g2oClasses (scriptFactors huber data) vars (poseValue fileGroup pose) a := by
    refine ⟨ha, hst.isGlobal, hcv, fun v hv => ?_⟩
    obtain ⟨i, k, y, hi, hp, e⟩ := hat v hv
    rw [hst.value i v k y hi hp]
    unfold poseValue
    rw [e, hpose i v hi]
  -- what is returned are poses
  have conv : ∀ {N : Int} {solve : Nat → Assign Ext → Py (Option (Assign Ext × List (Msg Ext)))},
      Returns g2oClasses solve N vars a →
      (∀ out log, solve (max 1 N).toNat (a.map fin) = .ok (some (out, log)) → ∃ o, out = o.map fin ∧ (o.layout = a.layout ∧
        ∃ val', Holds g2oClasses (scriptFactors huber data) vars val' o ∧ ∀ v ∈ vars, IsValueOf (g2oClasses v.ty) (val' v))) →
      ((∀ v ∈ vars, (fileGroup v.ty).Valid (pose v)) → ∀ out log, solve (max 1 N).toNat (a.map fin) = .ok (some (out, log)) →
        ∃ o, out = o.map fin ∧ (o.layout = a.layout ∧ ∃ pose', Holds g2oClasses (scriptFactors huber data) vars (poseValue fileGroup pose') o ∧
          ∀ v ∈ vars, (fileGroup v.ty).Valid (pose' v))) → SolvesTo g vars a N solve := by
    intro N solve hr hany hvalid
    obtain ⟨o, log, ho, hlay, hs⟩ := hr
    have key : ∀ pose' : Var → List ℝ, Holds g2oClasses (scriptFactors huber data) vars (poseValue fileGroup pose') o →
        StoresPoses g vars (fun i => (vars[i]?.elim [] pose')) o := by
      intro pose' hH'
      refine ⟨⟨vars, ho, .refl _⟩, hH'.isGlobal, fun i v k y hi hp => ?_⟩
      obtain ⟨i', k', y', hi', hp', e⟩ := hat v (List.mem_of_getElem? hi)
      obtain rfl : i' = i := (List.getElem?_inj (List.getElem?_eq_some_iff.1 hi').1 hnd).1 (hi'.trans hi.symm)
      rw [hp] at hp'
      cases hp'
      rw [hH'.values v (List.mem_of_getElem? hi), hi]
      unfold poseValue
      rw [e]
      rfl
    have hfuel : max 1 N ≤ ((max 1 N).toNat : Int) := Int.self_le_toNat _
    by_cases hv : ∀ p ∈ g.poses, p.1.Valid p.2
    · have hv' : ∀ v ∈ vars, (fileGroup v.ty).Valid (pose v) := by
        intro v hv'
        obtain ⟨i, k, y, hi, hp, e⟩ := hat v hv'
        rw [e, hpose i v hi, List.getD_eq_getElem?_getD, hp]
        exact hv _ (List.mem_of_getElem? hp)
      obtain ⟨o', e1, -, pose', e2, e3⟩ := hvalid hv' _ _ (hs _ hfuel)
      obtain rfl : o = o' := assign_map_fin e1
      refine ⟨o, log, _, key pose' e2, hlay, fun _ i k y hp => ?_, hs⟩
      have hlt : i < vars.length := by rw [hlen]; exact (List.getElem?_eq_some_iff.1 hp).1
      have hi := List.getElem?_eq_getElem hlt
      rw [hi]
      obtain ⟨i', k', y', hi', hp', e⟩ := hat _ (List.mem_of_getElem? hi)
      obtain rfl : i' = i := (List.getElem?_inj (List.getElem?_eq_some_iff.1 hi').1 hnd).1 (hi'.trans hi.symm)
      rw [hp] at hp'
      cases hp'
      have := e3 _ (List.mem_of_getElem? hi)
      rw [e] at this
      exact this
    · obtain ⟨o', e1, -, val', e2, e3⟩ := hany _ _ (hs _ hfuel)
      obtain rfl : o = o' := assign_map_fin e1
      have : ∀ v ∈ vars, ∃ x, val' v = (fileGroup v.ty).ops.value x := by
        intro v hv
        have := e3 v hv
        rw [g2oClasses_eq] at this
        obtain ⟨x, hx, -⟩ := (isValueOf_lie _).1 this
        exact ⟨x, hx⟩
      choose! pose' hpose' using this
      exact ⟨o, log, _, key pose' ⟨e2.assignment, e2.isGlobal, e2.sameVars, fun v hv => by rw [e2.values v hv, hpose' v hv]; rfl⟩,
        hlay, fun h => absurd h hv, hs⟩
  obtain ⟨G1, hG1, r⟩ := C72_solve_returns g2oFactors g2oClasses hC _ hfne hwf hpos
  obtain rfl : G1 = G := Except.ok.inj (hG1.symm.trans hG)
  obtain ⟨G2, hG2, hL⟩ := C72_cholmod g2oFactors g2oClasses hC _ hfne hwf stale addr
  obtain rfl : G2 = G1 := Except.ok.inj (hG2.symm.trans hG)
  obtain ⟨G3, hG3, inv⟩ := C74_invariants g2oFactors g2oClasses hC _ hfne hwf hpos (fun v x => IsValueOf (g2oClasses v.ty) x)
    fun v x d h1 _ h3 => (hC v.ty).2 x d h1 h3
  obtain rfl : G3 = G2 := Except.ok.inj (hG3.symm.trans hG)
  obtain ⟨G4, hG4, pos⟩ := C74_poses g2oFactors g2oClasses fileGroup g2oClasses_eq _ hfne hwf
  obtain rfl : G4 = G3 := Except.ok.inj (hG4.symm.trans hG)
  obtain ⟨r1, r2, r3, -⟩ := r CE gE hl vars a ha hst.isGlobal hcv
  have hval : ∀ v ∈ vars, IsValueOf (g2oClasses v.ty) (poseValue fileGroup pose v) := by
    intro v hv
    obtain ⟨i, k, y, hi, hp, e⟩ := hat v hv
    unfold poseValue
    rw [g2oClasses_eq]
    refine (isValueOf_lie _).2 ⟨_, rfl, ?_⟩
    rw [e, hpose i v hi, List.getD_eq_getElem?_getD, hp]
    exact (hsound.poses _ (List.mem_of_getElem? hp)).2.1
  obtain ⟨i1, i2, i3, -⟩ := inv CE gE hl vars _ a hH hval
  have pos := pos CE gE hl vars pose a hH
  have hsz := cholmod_sized stale addr
  have hz := cholmod_zeroAtZero stale addr
  refine ⟨fun sE hs => ?_, fun sE hs => ?_, fun sE hs => ?_, fun sE hs => ?_⟩
  · exact conv (r1 sE _ hs hL) (i1 sE _ hs hsz _) fun hv => (pos hv).1 sE _ hs hsz _
  · exact conv (r2 sE _ hs hL (by norm_num [LevenbergMarquardt.defaults]) (by norm_num [LevenbergMarquardt.defaults])
      (by norm_num [LevenbergMarquardt.defaults])) (i2 sE _ hs hsz (by norm_num [LevenbergMarquardt.defaults]) _)
      fun hv => (pos hv).2.1 sE _ hs hsz (by norm_num [LevenbergMarquardt.defaults]) _
  · exact conv (r3 sE _ hs hL hz (by norm_num [Dogleg.defaults])) (i3 sE _ hs hsz hz (by norm_num [Dogleg.defaults]) _)
      fun hv => (pos hv).2.2.1 sE _ hs hsz hz (by norm_num [Dogleg.defaults]) _
  · have hfuel : max 1 sE.iterations ≤ ((max 1 sE.iterations).toNat : Int) := Int.self_le_toNat _
    obtain ⟨G5, hG5, f5⟩ := C72_fixed_any_order g2oFactors g2oClasses hC _ hfne hwf hpos (fun v x => IsValueOf (g2oClasses v.ty) x)
      fun v x d h1 _ h3 => (hC v.ty).2 x d h1 h3
    obtain rfl : G5 = G4 := Except.ok.inj (hG5.symm.trans hG)
    obtain ⟨o, log, val', e1, e2, e3, e4⟩ := f5 CE gE hl vars _ a hH hval sE _ hs hL
    refine conv ⟨o, log, e1.assignment, e2, e4⟩ (fun out log' ho => ?_) fun hv out log' ho => ?_
    · rw [e4 _ hfuel] at ho
      cases ho
      exact ⟨o, rfl, e2, val', e1, e3⟩
    · obtain ⟨G6, hG6, f6⟩ := C72_fixed_any_order g2oFactors g2oClasses hC _ hfne hwf hpos
        (fun v x => ∃ p, (fileGroup v.ty).Valid p ∧ x = (fileGroup v.ty).ops.value p) (by
          rintro v _ d - ⟨p, hp, rfl⟩ -
          obtain ⟨y, hy, e⟩ := (C67_retraction (fileGroup v.ty) p hp).1 d
          exact ⟨y, hy, by rw [g2oClasses_eq, e]⟩)
      obtain rfl : G6 = G5 := Except.ok.inj (hG6.symm.trans hG)
      obtain ⟨o', log'', val'', k1, k2, k3, k4⟩ := f6 CE gE hl vars _ a hH (fun v hv' => ⟨pose v, hv v hv', rfl⟩) sE _ hs hL
      rw [k4 _ hfuel] at ho
      cases ho
      choose! pose' m1 m2 using k3
      exact ⟨o', rfl, k2, pose', ⟨k1.assignment, k1.isGlobal, k1.sameVars, fun v hv => by rw [k1.values v hv, m2 v hv]; rfl⟩, m1⟩

/-- **C75, poses without edges.** If some pose other than pose 0 is in no edge, the script builds the problem, but the solvers
raise `AssertionError`. -/
theorem C75_uncovered (hc : ¬ Covered g) : ∃ data G a, parseG2o R limit next lines = .ok data ∧ scriptProblem huber data = .ok (G, a) ∧
    ∀ CE gE, Lifts CE gE g2oClasses (G.ops g2oFactors g2oClasses) → ∀ fuel,
      (∀ sE : GaussNewton Ext, sE.solve CE gE fuel (a.map fin) = .error .assertion) ∧
      (∀ sE : LevenbergMarquardt Ext, sE.solve CE gE fuel (a.map fin) = .error .assertion) ∧
      (∀ sE : Dogleg Ext, sE.solve CE gE fuel (a.map fin) = .error .assertion) := by
  obtain ⟨data, G, a, vars, h1, h2, hG, hfne, hwf, hcov, hnd, hkeys, hty, ha, hst, -⟩ := script_problem R limit next lines g hfile huber hh
  refine ⟨data, G, a, h1, h2, fun CE gE hl fuel => ?_⟩
  have hC : GoodClasses g2oClasses := lie_goodClasses g2oClasses_eq
  have hlen : vars.length = g.poses.length := by simpa using congrArg List.length hty
  obtain ⟨G1, hG1, h⟩ := C72_wrong_variables g2oFactors g2oClasses hC _ hfne hwf
  obtain rfl : G1 = G := Except.ok.inj (hG1.symm.trans hG)
  refine h CE gE hl vars a ha (fun hn => hc fun i hi h0 => ?_) fuel
  rw [← hlen] at hi
  obtain ⟨j, hj, hj'⟩ := (hcov _).1 ((hn.2 vars[i]).1 (List.getElem_mem hi))
  obtain rfl : j = i := (List.getElem?_inj (List.getElem?_eq_some_iff.1 hj).1 hnd).1 (hj.trans (List.getElem?_eq_getElem hi).symm)
  exact hj'.resolve_left h0

end

/-! ### Cases -/

namespace G2oScriptEx
open G2oEx G2oMixedEx

noncomputable def at' (x y : Int) : List ℝ := [Real.cos (0 : Int), Real.sin (0 : Int), (x : ℝ), (y : ℝ)]

noncomputable def graph : PoseGraph :=
  ⟨[(.se2, at' 0 0), (.se2, at' 5 0), (.se2, at' 5 7)], [⟨.se2, 0, 1, at' 4 0, 1⟩, ⟨.se2, 1, 2, at' 0 6, 1⟩]⟩

/-- The file of `G2oEx`: three poses and two edges that do not agree with them. -/
theorem fileSays : FileSays reader 100000 G2oEx.lines graph := by
  refine ⟨.cons (line ["VERTEX_SE2".toList, "0".toList, "0".toList, "0".toList, "0".toList] (by simp) (by decide) (by decide))
      (.pose (.vertex2 (by rfl) (num _ [0, 0, 0] (by decide))) (fun _ => by decide))
    (.cons (line ["VERTEX_SE2".toList, "1".toList, "5".toList, "0".toList, "0".toList] (by simp) (by decide) (by decide))
      (.pose (.vertex2 (by rfl) (num _ [5, 0, 0] (by decide))) (fun _ => by decide))
    (.cons (line ("EDGE_SE2".toList :: "0".toList :: "1".toList :: (["4".toList, "0".toList, "0".toList] ++
        ["1".toList, "0".toList, "0".toList, "1".toList, "0".toList, "1".toList])) (by simp) (by decide) (by decide))
      (.edge (i := 0) (j := 1) (.edge2 (P := 1) (by rfl) (by rfl) (num _ [4, 0, 0] (by decide)) up one) (fun _ => by decide)
        Matrix.PosDef.one ⟨by decide, .inl rfl⟩ ⟨by decide, .inl rfl⟩ rfl rfl)
    (.cons (line ["VERTEX_SE2".toList, "2".toList, "5".toList, "7".toList, "0".toList] (by simp) (by decide) (by decide))
      (.pose (.vertex2 (by rfl) (num _ [5, 7, 0] (by decide))) (fun _ => by decide))
    (.cons (line ("EDGE_SE2".toList :: "1".toList :: "2".toList :: (["0".toList, "6".toList, "0".toList] ++
        ["1".toList, "0".toList, "0".toList, "1".toList, "0".toList, "1".toList])) (by simp) (by decide) (by decide))
      (.edge (i := 1) (j := 2) (.edge2 (P := 1) (by rfl) (by rfl) (num _ [0, 6, 0] (by decide)) up one) (fun _ => by decide)
        Matrix.PosDef.one ⟨by decide, .inl rfl⟩ ⟨by decide, .inl rfl⟩ rfl rfl)
    (.nil _))))), by simp [graph]⟩

theorem covered : Covered graph := by
  intro i hi h0
  have : i = 1 ∨ i = 2 := by
    have : i < 3 := hi
    omega
  rcases this with rfl | rfl
  · exact ⟨⟨.se2, 0, 1, at' 4 0, 1⟩, by simp [graph], .inr rfl⟩
  · exact ⟨⟨.se2, 1, 2, at' 0 6, 1⟩, by simp [graph], .inr rfl⟩

theorem arg_one : (⟨1, 0⟩ : ℂ).arg = 0 := Complex.arg_one

theorem errors : edgeError .se2 (at' 4 0) (at' 0 0) (at' 5 0) = [-1, 0, 0] ∧ edgeError .se2 (at' 0 6) (at' 5 0) (at' 5 7) = [0, -1, 0] := by
  constructor <;>
    norm_num [edgeError, at', LieType.ops, LieGroup.se2, LieGroup.se2Mul, LieGroup.se2Inv, LieGroup.se2Log, LieGroup.arctan2,
      LieGroup.halfOverTan, arg_one]

/-- The objective at the poses of the file: both edges are off by one, so it is 2; with threshold 1/2 it is 1. -/
theorem objective : fileObjective none graph (fun i => (graph.poses.getD i (.se2, [])).2) = 2 ∧
    fileObjective (some (1 / 2)) graph (fun i => (graph.poses.getD i (.se2, [])).2) = 1 := by
  have sq : ∀ r : List ℝ, vec r LieType.se2.ops.tangentDim ⬝ᵥ
      ((1 : Matrix (Fin LieType.se2.ops.tangentDim) (Fin LieType.se2.ops.tangentDim) ℝ) *ᵥ vec r LieType.se2.ops.tangentDim) =
      r.getD 0 0 ^ 2 + r.getD 1 0 ^ 2 + r.getD 2 0 ^ 2 := by
    intro r
    rw [Matrix.one_mulVec]
    show (vec r 3) ⬝ᵥ (vec r 3) = _
    simp [dotProduct, Fin.sum_univ_three, vec, pow_two]
  have an : LieType.se2.ops.log (LieType.se2.ops.multiply (LieType.se2.ops.inverse (at' 0 0)) (at' 0 0)) = [0, 0, 0] := by
    norm_num [at', LieType.ops, LieGroup.se2, LieGroup.se2Mul, LieGroup.se2Inv, LieGroup.se2Log, LieGroup.arctan2,
      LieGroup.halfOverTan, arg_one]
  have e := errors
  constructor <;>
    simp only [fileObjective, graph, List.map_cons, List.map_nil, List.getD_cons_zero, List.getD_cons_succ, List.head?_cons, Option.elim_some,
      e.1, e.2, an, sq, robustLoss] <;> norm_num [sqNorm]

/-- With threshold 1/2 the script builds a problem with that cost at the initial poses, and Gauss-Newton returns rigid motions. -/
example (stale : Pattern → ScipyCoo ℝ → ℝ → List ℝ → Py (List ℝ)) (addr : Nat) : ∃ data G a vars r,
    parseG2o reader 100000 0 G2oEx.lines = .ok data ∧ scriptProblem (some (1 / 2)) data = .ok (G, a) ∧
    G.computeCost g2oFactors g2oClasses a = .ok (1, r) ∧
    ∃ o log x, (GaussNewton.defaults fun A b l _ => (cholmodSolve stale .empty addr A b l).1).lift.solve
      (fun t => (g2oClasses t).lift) (G.ops g2oFactors g2oClasses).lift 100 (a.map fin) = .ok (some (o.map fin, log)) ∧
      StoresPoses graph vars x o ∧ LieType.se2.Valid (x 0) ∧ LieType.se2.Valid (x 1) ∧ LieType.se2.Valid (x 2) := by
  have hh : ∀ δ, some (1 / 2 : ℝ) = some δ → 0 < δ := by rintro δ h; cases h; norm_num
  obtain ⟨data, G, a, vars, h1, h2, -, -, -, h3, h4⟩ := C75_solve reader 100000 0 _ graph fileSays (some (1 / 2)) hh covered
  obtain ⟨data', G', a', vars', k1, k2, -, -, -, k3, k4⟩ := C75_objective reader 100000 0 _ graph fileSays (some (1 / 2)) hh
  obtain rfl : data' = data := Except.ok.inj (k1.symm.trans h1)
  cases Except.ok.inj (k2.symm.trans h2)
  obtain ⟨r, hr⟩ := k4 covered _ _ k3
  rw [objective.2] at hr
  obtain ⟨o, log, x, e1, -, e2, e3⟩ := (h4 stale addr 100 _ _ (lifts_lift _ _)).1 _ (liftsGN_lift _)
  have hv := e2 (by
    intro p hp
    have h0 : ∀ a b, LieType.se2.Valid (at' a b) := fun a b => ⟨_, _, _, _, rfl, Real.cos_sq_add_sin_sq _⟩
    rcases (by simpa [graph] using hp : p = (.se2, at' 0 0) ∨ p = (.se2, at' 5 0) ∨ p = (.se2, at' 5 7)) with rfl | rfl | rfl <;>
      exact h0 _ _)
  exact ⟨data', G, a, vars, r, h1, h2, hr, o, log, x, e3 100 (by norm_num), e1, hv 0 _ _ rfl, hv 1 _ _ rfl, hv 2 _ _ rfl⟩

/-- In the file of `G2oMixedEx` the planar pose is in no edge: the solvers raise. -/
example : ∃ data G a, parseG2o reader 2 0 G2oMixedEx.lines = .ok data ∧ scriptProblem none data = .ok (G, a) ∧
    ∀ CE gE, Lifts CE gE g2oClasses (G.ops g2oFactors g2oClasses) → ∀ fuel, ∀ sE : GaussNewton Ext,
      sE.solve CE gE fuel (a.map fin) = .error .assertion := by
  obtain ⟨data, G, a, h1, h2, h3⟩ := C75_uncovered reader 2 0 _ _ says_two none (fun _ h => by cases h) (fun h => by
    obtain ⟨e, he, h⟩ := h 2 (by decide) (by decide)
    obtain rfl := List.mem_singleton.1 he
    rcases h with h | h <;> cases h)
  exact ⟨data, G, a, h1, h2, fun CE gE hl fuel => (h3 CE gE hl fuel).1⟩

end G2oScriptEx

end Jaxfg.Props
