/-
Property C130: the solvers on a g2o file whose edges can be satisfied exactly (scripts/pose_graph_g2o.py, scripts/_g2o_utils.py,
jaxfg/solvers).
-/
import Verif.Lemmas.FileFit
import Verif.Lemmas.FilePoses
import Verif.Lemmas.Signs
import Verif.Props.GeometryStop
import Verif.Props.PoseGraphMain
import Verif.Props.PoseGraphScript

namespace Jaxfg.Props
open Spec
open Ext (fin)

/-- The factors of a file whose edges the poses `x` satisfy, as measurements, and the assignments that store `x`. -/
theorem file_setup (R : Reader) (limit : Int) (next : Nat) (lines : List (List Char)) (g : PoseGraph) (hfile : FileSays R limit lines g)
    (x : Nat → List ℝ) (hx : FitsFile g x) (ht : ∀ i < g.poses.length, TiedToFirst g i) :
    ∃ data G a₀ pose, ∃ (P : Factor → (Var → List ℝ) → Prop) (e : Assign ℝ),
      parseG2o R limit next lines = .ok data ∧ scriptProblem none data = .ok (G, a₀) ∧ Graph.make g2oClasses data.factors = .ok G ∧
      data.factors ≠ [] ∧ (∀ f ∈ data.factors, FactorWF g2oFactors g2oClasses f) ∧
      (∀ f ∈ data.factors, Measures g2oFactors fileGroup f (P f)) ∧
      (∀ f ∈ data.factors, ∀ v ∈ f.vars, NoiseWF f.noise (fileGroup v.ty).ops.tangentDim (fileGroup v.ty).ops.tangentDim ∧
        NoiseRegular f.noise (fileGroup v.ty).ops.tangentDim) ∧
      (∀ f ∈ data.factors, NoiseGaussian f.noise) ∧ (∀ v ∈ Graph.variablesOf data.factors, (fileGroup v.ty).Valid (pose v)) ∧
      Holds g2oClasses data.factors (Graph.variablesOf data.factors) (poseValue fileGroup pose) e ∧ e.layout = G.layout ∧
      (∀ f ∈ data.factors, P f pose) ∧ (∀ v ∈ Graph.variablesOf data.factors, Anchored data.factors v) ∧
      StoresPoses g data.initialPoses.keys x e := by
  obtain ⟨data, G, a₀, vars, h1, h2, hG, hfne, hwf, hcov, hnd, hkeys, hty, -, -, hobj⟩ :=
    script_problem R limit next lines g hfile none (fun _ h => by cases h)
  obtain ⟨data', hdata, hdesc⟩ := (C62_any_file R limit next lines).2 g hfile
  obtain rfl : data' = data := Except.ok.inj (hdata.symm.trans h1)
  obtain ⟨vars', pose, P, hkeys', -, hpose, hgrp, hlen, -, hP, hanch⟩ := file_fit (soundGraph hfile) hdesc hx ht
  obtain rfl : vars' = vars := hkeys'.symm.trans hkeys
  have hfs : scriptFactors none data' = data'.factors := rfl
  rw [hfs] at hG hfne hwf hcov
  have hval : ∀ v ∈ vars', (fileGroup v.ty).Valid (pose v) := by
    intro v hv
    obtain ⟨i, hi⟩ := List.mem_iff_getElem?.1 hv
    have hi' : i < g.poses.length := hlen ▸ (List.getElem?_eq_some_iff.1 hi).1
    have hp : g.poses[i]? = some (g.poses[i].1, g.poses[i].2) := List.getElem?_eq_getElem hi'
    rw [hgrp i v _ _ hi hp, hpose i v hi]
    exact hx.poses i _ _ hp
  have hmem : ∀ v, v ∈ vars' ↔ ∃ f ∈ data'.factors, v ∈ f.vars := by
    intro v
    refine ⟨fun hv => ?_, fun ⟨f, hf, hv⟩ => ((hP f hf).2.2.2 v hv).1⟩
    cases hanch v hv with
    | prior hf hv => exact ⟨_, hf, by rw [hv]; simp⟩
    | forward hf hv _ => exact ⟨_, hf, by rw [hv]; simp⟩
    | backward hf hv _ => exact ⟨_, hf, by rw [hv]; simp⟩
  have hvo : ∀ v, v ∈ Graph.variablesOf data'.factors ↔ v ∈ vars' := fun v => by rw [(variablesOf_spec _).2, hmem]
  have hval' : ∀ v ∈ Graph.variablesOf data'.factors, (fileGroup v.ty).Valid (pose v) := fun v hv => hval v ((hvo v).1 hv)
  obtain ⟨e, he, hlay⟩ := pose_assignment g2oClasses_eq hfne hwf hG hval'
  have hnoise := fun f hf v hv => ((hP f hf).2.2.2 v hv).2
  refine ⟨data', G, a₀, pose, P, e, h1, h2, hG, hfne, hwf, fun f hf => (hP f hf).1, hnoise, fun f hf => (hP f hf).2.2.1, hval', he,
    hlay, fun f hf => (hP f hf).2.1, fun v hv => hanch v ((hvo v).1 hv), ⟨_, he.assignment, ?_⟩, he.isGlobal, ?_⟩
  · rw [hkeys]
    exact (List.perm_ext_iff_of_nodup (variablesOf_spec _).1 hnd).2 hvo
  · intro i v k y hi hp
    rw [hkeys] at hi
    rw [he.values v ((hvo v).2 (List.mem_of_getElem? hi)), poseValue, hgrp i v k y hi hp, hpose i v hi]

/-- **C130.** Let a text describe the poses and edges `g`, every pose being connected with pose 0 by a chain of edges, and let the poses
`x` satisfy all edges exactly, with pose 0 where the text puts it. Then there are assignments `e` in the storage order of the graph of
the script (without Huber losses) that store `x`, the cost there is zero, and there is a rate below one, for every larger `κ < 1` a
neighbourhood, such that Gauss-Newton, Levenberg-Marquardt and dogleg with CHOLMOD, default settings and a budget of `N` steps, started
with `e` retracted by a small delta `d`, return `e` retracted by some `d'` with `|d'| ≤ κᵏ |d|`, where `k ≥ 1` is the number of
steps. -/
theorem C130_file (R : Reader) (limit : Int) (next : Nat) (lines : List (List Char)) (g : PoseGraph) (hfile : FileSays R limit lines g)
    (x : Nat → List ℝ) (hx : FitsFile g x) (ht : ∀ i < g.poses.length, TiedToFirst g i)
    (stale : Pattern → ScipyCoo ℝ → ℝ → List ℝ → Py (List ℝ)) (addr : Nat) :
    ∃ data G a₀ e r, parseG2o R limit next lines = .ok data ∧ scriptProblem none data = .ok (G, a₀) ∧
      StoresPoses g data.initialPoses.keys x e ∧ e.layout = G.layout ∧ G.computeCost g2oFactors g2oClasses e = .ok (0, r) ∧
      let L : LinSolver ℝ := fun A b l _ => (cholmodSolve stale .empty addr A b l).1
      ∃ κ₀ < 1, ∀ κ, κ₀ < κ → κ < 1 → ∃ τ > 0, ∃ ε > 0, ∀ CE gE, Lifts CE gE g2oClasses (G.ops g2oFactors g2oClasses) →
        ∀ d : List ℝ, d.length = G.localLayout.dim → √(sqNorm d) < ε → ∀ a, e.manifoldRetract g2oClasses ⟨d, G.localLayout⟩ = .ok a →
        ∀ N : Int, let t : Criteria ℝ := { Criteria.defaults with maxIterations := N }
          let Good := fun solve : Nat → Assign Ext → Py (Option (Assign Ext × List (Msg Ext))) =>
            ∃ o log, ReturnsNear g2oClasses t G.localLayout e κ τ d o ∧
              ∀ fuel : Nat, max 1 N ≤ fuel → solve fuel (a.map fin) = .ok (some (o.map fin, log))
          (∀ sE, LiftsGN sE { GaussNewton.defaults L with maxIterations := N } → Good (sE.solve CE gE)) ∧
          (∀ sE, LiftsLM sE { LevenbergMarquardt.defaults L with maxIterations := N } → Good (sE.solve CE gE)) ∧
          (∀ sE, LiftsDogleg sE { Dogleg.defaults L with maxIterations := N } → Good (sE.solve CE gE)) := by
  obtain ⟨data, G, a₀, pose, P, e, h1, h2, hG, hfne, hwf, hP, hnoise, hgauss, hval, he, hlay, hfit, hanch, hst⟩ :=
    file_setup R limit next lines g hfile x hx ht
  obtain ⟨G₁, hG₁, hz⟩ := C54_cost_zero_iff g2oFactors g2oClasses fileGroup g2oClasses_eq _ hfne P hP hnoise
  obtain rfl : G₁ = G := Except.ok.inj (hG₁.symm.trans hG)
  obtain ⟨c, r, hc, hc0⟩ := hz _ pose e hval he
  obtain rfl := hc0.2 hfit
  obtain ⟨G₂, hG₂, H⟩ := C129_cholmod g2oFactors g2oClasses fileGroup g2oClasses_eq _ hfne P hP hnoise hgauss stale addr
  obtain rfl : G₂ = G₁ := Except.ok.inj (hG₂.symm.trans hG)
  refine ⟨data, G₂, a₀, e, r, h1, h2, hst, hlay, hc, ?_⟩
  obtain ⟨κ₀, k1, k2⟩ := H _ pose e hval he hlay hfit hanch (1 / 2000) (1 / 1000) 1 (by norm_num) (by norm_num) one_pos
  refine ⟨κ₀, k1, fun κ hκ hκ1 => ?_⟩
  obtain ⟨τ, hτ, ε, hε, k3⟩ := k2 κ hκ hκ1
  refine ⟨τ, hτ, ε, hε, fun CE gE hl d hd hdε a ha N => ?_⟩
  obtain ⟨m1, m2, m3⟩ := k3 CE gE hl d hd hdε a ha
  have hf : (1 : ℝ) ≤ 2 := by norm_num
  have hm : (0 : ℝ) ≤ 1 / 100000 := by norm_num
  exact ⟨fun sE hs => m1 sE _ hs rfl, fun sE hs => m2 sE _ hs rfl hf hm rfl rfl, fun sE hs => m3 sE _ hs rfl rfl rfl⟩

/-- **C130, the graph.** Two texts that differ at most in the poses on vertex lines, and not in pose 0, give the script the same factors
and the same graph, and initial poses in the same storage order. -/
theorem C130_same_graph (R : Reader) (limit : Int) (next : Nat) (lines lines' : List (List Char)) (g g' : PoseGraph)
    (hfile : FileSays R limit lines g) (hfile' : FileSays R limit lines' g') (hsame : SameButPoses R lines lines')
    (hfirst : g'.poses.head? = g.poses.head?) (huber : Option ℝ) (hh : ∀ δ, huber = some δ → 0 < δ) :
    ∃ data data' G a a', parseG2o R limit next lines = .ok data ∧ parseG2o R limit next lines' = .ok data' ∧
      data'.factors = data.factors ∧ scriptProblem huber data = .ok (G, a) ∧ scriptProblem huber data' = .ok (G, a') ∧
      a'.layout = a.layout := by
  obtain ⟨data, G, a, vars, h1, h2, hG, -, -, -, -, hkeys, -, ha, hst, -⟩ := script_problem R limit next lines g hfile huber hh
  obtain ⟨data', G', a', vars', h1', h2', hG', -, -, -, -, hkeys', -, ha', hst', -⟩ :=
    script_problem R limit next lines' g' hfile' huber hh
  obtain ⟨d, hd, hdesc⟩ := (C62_any_file R limit next lines).2 g hfile
  obtain rfl : d = data := Except.ok.inj (hd.symm.trans h1)
  obtain ⟨d', hd', hdesc'⟩ := (C62_any_file R limit next lines').2 g' hfile'
  obtain rfl : d' = data' := Except.ok.inj (hd'.symm.trans h1')
  obtain ⟨s, v, mu, e1, e2, e3, e4, e5⟩ := parse_ok h1
  obtain ⟨t, w, nu, f1, f2, f3, f4, f5⟩ := parse_ok h1'
  have hst₁ := sameBut_fold hsame (sameBut_refl _) e1 f1
  rw [sameBut_vars hst₁] at f2
  obtain rfl : v = w := Except.ok.inj (e2.symm.trans f2)
  obtain ⟨⟨k, x⟩, hx⟩ : ∃ p, g.poses.head? = some p := by
    cases hp : g.poses with
    | nil => exact absurd hp hfile.2
    | cons p ps => exact ⟨p, rfl⟩
  obtain rfl := first_pose (soundGraph hfile) hdesc e5 (by rw [e4]; exact e3) hx
  obtain rfl := first_pose (soundGraph hfile') hdesc' f5 (by rw [f4]; exact f3) (hfirst.trans hx)
  obtain ⟨p, rfl, hp⟩ := hst₁
  have hfac : d'.factors = d.factors := f5.trans e5.symm
  have hk : vars' = vars := by
    rw [← hkeys, ← hkeys', e4, f4]
    exact hp
  have hsf : scriptFactors huber d' = scriptFactors huber d := by rw [scriptFactors_eq, scriptFactors_eq, hfac]
  rw [hsf, hG] at hG'
  obtain rfl := Except.ok.inj hG'
  refine ⟨d, d', G, a, a', h1, h1', hfac, h2, h2', ?_⟩
  rw [ha'.2.1, ha.2.1, hst.isGlobal, hst'.isGlobal, hk]

/-- **C130, perturbed files.** So the neighbourhood is the same for all texts with these edges and this pose 0: if the initial poses of
such a text, as the script stores them, are near `e`, the solvers lead from them to `e`. -/
theorem C130_near (R : Reader) (limit : Int) (next : Nat) (lines : List (List Char)) (g : PoseGraph) (hfile : FileSays R limit lines g)
    (x : Nat → List ℝ) (hx : FitsFile g x) (ht : ∀ i < g.poses.length, TiedToFirst g i)
    (stale : Pattern → ScipyCoo ℝ → ℝ → List ℝ → Py (List ℝ)) (addr : Nat) :
    let L : LinSolver ℝ := fun A b l _ => (cholmodSolve stale .empty addr A b l).1
    ∃ G e, (∃ vars, StoresPoses g vars x e) ∧ e.layout = G.layout ∧ ∃ κ₀ < 1, ∀ κ, κ₀ < κ → κ < 1 → ∃ τ > 0, ∃ ε > 0,
      ∀ lines' g', FileSays R limit lines' g' → SameButPoses R lines lines' → g'.poses.head? = g.poses.head? →
      ∃ data' a', parseG2o R limit next lines' = .ok data' ∧ scriptProblem none data' = .ok (G, a') ∧
        ∀ d : List ℝ, d.length = G.localLayout.dim → √(sqNorm d) < ε → e.manifoldRetract g2oClasses ⟨d, G.localLayout⟩ = .ok a' →
        ∀ CE gE, Lifts CE gE g2oClasses (G.ops g2oFactors g2oClasses) → ∀ N : Int,
          let t : Criteria ℝ := { Criteria.defaults with maxIterations := N }
          let Good := fun solve : Nat → Assign Ext → Py (Option (Assign Ext × List (Msg Ext))) =>
            ∃ o log, ReturnsNear g2oClasses t G.localLayout e κ τ d o ∧
              ∀ fuel : Nat, max 1 N ≤ fuel → solve fuel (a'.map fin) = .ok (some (o.map fin, log))
          (∀ sE, LiftsGN sE { GaussNewton.defaults L with maxIterations := N } → Good (sE.solve CE gE)) ∧
          (∀ sE, LiftsLM sE { LevenbergMarquardt.defaults L with maxIterations := N } → Good (sE.solve CE gE)) ∧
          (∀ sE, LiftsDogleg sE { Dogleg.defaults L with maxIterations := N } → Good (sE.solve CE gE)) := by
  obtain ⟨data, G, a₀, e, r, h1, h2, h3, h4, -, κ₀, k1, k2⟩ := C130_file R limit next lines g hfile x hx ht stale addr
  refine ⟨G, e, ⟨_, h3⟩, h4, κ₀, k1, fun κ hκ hκ1 => ?_⟩
  obtain ⟨τ, hτ, ε, hε, k3⟩ := k2 κ hκ hκ1
  refine ⟨τ, hτ, ε, hε, fun lines' g' hfile' hsame hfirst => ?_⟩
  obtain ⟨d, data', G', b, a', p1, p2, -, p4, p5, -⟩ :=
    C130_same_graph R limit next lines lines' g g' hfile hfile' hsame hfirst none (fun _ h => by cases h)
  obtain rfl : d = data := Except.ok.inj (p1.symm.trans h1)
  obtain ⟨rfl, -⟩ : G' = G ∧ b = a₀ := by simpa using Except.ok.inj (p4.symm.trans h2)
  exact ⟨data', a', p2, p5, fun d hd hdε ha CE gE hl N => k3 CE gE hl d hd hdε a' ha N⟩

/-- Assignments with the same layout that store the same poses are equal. -/
theorem stores_unique {g : PoseGraph} {vars : List Var} {x : Nat → List ℝ} {a b : Assign ℝ} (hlen : vars.length = g.poses.length)
    (ha : StoresPoses g vars x a) (hb : StoresPoses g vars x b) (hl : a.layout = b.layout) : a = b := by
  obtain ⟨ws, h1, h2⟩ := ha.assignment
  obtain ⟨ws', h3, -⟩ := hb.assignment
  have h4 : IsAssignmentOf g2oClasses ws b := ⟨h1.1, by rw [← hl]; exact h1.2.1, h3.2.2⟩
  obtain ⟨f, hf⟩ := exists_rep h1
  obtain ⟨f', hf'⟩ := exists_rep h4
  rw [ha.isGlobal] at hf
  rw [hb.isGlobal] at hf'
  have hr := rep_of_same_values (fun t => (lie_goodClasses g2oClasses_eq t).1) hf hf' (fun _ => Iff.rfl) (by
    intro v hv
    obtain ⟨i, hi⟩ := List.mem_iff_getElem?.1 (h2.mem_iff.1 hv)
    have hi' : i < g.poses.length := hlen ▸ (List.getElem?_eq_some_iff.1 hi).1
    have hp : g.poses[i]? = some (g.poses[i].1, g.poses[i].2) := List.getElem?_eq_getElem hi'
    rw [ha.value i v _ _ hi hp, hb.value i v _ _ hi hp])
  have hs : a.storage = b.storage := hf.storage.trans hr.storage.symm
  cases a
  cases b
  simp_all

theorem tied_covered {g : PoseGraph} (ht : ∀ i < g.poses.length, TiedToFirst g i) : Covered g := by
  intro i hi h0
  cases ht i hi with
  | first => exact absurd rfl h0
  | forward he _ => exact ⟨_, he, .inr rfl⟩
  | backward he _ => exact ⟨_, he, .inl rfl⟩

/-- If the edges mention the poses in their order, assignments in the order of the graph that store the poses of the text are the initial
ones, and retracting them by zero changes nothing. -/
theorem start_unique {R : Reader} {limit : Int} {next : Nat} {lines : List (List Char)} {g : PoseGraph} (hfile : FileSays R limit lines g)
    (hcov : Covered g) (ho : InOrder g) {data : G2oData} {G : Graph} {a e : Assign ℝ} (h1 : parseG2o R limit next lines = .ok data)
    (h2 : scriptProblem none data = .ok (G, a))
    (h3 : StoresPoses g data.initialPoses.keys (fun i => (g.poses.getD i (.se2, [])).2) e) (h4 : e.layout = G.layout) :
    a = e ∧ ∀ d : List ℝ, d.length = G.localLayout.dim → sqNorm d = 0 →
      a.manifoldRetract g2oClasses ⟨d, G.localLayout⟩ = .ok a := by
  have hh : ∀ δ, (none : Option ℝ) = some δ → 0 < δ := fun _ h => by cases h
  obtain ⟨data₁, G₁, a₁, vars, p1, p2, hG, hfne, hwf, -, -, hkeys, hty, ha, hst, -⟩ := script_problem R limit next lines g hfile none hh
  obtain rfl : data₁ = data := Except.ok.inj (p1.symm.trans h1)
  obtain ⟨rfl, rfl⟩ : G₁ = G ∧ a₁ = a := by simpa using Except.ok.inj (p2.symm.trans h2)
  obtain ⟨data₂, G₂, a₂, q1, q2, hlay⟩ := C83_same_order R limit next lines g hfile none hh hcov ho
  obtain rfl : data₂ = data₁ := Except.ok.inj (q1.symm.trans h1)
  obtain ⟨rfl, rfl⟩ : G₂ = G₁ ∧ a₂ = a₁ := by simpa using Except.ok.inj (q2.symm.trans h2)
  have hlen : vars.length = g.poses.length := by simpa using congrArg List.length hty
  rw [hkeys] at h3
  refine ⟨stores_unique hlen hst h3 (hlay.trans h4.symm), fun d hd h0 => ?_⟩
  obtain ⟨G₃, hG₃, hsane⟩ := sane_graph (F := g2oFactors) (lie_goodClasses g2oClasses_eq) hwf hfne
  obtain rfl : G₃ = G₂ := Except.ok.inj (hG₃.symm.trans hG)
  have hd0 : ∀ y ∈ d, y = 0 := by
    rw [sqNorm_eq_zero.1 h0]
    intro y hy
    exact List.eq_of_mem_replicate hy
  have hal : IsAssignmentOf g2oClasses (Graph.variablesOf (scriptFactors none data₂)) a₂ :=
    ⟨hsane.nodup, by rw [hst.isGlobal]; exact hlay.trans hsane.layout, ha.2.2⟩
  exact hsane.zero_stays (lie_zeroRetract g2oClasses_eq) hal hlay hd0 hd

/-- **C130, satisfied files.** If the poses of the text itself satisfy all edges exactly and the edges mention the poses in their order,
the solvers return the initial poses. -/
theorem C130_satisfied (R : Reader) (limit : Int) (next : Nat) (lines : List (List Char)) (g : PoseGraph)
    (hfile : FileSays R limit lines g) (hx : FitsFile g fun i => (g.poses.getD i (.se2, [])).2)
    (ht : ∀ i < g.poses.length, TiedToFirst g i) (ho : InOrder g)
    (stale : Pattern → ScipyCoo ℝ → ℝ → List ℝ → Py (List ℝ)) (addr : Nat) :
    let L : LinSolver ℝ := fun A b l _ => (cholmodSolve stale .empty addr A b l).1
    ∃ data G a, parseG2o R limit next lines = .ok data ∧ scriptProblem none data = .ok (G, a) ∧
      ∀ CE gE, Lifts CE gE g2oClasses (G.ops g2oFactors g2oClasses) → ∀ N : Int,
        let Good := fun solve : Nat → Assign Ext → Py (Option (Assign Ext × List (Msg Ext))) =>
          ∃ log, ∀ fuel : Nat, max 1 N ≤ fuel → solve fuel (a.map fin) = .ok (some (a.map fin, log))
        (∀ sE, LiftsGN sE { GaussNewton.defaults L with maxIterations := N } → Good (sE.solve CE gE)) ∧
        (∀ sE, LiftsLM sE { LevenbergMarquardt.defaults L with maxIterations := N } → Good (sE.solve CE gE)) ∧
        (∀ sE, LiftsDogleg sE { Dogleg.defaults L with maxIterations := N } → Good (sE.solve CE gE)) := by
  obtain ⟨data, G, a, e, r, h1, h2, h3, h4, -, κ₀, k1, k2⟩ := C130_file R limit next lines g hfile _ hx ht stale addr
  obtain ⟨rfl, hstay⟩ := start_unique hfile (tied_covered ht) ho h1 h2 h3 h4
  obtain ⟨κ, hκ, hκ1⟩ := exists_between k1
  obtain ⟨τ, -, ε, hε, k3⟩ := k2 κ hκ hκ1
  have hz : sqNorm (List.replicate G.localLayout.dim (0 : ℝ)) = 0 := sqNorm_eq_zero.2 (by simp)
  refine ⟨data, G, a, h1, h2, fun CE gE hl N => ?_⟩
  have hret : ∀ {t o}, ReturnsNear g2oClasses t G.localLayout a κ τ (List.replicate G.localLayout.dim 0) o → o = a := by
    rintro t o ⟨k, d', -, hd', ho, hle, -⟩
    rw [hz, Real.sqrt_zero, mul_zero] at hle
    have h0 : sqNorm d' = 0 := (Real.sqrt_eq_zero (sqNorm_nonneg _)).1 (le_antisymm hle (Real.sqrt_nonneg _))
    exact Except.ok.inj (ho.symm.trans (hstay d' hd' h0))
  obtain ⟨m1, m2, m3⟩ := k3 CE gE hl (List.replicate G.localLayout.dim 0) (by simp) (by rw [hz, Real.sqrt_zero]; exact hε) a
    (hstay _ (by simp) hz) N
  refine ⟨fun sE hs => ?_, fun sE hs => ?_, fun sE hs => ?_⟩
  · obtain ⟨o, log, n1, n2⟩ := m1 sE hs
    obtain rfl := hret n1
    exact ⟨log, n2⟩
  · obtain ⟨o, log, n1, n2⟩ := m2 sE hs
    obtain rfl := hret n1
    exact ⟨log, n2⟩
  · obtain ⟨o, log, n1, n2⟩ := m3 sE hs
    obtain rfl := hret n1
    exact ⟨log, n2⟩

/-- **C130, `main`.** On such a file, `main` of the script without Huber losses ends with the initial poses, with each of these solvers. -/
theorem C130_main (R : Reader) (limit : Int) (next : Nat) (lines : List (List Char)) (g : PoseGraph)
    (hfile : FileSays R limit lines g) (hx : FitsFile g fun i => (g.poses.getD i (.se2, [])).2)
    (ht : ∀ i < g.poses.length, TiedToFirst g i) (ho : InOrder g) (kind : SolverType) (hk : kind ≠ .fixedIteration)
    (stale : Pattern → ScipyCoo ℝ → ℝ → List ℝ → Py (List ℝ)) (addr : Nat → Nat) :
    ∃ data G a, parseG2o R limit next lines = .ok data ∧ scriptProblem none data = .ok (G, a) ∧ ∀ CE gE (solver : Nat → AnySolver Ext),
      (∀ G : Graph, Lifts CE (gE G) g2oClasses (G.ops g2oFactors g2oClasses)) →
      (∀ j, LiftsAny (solver j) (kind.getSolver (freshCholmod stale (addr j)))) →
      ∀ fuel : Nat, 100 ≤ fuel → ∃ plot, scriptMain CE gE solver fuel none data = .ok (some (a.map fin, plot)) := by
  obtain ⟨data, G, a, vars, k₀, mu, h1, h2, -, -, -, -, H⟩ :=
    C83_main R limit next lines g hfile none (fun _ h => by cases h) kind (tied_covered ht)
  obtain ⟨data₁, G₁, a₁, p1, p2, K⟩ := C130_satisfied R limit next lines g hfile hx ht ho stale (addr 3)
  obtain rfl : data₁ = data := Except.ok.inj (p1.symm.trans h1)
  obtain ⟨rfl, rfl⟩ : G₁ = G ∧ a₁ = a := by simpa using Except.ok.inj (p2.symm.trans h2)
  refine ⟨data₁, G₁, a₁, h1, h2, fun CE gE solver hl hs fuel hf => ?_⟩
  obtain ⟨o, x, log, -, -, h⟩ := H stale addr CE gE solver hl hs
  obtain ⟨hg, hm⟩ := h fuel hf
  rw [if_neg hk] at hg
  obtain ⟨m1, m2, m3⟩ := K CE (gE G₁) (hl G₁) 100
  have hf' : max 1 (100 : Int) ≤ (fuel : Int) := by omega
  have hsolve : ∃ log', (solver 3).solve CE (gE G₁) fuel (a₁.map fin) = .ok (some (a₁.map fin, log')) := by
    have h3 := hs 3
    obtain ⟨s3, hs3⟩ : ∃ s3, s3 = solver 3 := ⟨_, rfl⟩
    rw [← hs3] at h3 ⊢
    cases kind <;> cases s3 <;> first | exact absurd h3 id | exact absurd rfl hk | skip
    · obtain ⟨l, hl⟩ := m1 _ h3
      exact ⟨l, hl fuel hf'⟩
    · obtain ⟨l, hl⟩ := m2 _ h3
      exact ⟨l, hl fuel hf'⟩
    · obtain ⟨l, hl⟩ := m3 _ h3
      exact ⟨l, hl fuel hf'⟩
  obtain ⟨log', hsolve⟩ := hsolve
  have hoa : o.map fin = a₁.map fin := by
    have := Except.ok.inj (hg.symm.trans hsolve)
    simp only [Option.some.injEq, Prod.mk.injEq] at this
    exact this.1
  rw [hoa] at hm
  exact ⟨_, hm⟩

namespace G2oScriptEx
open G2oEx G2oMixedEx

theorem at'_valid (a b : Int) : LieType.se2.Valid (at' a b) := ⟨_, _, _, _, rfl, Real.cos_sq_add_sin_sq _⟩

theorem at'_add (a b c d : Int) : LieType.se2.motion (at' (a + c) (b + d)) = LieType.se2.motion (at' a b) * LieType.se2.motion (at' c d) := by
  rw [← motion_mul LieType.se2 (at'_valid a b) (at'_valid c d)]
  congr 1
  show _ = LieGroup.se2Mul _ _
  simp [at', LieGroup.se2Mul, add_comm]

/-- Poses that satisfy the edges of the file. -/
noncomputable def fitted (i : Nat) : List ℝ := [at' 0 0, at' 4 0, at' 4 6].getD i []

theorem fitsFile : FitsFile graph fitted := by
  refine ⟨fun i k y hi => ?_, fun k y hi => ?_, fun e he => ?_⟩
  · have hk : k = .se2 := by
      have := List.mem_of_getElem? hi
      simp only [graph, List.mem_cons, Prod.mk.injEq, List.not_mem_nil, or_false] at this
      tauto
    have hi : i < 3 := (List.getElem?_eq_some_iff.1 hi).1
    subst hk
    interval_cases i
    · exact at'_valid 0 0
    · exact at'_valid 4 0
    · exact at'_valid 4 6
  · obtain ⟨rfl, rfl⟩ : LieType.se2 = k ∧ at' 0 0 = y := by simpa [graph] using hi
    exact ⟨at'_valid 0 0, rfl⟩
  · rcases (by simpa [graph] using he : e = ⟨.se2, 0, 1, at' 4 0, 1⟩ ∨ e = ⟨.se2, 1, 2, at' 0 6, 1⟩) with rfl | rfl
    · exact ⟨at'_valid 4 0, at'_add 0 0 4 0⟩
    · exact ⟨at'_valid 0 6, at'_add 4 0 0 6⟩

theorem tied : ∀ i < graph.poses.length, TiedToFirst graph i := by
  have t1 : TiedToFirst graph 1 := .forward (e := ⟨.se2, 0, 1, at' 4 0, 1⟩) (by simp [graph]) .first
  have t2 : TiedToFirst graph 2 := .forward (e := ⟨.se2, 1, 2, at' 0 6, 1⟩) (by simp [graph]) t1
  intro i hi
  have hi : i < 3 := hi
  interval_cases i
  · exact .first
  · exact t1
  · exact t2

/-- The concrete case: the file of `G2oEx`, whose poses (0, 0), (5, 0), (5, 7) do not satisfy its edges; (0, 0), (4, 0), (4, 6) do. -/
example (stale : Pattern → ScipyCoo ℝ → ℝ → List ℝ → Py (List ℝ)) (addr : Nat) : ∃ data G a₀ e,
    parseG2o reader 100000 0 G2oEx.lines = .ok data ∧ scriptProblem none data = .ok (G, a₀) ∧
    StoresPoses graph data.initialPoses.keys fitted e ∧
    ∃ κ < 1, ∃ τ > 0, ∃ ε > 0, ∀ d : List ℝ, d.length = G.localLayout.dim → √(sqNorm d) < ε →
      ∀ a, e.manifoldRetract g2oClasses ⟨d, G.localLayout⟩ = .ok a →
      ∃ o log, ReturnsNear g2oClasses Criteria.defaults G.localLayout e κ τ d o ∧
        (GaussNewton.defaults fun A b l _ => (cholmodSolve stale .empty addr A b l).1).lift.solve
          (fun t => (g2oClasses t).lift) (G.ops g2oFactors g2oClasses).lift 100 (a.map fin) = .ok (some (o.map fin, log)) := by
  obtain ⟨data, G, a₀, e, r, h1, h2, h3, -, -, κ₀, k1, k2⟩ := C130_file reader 100000 0 _ graph fileSays _ fitsFile tied stale addr
  obtain ⟨κ, hκ, hκ1⟩ := exists_between k1
  obtain ⟨τ, hτ, ε, hε, k3⟩ := k2 κ hκ hκ1
  refine ⟨data, G, a₀, e, h1, h2, h3, κ, hκ1, τ, hτ, ε, hε, fun d hd hdε a ha => ?_⟩
  obtain ⟨o, log, p1, p2⟩ := (k3 _ _ (lifts_lift _ _) d hd hdε a ha 100).1 _ (liftsGN_lift _)
  exact ⟨o, log, p1, p2 100 (by norm_num)⟩

/-- The file with pose 1 at (3, 1). -/
def moved : List (List Char) := G2oEx.lines.set 1 "VERTEX_SE2 1 3 1 0\n".toList

noncomputable def movedGraph : PoseGraph := ⟨[(.se2, at' 0 0), (.se2, at' 3 1), (.se2, at' 5 7)], graph.edges⟩

theorem moved_says : FileSays reader 100000 moved movedGraph := by
  refine ⟨.cons (line ["VERTEX_SE2".toList, "0".toList, "0".toList, "0".toList, "0".toList] (by simp) (by decide) (by decide))
      (.pose (.vertex2 (by rfl) (num _ [0, 0, 0] (by decide))) (fun _ => by decide))
    (.cons (line ["VERTEX_SE2".toList, "1".toList, "3".toList, "1".toList, "0".toList] (by simp) (by decide) (by decide))
      (.pose (.vertex2 (by rfl) (num _ [3, 1, 0] (by decide))) (fun _ => by decide))
    (.cons (line ("EDGE_SE2".toList :: "0".toList :: "1".toList :: (["4".toList, "0".toList, "0".toList] ++
        ["1".toList, "0".toList, "0".toList, "1".toList, "0".toList, "1".toList])) (by simp) (by decide) (by decide))
      (.edge (i := 0) (j := 1) (.edge2 (P := 1) (by rfl) (by rfl) (num _ [4, 0, 0] (by decide)) up one) (fun _ => by decide)
        Matrix.PosDef.one ⟨by decide, .inl rfl⟩ ⟨by decide, .inl rfl⟩ rfl rfl)
    (.cons (line ["VERTEX_SE2".toList, "2".toList, "5".toList, "7".toList, "0".toList] (by simp) (by decide) (by decide))
      (.pose (.vertex2 (by rfl) (num _ [5, 7, 0] (by decide))) (fun _ => by decide))
    (.cons (line ("EDGE_SE2".toList :: "1".toList :: "2".toList :: (["0".toList, "6".toList, "0".toList] ++
        ["1".toList, "0".toList, "0".toList, "1".toList, "0".toList, "1".toList])) (by simp) (by decide) (by decide))
      (.edge (i := 1) (j := 2) (.edge2 (P := 1) (by rfl) (by rfl) (num _ [0, 6, 0] (by decide)) up one) (fun _ => by decide)
        Matrix.PosDef.one ⟨by decide, .inl rfl⟩ ⟨by decide, .inl rfl⟩ rfl rfl)
    (.nil _))))), by simp [movedGraph]⟩

theorem moved_same : SameButPoses reader G2oEx.lines moved :=
  .cons (.inl rfl) (.cons (.inr ⟨["VERTEX_SE2".toList, "1".toList, "5".toList, "0".toList, "0".toList],
    ["VERTEX_SE2".toList, "1".toList, "3".toList, "1".toList, "0".toList], .se2, 1, _, _,
    line _ (by simp) (by decide) (by decide), line _ (by simp) (by decide) (by decide),
    .vertex2 (by rfl) (num _ [5, 0, 0] (by decide)), .vertex2 (by rfl) (num _ [3, 1, 0] (by decide))⟩)
    (.cons (.inl rfl) (.cons (.inl rfl) (.cons (.inl rfl) .nil))))

/-- The two files give the same graph, from other initial poses. -/
example : moved ≠ G2oEx.lines ∧ ∃ data data' G a a', parseG2o reader 100000 0 G2oEx.lines = .ok data ∧
    parseG2o reader 100000 0 moved = .ok data' ∧ data'.factors = data.factors ∧ scriptProblem none data = .ok (G, a) ∧
    scriptProblem none data' = .ok (G, a') ∧ a'.layout = a.layout :=
  ⟨by decide, C130_same_graph reader 100000 0 _ _ graph movedGraph fileSays moved_says moved_same rfl none (fun _ h => by cases h)⟩

/-- The neighbourhood of the poses (0, 0), (4, 0), (4, 6) for both files. -/
example (stale : Pattern → ScipyCoo ℝ → ℝ → List ℝ → Py (List ℝ)) (addr : Nat) : ∃ G e, (∃ vars, StoresPoses graph vars fitted e) ∧
    ∃ κ < 1, ∃ τ > 0, ∃ ε > 0, ∀ text, text = G2oEx.lines ∨ text = moved → ∃ data a, parseG2o reader 100000 0 text = .ok data ∧
      scriptProblem none data = .ok (G, a) ∧ ∀ d : List ℝ, d.length = G.localLayout.dim → √(sqNorm d) < ε →
        e.manifoldRetract g2oClasses ⟨d, G.localLayout⟩ = .ok a →
        ∃ o log, ReturnsNear g2oClasses Criteria.defaults G.localLayout e κ τ d o ∧
          (GaussNewton.defaults fun A b l _ => (cholmodSolve stale .empty addr A b l).1).lift.solve
            (fun t => (g2oClasses t).lift) (G.ops g2oFactors g2oClasses).lift 100 (a.map fin) = .ok (some (o.map fin, log)) := by
  obtain ⟨G, e, h1, -, κ₀, k1, k2⟩ := C130_near reader 100000 0 _ graph fileSays _ fitsFile tied stale addr
  obtain ⟨κ, hκ, hκ1⟩ := exists_between k1
  obtain ⟨τ, hτ, ε, hε, k3⟩ := k2 κ hκ hκ1
  refine ⟨G, e, h1, κ, hκ1, τ, hτ, ε, hε, fun text htext => ?_⟩
  obtain ⟨g', hg', hsame, hfirst⟩ : ∃ g', FileSays reader 100000 text g' ∧ SameButPoses reader G2oEx.lines text ∧
      g'.poses.head? = graph.poses.head? := by
    rcases htext with rfl | rfl
    · exact ⟨graph, fileSays, List.forall₂_same.2 fun _ _ => .inl rfl, rfl⟩
    · exact ⟨movedGraph, moved_says, moved_same, rfl⟩
  obtain ⟨data, a, p1, p2, p3⟩ := k3 text g' hg' hsame hfirst
  refine ⟨data, a, p1, p2, fun d hd hdε ha => ?_⟩
  obtain ⟨o, log, q1, q2⟩ := (p3 d hd hdε ha _ _ (lifts_lift _ _) 100).1 _ (liftsGN_lift _)
  exact ⟨o, log, q1, q2 100 (by norm_num)⟩

/-- The file with poses that satisfy its edges. -/
def good : List (List Char) := (G2oEx.lines.set 1 "VERTEX_SE2 1 4 0 0\n".toList).set 3 "VERTEX_SE2 2 4 6 0\n".toList

noncomputable def goodGraph : PoseGraph := ⟨[(.se2, at' 0 0), (.se2, at' 4 0), (.se2, at' 4 6)], graph.edges⟩

theorem good_says : FileSays reader 100000 good goodGraph := by
  refine ⟨.cons (line ["VERTEX_SE2".toList, "0".toList, "0".toList, "0".toList, "0".toList] (by simp) (by decide) (by decide))
      (.pose (.vertex2 (by rfl) (num _ [0, 0, 0] (by decide))) (fun _ => by decide))
    (.cons (line ["VERTEX_SE2".toList, "1".toList, "4".toList, "0".toList, "0".toList] (by simp) (by decide) (by decide))
      (.pose (.vertex2 (by rfl) (num _ [4, 0, 0] (by decide))) (fun _ => by decide))
    (.cons (line ("EDGE_SE2".toList :: "0".toList :: "1".toList :: (["4".toList, "0".toList, "0".toList] ++
        ["1".toList, "0".toList, "0".toList, "1".toList, "0".toList, "1".toList])) (by simp) (by decide) (by decide))
      (.edge (i := 0) (j := 1) (.edge2 (P := 1) (by rfl) (by rfl) (num _ [4, 0, 0] (by decide)) up one) (fun _ => by decide)
        Matrix.PosDef.one ⟨by decide, .inl rfl⟩ ⟨by decide, .inl rfl⟩ rfl rfl)
    (.cons (line ["VERTEX_SE2".toList, "2".toList, "4".toList, "6".toList, "0".toList] (by simp) (by decide) (by decide))
      (.pose (.vertex2 (by rfl) (num _ [4, 6, 0] (by decide))) (fun _ => by decide))
    (.cons (line ("EDGE_SE2".toList :: "1".toList :: "2".toList :: (["0".toList, "6".toList, "0".toList] ++
        ["1".toList, "0".toList, "0".toList, "1".toList, "0".toList, "1".toList])) (by simp) (by decide) (by decide))
      (.edge (i := 1) (j := 2) (.edge2 (P := 1) (by rfl) (by rfl) (num _ [0, 6, 0] (by decide)) up one) (fun _ => by decide)
        Matrix.PosDef.one ⟨by decide, .inl rfl⟩ ⟨by decide, .inl rfl⟩ rfl rfl)
    (.nil _))))), by simp [goodGraph]⟩

theorem good_fits : FitsFile goodGraph fun i => (goodGraph.poses.getD i (.se2, [])).2 := by
  refine ⟨fun i k y hi => ?_, fun k y hi => ?_, fun e he => ?_⟩
  · have hm := List.mem_of_getElem? hi
    have hx : (goodGraph.poses.getD i (.se2, [])).2 = y := by rw [List.getD_eq_getElem?_getD, hi]; rfl
    simp only [goodGraph, List.mem_cons, Prod.mk.injEq, List.not_mem_nil, or_false] at hm
    rw [hx]
    rcases hm with ⟨rfl, rfl⟩ | ⟨rfl, rfl⟩ | ⟨rfl, rfl⟩ <;> exact at'_valid _ _
  · obtain ⟨rfl, rfl⟩ : LieType.se2 = k ∧ at' 0 0 = y := by simpa [goodGraph] using hi
    exact ⟨at'_valid 0 0, rfl⟩
  · rcases (by simpa [goodGraph, graph] using he : e = ⟨.se2, 0, 1, at' 4 0, 1⟩ ∨ e = ⟨.se2, 1, 2, at' 0 6, 1⟩) with rfl | rfl
    · exact ⟨at'_valid 4 0, at'_add 0 0 4 0⟩
    · exact ⟨at'_valid 0 6, at'_add 4 0 0 6⟩

theorem good_tied : ∀ i < goodGraph.poses.length, TiedToFirst goodGraph i := by
  have t1 : TiedToFirst goodGraph 1 := .forward (e := ⟨.se2, 0, 1, at' 4 0, 1⟩) (by simp [goodGraph, graph]) .first
  have t2 : TiedToFirst goodGraph 2 := .forward (e := ⟨.se2, 1, 2, at' 0 6, 1⟩) (by simp [goodGraph, graph]) t1
  intro i hi
  have hi : i < 3 := hi
  interval_cases i
  · exact .first
  · exact t1
  · exact t2

/-- Gauss-Newton returns the poses of that file. -/
example (stale : Pattern → ScipyCoo ℝ → ℝ → List ℝ → Py (List ℝ)) (addr : Nat) : ∃ data G a,
    parseG2o reader 100000 0 good = .ok data ∧ scriptProblem none data = .ok (G, a) ∧ ∃ log,
      (GaussNewton.defaults fun A b l _ => (cholmodSolve stale .empty addr A b l).1).lift.solve
        (fun t => (g2oClasses t).lift) (G.ops g2oFactors g2oClasses).lift 100 (a.map fin) = .ok (some (a.map fin, log)) := by
  obtain ⟨data, G, a, h1, h2, h3⟩ := C130_satisfied reader 100000 0 _ goodGraph good_says good_fits good_tied inOrder stale addr
  obtain ⟨log, h⟩ := (h3 _ _ (lifts_lift _ _) 100).1 _ (liftsGN_lift _)
  exact ⟨data, G, a, h1, h2, log, h 100 (by norm_num)⟩

/-- So does `main`. -/
example (stale : Pattern → ScipyCoo ℝ → ℝ → List ℝ → Py (List ℝ)) : ∃ data G a, parseG2o reader 100000 0 good = .ok data ∧
    scriptProblem none data = .ok (G, a) ∧ ∃ plot, scriptMain (fun t => (g2oClasses t).lift) (fun G => (G.ops g2oFactors g2oClasses).lift)
      (fun j => .gaussNewton (GaussNewton.defaults (freshCholmod stale j)).lift) 100 none data = .ok (some (a.map fin, plot)) := by
  obtain ⟨data, G, a, h1, h2, h⟩ := C130_main reader 100000 0 _ goodGraph good_says good_fits good_tied inOrder .gaussNewton (by decide) stale id
  exact ⟨data, G, a, h1, h2, h _ _ (fun j => .gaussNewton (GaussNewton.defaults (freshCholmod stale j)).lift) (fun _ => lifts_lift _ _)
    (fun j => liftsGN_lift _) 100 le_rfl⟩

end G2oScriptEx

end Jaxfg.Props
