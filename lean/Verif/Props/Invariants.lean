/-
Property C74: what retractions preserve, solving preserves. See Verif.Props.SolverReal for the setting: real arithmetic, inside a
program that also knows infinities and NaNs.
-/
import Verif.Lemmas.Symmetry
import Verif.Props.Retraction
import Verif.Props.Equivariance
import Verif.Props.Progress
import Verif.Spec.Invariants

namespace Jaxfg.Props
open Spec
open Ext (fin)

section
variable (F : Nat → FactorClass) (C : Ty → VarClass ℝ)

/-- **C74.** Let `V` be a property of values that retractions preserve. If all initial values have it, all values that a solver
returns have it. The result has the layout of the initial values. Levenberg-Marquardt needs a damping factor other than zero;
dogleg a positive trust region and a linear solver that maps zero to zero; the solver with a fixed number of steps needs the
assignments in the order of the graph (see C40). -/
theorem C74_invariants (hC : GoodClasses C) (fs : List Factor) (hne : fs ≠ []) (hfs : ∀ f ∈ fs, FactorWF F C f)
    (hpos : ∀ f ∈ fs, ∀ v ∈ f.vars, 0 < (C v.ty).paramDim) (V : Var → Value ℝ → Prop)
    (hV : ∀ v x d, IsValueOf (C v.ty) x → V v x → d.length = (C v.ty).localDim → V v ((C v.ty).retract x d)) :
    ∃ g, Graph.make C fs = .ok g ∧ ∀ CE gE, Lifts CE gE C (g.ops F C) →
      ∀ vars val a, Holds C fs vars val a → (∀ v ∈ vars, V v (val v)) →
        let O := fun o : Assign ℝ => o.layout = a.layout ∧ ∃ val', Holds C fs vars val' o ∧ ∀ v ∈ vars, V v (val' v)
        (∀ sE s, LiftsGN sE s → SizedSolutions s.linear → ReturnsOnly (sE.solve CE gE) a O) ∧
        (∀ sE s, LiftsLM sE s → SizedSolutions s.linear → s.lambdaFactor ≠ 0 → ReturnsOnly (sE.solve CE gE) a O) ∧
        (∀ sE s, LiftsDogleg sE s → SizedSolutions s.linear → ZeroAtZero s.linear → 0 < s.radiusInitial →
          ReturnsOnly (sE.solve CE gE) a O) ∧
        (∀ (sE : FixedIteration Ext) L, LiftsSolver sE.linear L → SizedSolutions L → a.layout = g.layout →
          ReturnsOnly (sE.solve CE gE) a O) := by
  obtain ⟨g, hg, hG⟩ := graph_ok (F := F) hfs hne
  refine ⟨g, hg, fun CE gE hl vars val a ha hval => ?_⟩
  have hS : IsSymmetry F C fs id (fun _ x => x) V := ⟨fun _ _ => rfl, fun _ _ => rfl, fun _ _ => rfl, fun _ _ => rfl,
    fun _ _ h _ => h, fun _ _ _ _ _ => rfl, fun _ _ _ _ => rfl, fun v x d h1 h2 h3 => ⟨hV v x d h1 h2 h3, rfl⟩⟩
  have hG' : GraphOf F C (fs.map id) g := by rw [List.map_id]; exact hG
  have sim := fun L hL => symmetry_sim (L := L) hC hfs hne hS hfs hG hG' hL
  have hc : Corresponding C fs (fun _ x => x) V vars vars val a a := ⟨ha, ha, hval⟩
  have same : ∀ {x x' : Assign ℝ}, SymR C (Graph.variablesOf fs) (fun _ x => x) V x x' → x' = x := by
    rintro ⟨s, l⟩ ⟨s', l'⟩ ⟨w, h1, h2, -⟩
    have e1 := h1.1.layout; have e2 := h2.1.layout; have e3 := h1.1.storage; have e4 := h2.1.storage
    simp only at e1 e2 e3 e4
    rw [e1, e2, e3, e4]
  have hT : ∀ t : Criteria ℝ, TestSim True C C (g.ops F C) (g.ops F C) (SymR C (Graph.variablesOf fs) (fun _ x => x) V) (SymQ fs id)
      (SymD g.localLayout.dim) t (InBounds t) := by
    intro t p p' c d d' z z' conv _ hp hd hz h
    obtain ⟨p1, p2, p3, p4, p5⟩ := p
    obtain ⟨q1, q2, q3, q4, q5⟩ := p'
    obtain ⟨h1, h2, h3, h4, h5⟩ := hp
    obtain rfl : q1 = p1 := h1
    obtain rfl : q3 = p3 := h2
    obtain rfl : q2 = p2 := same h3
    obtain rfl : q4 = p4 := h4.1.1
    obtain rfl : q5 = p5 := h5 trivial
    rw [hd.1, hz.1]
    exact ⟨conv, h, fun _ => rfl⟩
  obtain ⟨b, b', u1, u2, hb⟩ := corresponding_in hC hpos hG hG' hS hc
  obtain rfl : b' = b := Except.ok.inj (u2.symm.trans u1)
  have hin : ∀ {x}, a.updateStorageLayout C (g.ops F C).layout = .ok x →
      ∃ x', a.updateStorageLayout C (g.ops F C).layout = .ok x' ∧ SymR C (Graph.variablesOf fs) (fun _ x => x) V x x' := by
    intro x hx
    have hx : a.updateStorageLayout C g.layout = .ok x := hx
    obtain rfl : b' = x := Except.ok.inj (u1.symm.trans hx)
    exact ⟨b', u2, hb⟩
  have hout : ∀ {x x' o}, SymR C (Graph.variablesOf fs) (fun _ x => x) V x x' → x.updateStorageLayout C a.layout = .ok o →
      ∃ o', x'.updateStorageLayout C a.layout = .ok o' ∧
        (o.layout = a.layout ∧ ∃ val', Holds C fs vars val' o ∧ ∀ v ∈ vars, V v (val' v)) := by
    intro x x' o hx ho
    obtain ⟨o1, o1', e1, e2, e3, -, val', e5⟩ := corresponding_out hpos hc hx
    obtain rfl : o1 = o := Except.ok.inj (e1.symm.trans ho)
    exact ⟨o1', e2, e3, val', e5.left, e5.valid⟩
  refine ⟨fun sE s hs hL fuel out log h => ?_, fun sE s hs hL hf fuel out log h => ?_,
    fun sE s hs hL hz hr fuel out log h => ?_, fun sE L hs hL h1 fuel out log h => ?_⟩
  · obtain ⟨o, o', k1, -, k2⟩ := (sim _ hL).gnSolve (O := fun o _ => _) hl hl hs hs (hT _) hin hout h
    exact ⟨o, k1, k2⟩
  · obtain ⟨o, o', k1, -, k2⟩ := (sim _ hL).lmSolve (O := fun o _ => _) hl hl hs hs hf (hT _) hin hout h
    exact ⟨o, k1, k2⟩
  · obtain ⟨o, o', k1, -, k2⟩ := (sim _ hL).doglegSolve (O := fun o _ => _) hl hl hs hs hz hr (hT _) hin hout h
    exact ⟨o, k1, k2⟩
  · have e1 : a.updateStorageLayout C g.layout = .ok a := by
      unfold Assign.updateStorageLayout; rw [h1, hG.layout, layoutEq_refl C (variablesOf_spec _).1]; rfl
    obtain rfl : a = b' := Except.ok.inj (e1.symm.trans u1)
    obtain ⟨o, o', k1, -, val', s1, -, k3⟩ := (sim _ hL).fixedSolve hl hl hs hs rfl rfl rfl hb h
    have hv := variablesOf_spec fs
    have l1 : o.layout = a.layout := by rw [h1, hG.layout]; exact s1.1.layout
    have m1 := s1.holds hv.2
    have same : ∀ v, v ∈ vars ↔ v ∈ Graph.variablesOf fs := fun v => by rw [ha.sameVars, hv.2]
    refine ⟨o, k1, l1, val', ⟨⟨ha.assignment.1, ?_, m1.assignment.2.2⟩, m1.isGlobal, ha.sameVars,
      fun v hv => m1.values v ((same v).1 hv)⟩, fun v hv => k3 v ((same v).1 hv)⟩
    rw [l1]; exact ha.assignment.2.1

/-- **C74, retractions.** Every value that a solver returns comes from the initial value of its variable by retractions. -/
theorem C74_reached (hC : GoodClasses C) (fs : List Factor) (hne : fs ≠ []) (hfs : ∀ f ∈ fs, FactorWF F C f)
    (hpos : ∀ f ∈ fs, ∀ v ∈ f.vars, 0 < (C v.ty).paramDim) :
    ∃ g, Graph.make C fs = .ok g ∧ ∀ CE gE, Lifts CE gE C (g.ops F C) →
      ∀ vars val a, Holds C fs vars val a →
        let O := fun o : Assign ℝ => o.layout = a.layout ∧ ∃ val', Holds C fs vars val' o ∧ ∀ v ∈ vars, Reached (C v.ty) (val v) (val' v)
        (∀ sE s, LiftsGN sE s → SizedSolutions s.linear → ReturnsOnly (sE.solve CE gE) a O) ∧
        (∀ sE s, LiftsLM sE s → SizedSolutions s.linear → s.lambdaFactor ≠ 0 → ReturnsOnly (sE.solve CE gE) a O) ∧
        (∀ sE s, LiftsDogleg sE s → SizedSolutions s.linear → ZeroAtZero s.linear → 0 < s.radiusInitial →
          ReturnsOnly (sE.solve CE gE) a O) ∧
        (∀ (sE : FixedIteration Ext) L, LiftsSolver sE.linear L → SizedSolutions L → a.layout = g.layout →
          ReturnsOnly (sE.solve CE gE) a O) := by
  obtain ⟨g, hg, hG⟩ := graph_ok (F := F) hfs hne
  refine ⟨g, hg, fun CE gE hl vars val a ha => ?_⟩
  obtain ⟨g', hg', h⟩ := C74_invariants F C hC fs hne hfs hpos (fun v x => Reached (C v.ty) (val v) x)
    fun v x d _ hx hd => .step d hd hx
  obtain rfl : g' = g := Except.ok.inj (hg'.symm.trans hg)
  exact h CE gE hl vars val a ha fun v _ => .start

/-- **C74, poses.** Solving a graph of pose variables from poses returns poses: the complex numbers and quaternions in the result
have length one. -/
theorem C74_poses (K : Ty → LieType) (hK : ∀ t, C t = (K t).ops.varClass) (fs : List Factor) (hne : fs ≠ [])
    (hfs : ∀ f ∈ fs, FactorWF F C f) :
    ∃ g, Graph.make C fs = .ok g ∧ ∀ CE gE, Lifts CE gE C (g.ops F C) →
      ∀ vars pose a, Holds C fs vars (poseValue K pose) a → (∀ v ∈ vars, (K v.ty).Valid (pose v)) →
        let O := fun o : Assign ℝ => o.layout = a.layout ∧
          ∃ pose', Holds C fs vars (poseValue K pose') o ∧ ∀ v ∈ vars, (K v.ty).Valid (pose' v)
        (∀ sE s, LiftsGN sE s → SizedSolutions s.linear → ReturnsOnly (sE.solve CE gE) a O) ∧
        (∀ sE s, LiftsLM sE s → SizedSolutions s.linear → s.lambdaFactor ≠ 0 → ReturnsOnly (sE.solve CE gE) a O) ∧
        (∀ sE s, LiftsDogleg sE s → SizedSolutions s.linear → ZeroAtZero s.linear → 0 < s.radiusInitial →
          ReturnsOnly (sE.solve CE gE) a O) ∧
        (∀ (sE : FixedIteration Ext) L, LiftsSolver sE.linear L → SizedSolutions L → a.layout = g.layout →
          ReturnsOnly (sE.solve CE gE) a O) := by
  obtain ⟨g, hg, h⟩ := C74_invariants F C (lie_goodClasses hK) fs hne hfs (fun f hf v hv => by rw [hK]; exact lie_paramDim_pos _)
    (fun v x => ∃ p, (K v.ty).Valid p ∧ x = (K v.ty).ops.value p) (by
      rintro v _ d - ⟨p, hp, rfl⟩ -
      obtain ⟨y, hy, e⟩ := (C67_retraction (K v.ty) p hp).1 d
      exact ⟨y, hy, by rw [hK, e]⟩)
  refine ⟨g, hg, fun CE gE hl vars pose a ha hpose => ?_⟩
  obtain ⟨k1, k2, k3, k4⟩ := h CE gE hl vars _ a ha fun v hv => ⟨pose v, hpose v hv, rfl⟩
  have conv : ∀ {o : Assign ℝ}, (o.layout = a.layout ∧ ∃ val', Holds C fs vars val' o ∧
      ∀ v ∈ vars, ∃ p, (K v.ty).Valid p ∧ val' v = (K v.ty).ops.value p) →
      (o.layout = a.layout ∧ ∃ pose', Holds C fs vars (poseValue K pose') o ∧ ∀ v ∈ vars, (K v.ty).Valid (pose' v)) := by
    rintro o ⟨e1, val', e2, e3⟩
    choose! pose' h1 h2 using e3
    exact ⟨e1, pose', ⟨e2.assignment, e2.isGlobal, e2.sameVars, fun v hv => by rw [e2.values v hv, h2 v hv]; rfl⟩, h1⟩
  have map : ∀ {solve : Nat → Assign Ext → Py (Option (Assign Ext × List (Msg Ext)))} {O O' : Assign ℝ → Prop},
      (∀ {o}, O o → O' o) → ReturnsOnly solve a O → ReturnsOnly solve a O' := by
    intro solve O O' himp hr fuel out log hs
    obtain ⟨o, e1, e2⟩ := hr fuel out log hs
    exact ⟨o, e1, himp e2⟩
  exact ⟨fun sE s x1 x2 => map conv (k1 sE s x1 x2), fun sE s x1 x2 x3 => map conv (k2 sE s x1 x2 x3),
    fun sE s x1 x2 x3 x4 => map conv (k3 sE s x1 x2 x3 x4), fun sE L x1 x2 x3 => map conv (k4 sE L x1 x2 x3)⟩

end

/-- The pose graph of `PoseEx`, with planar poses and rotations of space, a Huber loss, and initial poses that do not satisfy its
measurements: Gauss-Newton with CHOLMOD returns poses. -/
example (stale : Pattern → ScipyCoo ℝ → ℝ → List ℝ → Py (List ℝ)) (addr : Nat) : ∃ g a o log pose',
    Graph.make PoseEx.C PoseEx.fs = .ok g ∧
    Holds PoseEx.C PoseEx.fs [PoseEx.x, PoseEx.y, PoseEx.r, PoseEx.s] (poseValue PoseEx.K (PoseEx.pose false)) a ∧
    (GaussNewton.defaults fun A b l _ => (cholmodSolve stale .empty addr A b l).1).lift.solve
      (fun t => (PoseEx.C t).lift) (g.ops PoseEx.F PoseEx.C).lift 100 (a.map fin) = .ok (some (o, log)) ∧
    ∃ o', o = o'.map fin ∧ Holds PoseEx.C PoseEx.fs [PoseEx.x, PoseEx.y, PoseEx.r, PoseEx.s] (poseValue PoseEx.K pose') o' ∧
      ∀ v ∈ [PoseEx.x, PoseEx.y, PoseEx.r, PoseEx.s], (PoseEx.K v.ty).Valid (pose' v) := by
  obtain ⟨a, ha⟩ := PoseEx.holds false
  have hwf : ∀ f ∈ PoseEx.fs, FactorWF PoseEx.F PoseEx.C f := fun f hf =>
    (C54_wellformed PoseEx.F PoseEx.C PoseEx.K f _ (PoseEx.measured f hf).choose_spec fun v hv => ⟨rfl, PoseEx.noises f hf v hv⟩).1
  obtain ⟨g, hg, h⟩ := C72_pose_graphs PoseEx.F PoseEx.C PoseEx.K (fun _ => rfl) PoseEx.fs (by simp [PoseEx.fs]) PoseEx.measured
    PoseEx.noises stale addr
  obtain ⟨o, log, -, -, hret⟩ := (h _ _ (lifts_lift _ _) _ a ha.assignment ha.isGlobal ha.sameVars).1 _ (liftsGN_lift _)
  obtain ⟨g', hg', h'⟩ := C74_poses PoseEx.F PoseEx.C PoseEx.K (fun _ => rfl) PoseEx.fs (by simp [PoseEx.fs]) hwf
  obtain rfl : g' = g := Except.ok.inj (hg'.symm.trans hg)
  have hret := hret 100 (by norm_num)
  obtain ⟨o', e1, -, pose', e2, e3⟩ := (h' _ _ (lifts_lift _ _) _ _ a ha (PoseEx.pose_valid false)).1 _ _ (liftsGN_lift _)
    (cholmod_sized stale addr) 100 _ _ hret
  exact ⟨g', a, _, log, pose', hg, ha, hret, o', e1, e2, e3⟩

end Jaxfg.Props
