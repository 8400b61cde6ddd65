/-
Property C71: solving does not depend on the coordinates of the world. See Verif.Props.SolverReal for the setting: real
arithmetic, inside a program that also knows infinities and NaNs.
-/
import Verif.Lemmas.SymmetryPose
import Verif.Props.SolverSpecial
import Verif.Props.Retraction
import Verif.Props.Progress
import Verif.Props.SolverWitness

namespace Jaxfg.Props
open Spec
open Ext (fin)

section
variable (F : Nat → FactorClass) (C : Ty → VarClass ℝ)

/-- **C71, any symmetry.** Let a change of the factors and of the values change neither residuals nor Jacobians and commute with
retractions. Then solving the changed problem from the changed initial values is solving the original problem and changing
the solution: the solver that returns for one problem returns for the other, prints the same lines, and its results
correspond. For the solvers with termination tests, the two tests that look at the coordinates must be switched off; for
the solver with a fixed number of steps, the assignments are in the order of the graph (see C40). -/
theorem C71_symmetry (hC : GoodClasses C) (fs : List Factor) (hne : fs ≠ []) (hfs : ∀ f ∈ fs, FactorWF F C f)
    (hpos : ∀ f ∈ fs, ∀ v ∈ f.vars, 0 < (C v.ty).paramDim) (φ : Factor → Factor) (τ : Var → Value ℝ → Value ℝ)
    (V : Var → Value ℝ → Prop) (hS : IsSymmetry F C fs φ τ V) (hfs' : ∀ f ∈ fs, FactorWF F C (φ f)) :
    ∃ g g', Graph.make C fs = .ok g ∧ Graph.make C (fs.map φ) = .ok g' ∧
      ∀ CE gE gE', Lifts CE gE C (g.ops F C) → Lifts CE gE' C (g'.ops F C) →
      ∀ vars vars' val a a', Corresponding C fs τ V vars vars' val a a' →
        let O := fun o o' => o.layout = a.layout ∧ o'.layout = a'.layout ∧ ∃ val', Corresponding C fs τ V vars vars' val' o o'
        (∀ sE s, LiftsGN sE s → SizedSolutions s.linear → CoordinateFree s.toCriteria →
          SolvesAlike (sE.solve CE gE) (sE.solve CE gE') a a' O) ∧
        (∀ sE s, LiftsLM sE s → SizedSolutions s.linear → CoordinateFree s.toCriteria → s.lambdaFactor ≠ 0 →
          SolvesAlike (sE.solve CE gE) (sE.solve CE gE') a a' O) ∧
        (∀ sE s, LiftsDogleg sE s → SizedSolutions s.linear → CoordinateFree s.toCriteria → ZeroAtZero s.linear → 0 < s.radiusInitial →
          SolvesAlike (sE.solve CE gE) (sE.solve CE gE') a a' O) ∧
        (∀ (sE : FixedIteration Ext) L, LiftsSolver sE.linear L → SizedSolutions L → a.layout = g.layout → a'.layout = g'.layout →
          SolvesAlike (sE.solve CE gE) (sE.solve CE gE') a a' O) := by
  obtain ⟨g, hg, hG⟩ := graph_ok (F := F) hfs hne
  obtain ⟨g', hg', hG'⟩ := graph_ok (F := F) (fs := fs.map φ) (C := C) (by
    intro f hf
    obtain ⟨f0, h0, rfl⟩ := List.mem_map.1 hf
    exact hfs' f0 h0) (by simpa using hne)
  refine ⟨g, g', hg, hg', fun CE gE gE' hl hl' vars vars' val a a' ha => ?_⟩
  have sim := fun L hL => symmetry_sim (L := L) hC hfs hne hS hfs' hG hG' hL
  obtain ⟨b, b', u1, u2, hb⟩ := corresponding_in hC hpos hG hG' hS ha
  have hin : ∀ {x}, a.updateStorageLayout C (g.ops F C).layout = .ok x →
      ∃ x', a'.updateStorageLayout C (g'.ops F C).layout = .ok x' ∧ SymR C (Graph.variablesOf fs) τ V x x' := by
    intro x hx
    have hx : a.updateStorageLayout C g.layout = .ok x := hx
    rw [u1] at hx; cases hx
    exact ⟨b', u2, hb⟩
  have hout : ∀ {x x' o}, SymR C (Graph.variablesOf fs) τ V x x' → x.updateStorageLayout C a.layout = .ok o →
      ∃ o', x'.updateStorageLayout C a'.layout = .ok o' ∧
        (o.layout = a.layout ∧ o'.layout = a'.layout ∧ ∃ val', Corresponding C fs τ V vars vars' val' o o') := by
    intro x x' o hx ho
    obtain ⟨o1, o1', e1, e2, e3⟩ := corresponding_out hpos ha hx
    rw [e1] at ho; cases ho
    exact ⟨o1', e2, e3⟩
  refine ⟨fun sE s hs hL ht fuel out log h => ?_, fun sE s hs hL ht hf fuel out log h => ?_,
    fun sE s hs hL ht hz hr fuel out log h => ?_, fun sE L hs hL h1 h2 fuel out log h => ?_⟩
  · exact (sim _ hL).gnSolve hl hl' hs hs ((sim _ hL).coordinateFree ht) hin hout h
  · exact (sim _ hL).lmSolve hl hl' hs hs hf ((sim _ hL).coordinateFree ht) hin hout h
  · exact (sim _ hL).doglegSolve hl hl' hs hs hz hr ((sim _ hL).coordinateFree ht) hin hout h
  · have e1 : a.updateStorageLayout C g.layout = .ok a := by
      unfold Assign.updateStorageLayout; rw [h1, hG.layout, layoutEq_refl C (variablesOf_spec _).1]; rfl
    have e2 : a'.updateStorageLayout C g'.layout = .ok a' := by
      unfold Assign.updateStorageLayout; rw [h2, hG'.layout, layoutEq_refl C (variablesOf_spec _).1]; rfl
    rw [e1] at u1; rw [e2] at u2; cases u1; cases u2
    obtain ⟨o, o', k1, k2, val', s1, s2, k3⟩ := (sim _ hL).fixedSolve hl hl' hs hs rfl rfl rfl hb h
    have hv := variablesOf_spec fs
    have hvo : Graph.variablesOf (fs.map φ) = Graph.variablesOf fs := variablesOf_map hS.vars
    have l1 : o.layout = a.layout := by rw [h1, hG.layout]; exact s1.1.layout
    have l2 : o'.layout = a'.layout := by rw [h2, hG'.layout, hvo]; exact s2.1.layout
    have m1 := s1.holds hv.2
    have m2 := s2.holds hv.2
    have same : ∀ v, v ∈ vars ↔ v ∈ Graph.variablesOf fs := fun v => by rw [ha.left.sameVars, hv.2]
    have same' : ∀ v, v ∈ vars' ↔ v ∈ Graph.variablesOf fs := fun v => by rw [ha.right.sameVars, hv.2]
    refine ⟨o, o', k1, k2, l1, l2, val', ⟨⟨ha.left.assignment.1, ?_, m1.assignment.2.2⟩, m1.isGlobal, ha.left.sameVars,
      fun v hv => m1.values v ((same v).1 hv)⟩, ⟨⟨ha.right.assignment.1, ?_, m2.assignment.2.2⟩, m2.isGlobal, ha.right.sameVars,
      fun v hv => m2.values v ((same' v).1 hv)⟩, fun v hv => k3 v ((same v).1 hv)⟩
    · rw [l1]; exact ha.left.assignment.2.1
    · rw [l2]; exact ha.right.assignment.2.1

/-- **C71, all settings.** With the tests that look at the coordinates, the two runs may stop at different steps, but they follow
the same path: whatever number of steps both take, they print the same lines, have the same cost and damping (or trust region)
and assignments that correspond. -/
theorem C71_symmetry_path (hC : GoodClasses C) (fs : List Factor) (hne : fs ≠ []) (hfs : ∀ f ∈ fs, FactorWF F C f)
    (hpos : ∀ f ∈ fs, ∀ v ∈ f.vars, 0 < (C v.ty).paramDim) (φ : Factor → Factor) (τ : Var → Value ℝ → Value ℝ)
    (V : Var → Value ℝ → Prop) (hS : IsSymmetry F C fs φ τ V) (hfs' : ∀ f ∈ fs, FactorWF F C (φ f)) :
    ∃ g g', Graph.make C fs = .ok g ∧ Graph.make C (fs.map φ) = .ok g' ∧
      ∀ CE gE gE', Lifts CE gE C (g.ops F C) → Lifts CE gE' C (g'.ops F C) →
      ∀ vars vars' val a a', Corresponding C fs τ V vars vars' val a a' →
      ∃ b b', a.updateStorageLayout C g.layout = .ok b ∧ a'.updateStorageLayout C g'.layout = .ok b' ∧ ∀ n log,
        (∀ sE s, LiftsGN sE s → SizedSolutions s.linear →
          ∀ st q, initState gE (b.map fin) = .ok st → forLoop (sE.step CE gE) n st = .ok (q, log) →
          ∃ st' u u', initState gE' (b'.map fin) = .ok st' ∧ q = State.map fin u ∧
            forLoop (sE.step CE gE') n st' = .ok (State.map fin u', log) ∧ u'.cost = u.cost ∧
            ∃ val', Corresponding C fs τ V (Graph.variablesOf fs) (Graph.variablesOf fs) val' u.assignments u'.assignments) ∧
        (∀ sE s, LiftsLM sE s → SizedSolutions s.linear → s.lambdaFactor ≠ 0 →
          ∀ st q, sE.init gE (b.map fin) = .ok st → forLoop (sE.step CE gE) n st = .ok (q, log) →
          ∃ st' u u', sE.init gE' (b'.map fin) = .ok st' ∧ q = LMState.map fin u ∧
            forLoop (sE.step CE gE') n st' = .ok (LMState.map fin u', log) ∧ u'.cost = u.cost ∧ u'.lambd = u.lambd ∧
            ∃ val', Corresponding C fs τ V (Graph.variablesOf fs) (Graph.variablesOf fs) val' u.assignments u'.assignments) ∧
        (∀ sE s, LiftsDogleg sE s → SizedSolutions s.linear → ZeroAtZero s.linear → 0 < s.radiusInitial →
          ∀ st q, sE.init gE (b.map fin) = .ok st → forLoop (sE.step CE gE) n st = .ok (q, log) →
          ∃ st' u u', sE.init gE' (b'.map fin) = .ok st' ∧ q = DoglegState.map fin u ∧
            forLoop (sE.step CE gE') n st' = .ok (DoglegState.map fin u', log) ∧ u'.cost = u.cost ∧ u'.radius = u.radius ∧
            ∃ val', Corresponding C fs τ V (Graph.variablesOf fs) (Graph.variablesOf fs) val' u.assignments u'.assignments) := by
  obtain ⟨g, hg, hG⟩ := graph_ok (F := F) hfs hne
  obtain ⟨g', hg', hG'⟩ := graph_ok (F := F) (fs := fs.map φ) (C := C) (by
    intro f hf
    obtain ⟨f0, h0, rfl⟩ := List.mem_map.1 hf
    exact hfs' f0 h0) (by simpa using hne)
  refine ⟨g, g', hg, hg', fun CE gE gE' hl hl' vars vars' val a a' ha => ?_⟩
  have sim := fun L hL => symmetry_sim (L := L) hC hfs hne hS hfs' hG hG' hL
  obtain ⟨b, b', u1, u2, hb⟩ := corresponding_in hC hpos hG hG' hS ha
  have hv := variablesOf_spec fs
  have fin_ : ∀ {x x' : Assign ℝ}, SymR C (Graph.variablesOf fs) τ V x x' →
      ∃ val', Corresponding C fs τ V (Graph.variablesOf fs) (Graph.variablesOf fs) val' x x' :=
    fun ⟨val', s1, s2, k3⟩ => ⟨val', s1.holds hv.2, s2.holds hv.2, k3⟩
  refine ⟨b, b', u1, u2, fun n log => ⟨fun sE s hs hL st q h1 h2 => ?_, fun sE s hs hL hf st q h1 h2 => ?_,
    fun sE s hs hL hz hr st q h1 h2 => ?_⟩⟩
  · obtain ⟨c, r, hc, rfl⟩ := (initState_fin hl).1 h1
    obtain ⟨r', hc', hr0⟩ := (sim _ hL).cost hb hc
    have hr : Made (g.ops F C) (SymR C (Graph.variablesOf fs) τ V) (SymQ fs φ) r r' := ⟨hr0, _, _, c, hb, hc⟩
    obtain ⟨q', k1, u, u', rfl, rfl, k2⟩ := forLoop_sim (Rel := fun st st' => ∃ p p' : State ℝ, st = p.map fin ∧ st' = p'.map fin ∧
        StateSim False (SymR C (Graph.variablesOf fs) τ V) (Made (g.ops F C) (SymR C (Graph.variablesOf fs) τ V) (SymQ fs φ)) p p') (step' := sE.step CE gE') (by
      rintro _ _ t l ⟨p, p', rfl, rfl, h⟩ hst
      obtain ⟨u, u', rfl, e1, e2, -⟩ := (sim _ hL).gnStep hl hl' hs hs ((sim _ hL).tests s.toCriteria) trivial h hst
      exact ⟨_, e1, u, u', rfl, rfl, e2⟩) n (s' := State.map fin ⟨0, b', c, r', false⟩)
      ⟨⟨0, b, c, r, false⟩, ⟨0, b', c, r', false⟩, rfl, rfl, rfl, rfl, hb, hr, fun h => h.elim⟩ h2
    exact ⟨_, u, u', (initState_fin hl').2 ⟨c, r', hc', rfl⟩, rfl, k1, k2.cost, fin_ k2.assignments⟩
  · obtain ⟨c, r, hc, rfl⟩ := (lmInit_fin hl hs).1 h1
    obtain ⟨r', hc', hr0⟩ := (sim _ hL).cost hb hc
    have hr : Made (g.ops F C) (SymR C (Graph.variablesOf fs) τ V) (SymQ fs φ) r r' := ⟨hr0, _, _, c, hb, hc⟩
    obtain ⟨q', k1, u, u', rfl, rfl, k2⟩ := forLoop_sim (Rel := fun st st' => ∃ p p' : LMState ℝ, st = p.map fin ∧ st' = p'.map fin ∧
        LMSim False (SymR C (Graph.variablesOf fs) τ V) (Made (g.ops F C) (SymR C (Graph.variablesOf fs) τ V) (SymQ fs φ)) p p') (step' := sE.step CE gE') (by
      rintro _ _ t l ⟨p, p', rfl, rfl, h⟩ hst
      obtain ⟨u, u', rfl, e1, e2, -⟩ := (sim _ hL).lmStep hl hl' hs hs hf ((sim _ hL).tests s.toCriteria) trivial h hst
      exact ⟨_, e1, u, u', rfl, rfl, e2⟩) n
      (s' := LMState.map fin ⟨⟨0, b', c, r', false⟩, s.lambdaInitial⟩) ⟨⟨⟨0, b, c, r, false⟩, _⟩, ⟨⟨0, b', c, r', false⟩, _⟩, rfl, rfl,
        ⟨rfl, rfl, hb, hr, fun h => h.elim⟩, rfl⟩ h2
    exact ⟨_, u, u', (lmInit_fin hl' hs).2 ⟨c, r', hc', rfl⟩, rfl, k1, k2.1.cost, k2.2, fin_ k2.1.assignments⟩
  · obtain ⟨c, r, hc, rfl⟩ := (doglegInit_fin hl hs).1 h1
    obtain ⟨r', hc', hr0⟩ := (sim _ hL).cost hb hc
    have hr' : Made (g.ops F C) (SymR C (Graph.variablesOf fs) τ V) (SymQ fs φ) r r' := ⟨hr0, _, _, c, hb, hc⟩
    obtain ⟨q', k1, u, u', rfl, rfl, k2⟩ := forLoop_sim (Rel := fun st st' => ∃ p p' : DoglegState ℝ, st = p.map fin ∧
        st' = p'.map fin ∧ DoglegSim False (SymR C (Graph.variablesOf fs) τ V) (Made (g.ops F C) (SymR C (Graph.variablesOf fs) τ V) (SymQ fs φ)) p p') (step' := sE.step CE gE') (by
      rintro _ _ t l ⟨p, p', rfl, rfl, h⟩ hst
      obtain ⟨u, u', rfl, e1, e2, -⟩ := (sim _ hL).doglegStep hl hl' hs hs hz ((sim _ hL).tests s.toCriteria) trivial h hst
      exact ⟨_, e1, u, u', rfl, rfl, e2⟩) n
      (s' := DoglegState.map fin ⟨⟨0, b', c, r', false⟩, s.radiusInitial⟩) ⟨⟨⟨0, b, c, r, false⟩, _⟩, ⟨⟨0, b', c, r', false⟩, _⟩, rfl, rfl,
        ⟨rfl, rfl, hb, hr', fun h => h.elim⟩, rfl, hr⟩ h2
    exact ⟨_, u, u', (doglegInit_fin hl' hs).2 ⟨c, r', hc', rfl⟩, rfl, k1, k2.1.cost, k2.2.1, fin_ k2.1.assignments⟩

/-! ### Pose graphs -/

variable (K : Ty → LieType)

/-- **C71, pose graphs.** Choose other coordinates of the world: multiply the means of all priors on poses, and the initial poses,
by one motion on the left. Measurements between poses stay what they are. Then the solvers return the moved solution, print the
same lines, and all results are poses. -/
theorem C71_pose_graphs (hK : ∀ t, C t = (K t).ops.varClass) (m : LieType → List ℝ) (hm : ∀ k : LieType, k.Valid (m k))
    (fs fs' : List Factor) (hne : fs ≠ []) (hmv : List.Forall₂ (MovedFactor F K m) fs fs')
    (hnoise : ∀ f ∈ fs, ∀ v ∈ f.vars, NoiseWF f.noise (K v.ty).ops.tangentDim (K v.ty).ops.tangentDim) :
    ∃ g g', Graph.make C fs = .ok g ∧ Graph.make C fs' = .ok g' ∧
      ∀ CE gE gE', Lifts CE gE C (g.ops F C) → Lifts CE gE' C (g'.ops F C) →
      ∀ vars vars' pose a a', (∀ v ∈ vars, (K v.ty).Valid (pose v)) → Holds C fs vars (poseValue K pose) a →
        Holds C fs' vars' (poseValue K fun v => (K v.ty).ops.multiply (m (K v.ty)) (pose v)) a' →
        let O := fun o o' => o.layout = a.layout ∧ o'.layout = a'.layout ∧ MovedPoses C K m vars o o'
        (∀ sE s, LiftsGN sE s → SizedSolutions s.linear → CoordinateFree s.toCriteria →
          SolvesAlike (sE.solve CE gE) (sE.solve CE gE') a a' O) ∧
        (∀ sE s, LiftsLM sE s → SizedSolutions s.linear → CoordinateFree s.toCriteria → s.lambdaFactor ≠ 0 →
          SolvesAlike (sE.solve CE gE) (sE.solve CE gE') a a' O) ∧
        (∀ sE s, LiftsDogleg sE s → SizedSolutions s.linear → CoordinateFree s.toCriteria → ZeroAtZero s.linear → 0 < s.radiusInitial →
          SolvesAlike (sE.solve CE gE) (sE.solve CE gE') a a' O) ∧
        (∀ (sE : FixedIteration Ext) L, LiftsSolver sE.linear L → SizedSolutions L → a.layout = g.layout → a'.layout = g'.layout →
          SolvesAlike (sE.solve CE gE) (sE.solve CE gE') a a' O) := by
  obtain ⟨rfl, hex⟩ := movedFactors_map F K hmv
  have hS := moved_isSymmetry F C K hK hm hex
  have hpos : ∀ f ∈ fs, ∀ v ∈ f.vars, 0 < (C v.ty).paramDim := fun f hf v hv => by rw [hK]; exact lie_paramDim_pos _
  obtain ⟨h1, h2⟩ := movedFactors_wf F C K hK hm hex hnoise
  obtain ⟨g, g', hg, hg', h⟩ := C71_symmetry F C (lie_goodClasses hK) fs hne h1 hpos _ _ _ hS h2
  refine ⟨g, g', hg, hg', fun CE gE gE' hl hl' vars vars' pose a a' hpose ha ha' => ?_⟩
  have hc : Corresponding C fs (fun v x => (K v.ty).ops.value ((K v.ty).ops.multiply (m (K v.ty)) x.flatten))
      (fun v x => ∃ p, (K v.ty).Valid p ∧ x = (K v.ty).ops.value p) vars vars' (poseValue K pose) a a' :=
    ⟨ha, ⟨ha'.assignment, ha'.isGlobal, fun v => by
      rw [ha'.sameVars, ← (variablesOf_spec _).2, variablesOf_map hS.vars, (variablesOf_spec _).2], fun v hv => by
        rw [ha'.values v hv]; simp only [poseValue, value_flatten]⟩, fun v hv => ⟨pose v, hpose v hv, rfl⟩⟩
  obtain ⟨k1, k2, k3, k4⟩ := h CE gE gE' hl hl' vars vars' _ a a' hc
  have conv : ∀ {o o' : Assign ℝ}, (o.layout = a.layout ∧ o'.layout = a'.layout ∧ ∃ val', Corresponding C fs
      (fun v x => (K v.ty).ops.value ((K v.ty).ops.multiply (m (K v.ty)) x.flatten))
      (fun v x => ∃ p, (K v.ty).Valid p ∧ x = (K v.ty).ops.value p) vars vars' val' o o') →
      (o.layout = a.layout ∧ o'.layout = a'.layout ∧ MovedPoses C K m vars o o') := by
    rintro o o' ⟨e1, e2, val', e3⟩
    refine ⟨e1, e2, fun v hv => ?_⟩
    obtain ⟨p, hp, e4⟩ := e3.valid v hv
    refine ⟨p, hp, by rw [e3.left.values v hv, e4], ?_⟩
    rw [e3.right.values v ((e3.right.sameVars v).2 ((e3.left.sameVars v).1 hv)), e4, value_flatten]
  exact ⟨fun sE s x1 x2 x3 => (k1 sE s x1 x2 x3).imp conv, fun sE s x1 x2 x3 x4 => (k2 sE s x1 x2 x3 x4).imp conv,
    fun sE s x1 x2 x3 x4 x5 => (k3 sE s x1 x2 x3 x4 x5).imp conv, fun sE L x1 x2 x3 x4 => (k4 sE L x1 x2 x3 x4).imp conv⟩

end

/-! ### The tests that look at the coordinates -/

namespace Poly1
open Jaxfg.Poly

/-- Shifting the values of a variable. -/
noncomputable def shift (T : ℝ) (v : Var) (x : Value ℝ) : Value ℝ := unravel (Ex.C v.ty).default (x.flatten.map (· + T))

theorem shift_flatten (T : ℝ) {v : Var} {x : Value ℝ} (hx : IsValueOf (Ex.C v.ty) x) : (shift T v x).flatten = x.flatten.map (· + T) :=
  flatten_unravel (Ex.wellShaped _) (by rw [List.length_map, Ex.value_length hx, Ex.paramDim])

/-- In the example, the residual `x - μ` becomes `x - (μ + T)`. -/
theorem shift_symmetry (μ T : ℝ) :
    IsSymmetry Poly.F Ex.C [f (-μ) 1 0] (fun _ => f (-(μ + T)) 1 0) (shift T) (fun _ _ => True) where
  cls h hf := by rw [List.mem_singleton.1 hf]; rfl
  vars h hf := by rw [List.mem_singleton.1 hf]; rfl
  noise h hf := by rw [List.mem_singleton.1 hf]; rfl
  shapes h hf := by rw [List.mem_singleton.1 hf]; rfl
  value v x hx _ := isValueOf_unravel (Ex.wellShaped _) (by rw [List.length_map, Ex.value_length hx, Ex.paramDim])
  residual h hf val hval _ := by
    obtain rfl := List.mem_singleton.1 hf
    have hx := (hval Ex.x (by simp [f])).1
    obtain ⟨z, hz⟩ := List.length_eq_one_iff.1 (Ex.value_length hx)
    simp only [Poly.F, f, Factor.self, List.map_cons, List.map_nil, List.getD_cons_zero, shift_flatten T hx, hz, List.getD_cons_succ]
    simp
    ring
  jacobians h hf val hval := by
    obtain rfl := List.mem_singleton.1 hf
    simp [Poly.F, f, Factor.self]
  retract v x d hx _ hd := by
    refine ⟨trivial, ?_⟩
    have hl : d.length = x.flatten.length := by rw [hd, Ex.localDim, Ex.value_length hx]
    have e : ((Ex.C v.ty).retract x d).flatten = List.zipWith (· + ·) x.flatten d :=
      flatten_unravel (Ex.wellShaped _) (by
        rw [List.length_zipWith, hl, min_self]; rw [isValueOf_length (Ex.wellShaped _) hx])
    unfold shift
    rw [e]
    show _ = unravel (Ex.C v.ty).default (List.zipWith (· + ·) (shift T v x).flatten d)
    rw [shift_flatten T hx]
    congr 1
    apply List.ext_getElem
    · simp
    · intro i h1 h2
      simp
      ring

end Poly1

open Poly1 Jaxfg.Poly in
/-- **C71 is false with the default settings.** The residual `x - 1` from `x = 0`, and the same problem shifted by `10⁸`:
after the first Gauss-Newton step, the solver stops in the second problem and carries on in the first, although the costs of the two
runs agree. The parameter test compares the length of the step with the length of the stored numbers. -/
theorem C71_false_with_parameter_test (stale : Pattern → ScipyCoo ℝ → ℝ → List ℝ → Py (List ℝ)) (addr : Nat) :
    let S := GaussNewton.defaults (chol stale addr)
    let T : ℝ := 100000000
    IsSymmetry Poly.F Ex.C [f (-1) 1 0] (fun _ => f (-(1 + T)) 1 0) (shift T) (fun _ _ => True) ∧
      Corresponding Ex.C [f (-1) 1 0] (shift T) (fun _ _ => True) [Ex.x] [Ex.x] (fun _ => ⟨0, [⟨[1], [0]⟩]⟩) (at_ 0) (at_ T) ∧
      ∃ st0 st0' st st' log log', initState (gE (-1) 1 0) ((at_ 0).map fin) = .ok st0 ∧
        initState (gE (-(1 + T)) 1 0) ((at_ T).map fin) = .ok st0' ∧
        S.lift.step CE (gE (-1) 1 0) st0 = .ok (st, log) ∧ S.lift.step CE (gE (-(1 + T)) 1 0) st0' = .ok (st', log') ∧
        st.cost = st'.cost ∧ st.done = false ∧ st'.done = true := by
  intro S T
  refine ⟨shift_symmetry 1 T, ⟨⟨at_assignment 0, rfl, ?_, ?_⟩, ⟨at_assignment T, rfl, ?_, ?_⟩, fun _ _ => trivial⟩, ?_⟩
  · intro v; simp [f]
  · intro v hv; rw [List.mem_singleton.1 hv]; rfl
  · intro v; simp [f]
  · intro v hv; rw [List.mem_singleton.1 hv]
    have : (at_ T).getValue Ex.C Ex.x = .ok ⟨0, [⟨[1], [T]⟩]⟩ := rfl
    rw [this]
    show _ = Except.ok (⟨0, [⟨[1], [0 + T]⟩]⟩ : Value ℝ)
    rw [zero_add]
  · obtain ⟨c1, l1, h1, h2⟩ := gn_step stale addr S rfl (-1) 1 0 0 (v := 0) (c := 1) (r := -1) (j := 1) (d := 100000 / 100001)
      (v' := 100000 / 100001) (r' := -1 / 100001) false (by ring) (by norm_num) (by norm_num) (by norm_num)
    obtain ⟨c2, l2, h3, h4⟩ := gn_step stale addr S rfl (-(1 + T)) 1 0 0 (v := T) (c := 1) (r := -1) (j := 1) (d := 100000 / 100001)
      (v' := T + 100000 / 100001) (r' := -1 / 100001) false (by ring) (by norm_num) (by norm_num) (by norm_num [T])
    refine ⟨_, _, _, _, l1, l2, (initState_fin (lifts _ _ _)).2 ⟨1, [-1], ?_, rfl⟩, (initState_fin (lifts _ _ _)).2 ⟨1, [-1], ?_, rfl⟩,
      h2, h4, rfl, ?_, ?_⟩
    · rw [cost_eq]; norm_num
    · rw [cost_eq]; norm_num [T]
    · have hn : ¬ StopReason Ex.C S.toCriteria ⟨0, at_ 0, 1, [-1], false⟩ ((-1 / 100001) ^ 2) [100000 / 100001] [-(1 * -1)] llay := by
        rintro (⟨-, h⟩ | ⟨h, -⟩ | h)
        · have : |((-1 / 100001 : ℝ)) ^ 2 - 1| / 1 < 1 / 100000 := h
          rw [div_one, abs_lt] at this
          norm_num at this
        · have : (10 : Int) ≤ 0 := h
          omega
        · have : √(sqNorm [100000 / 100001]) < (√(sqNorm [0]) + 1 / 10000000) * (1 / 10000000) := h
          have e1 : sqNorm [100000 / 100001] = (100000 / 100001 : ℝ) ^ 2 := by simp [sqNorm]
          have e2 : sqNorm [0] = 0 := by simp [sqNorm]
          rw [e1, e2, Real.sqrt_zero, Real.sqrt_sq (by norm_num)] at this
          norm_num at this
      have hc : c1 = false := by
        rw [← Bool.not_eq_true]
        exact fun h => hn ((convergedTest_ok h1).1 h)
      rw [hc]; rfl
    · have hc := (convergedTest_ok h3).2 (Or.inr (Or.inr ?_))
      · rw [hc]; rfl
      · show √(sqNorm [100000 / 100001]) < (√(sqNorm [T]) + 1 / 10000000) * (1 / 10000000)
        have e1 : sqNorm [100000 / 100001] = (100000 / 100001 : ℝ) ^ 2 := by simp [sqNorm]
        have e2 : sqNorm [T] = T ^ 2 := by simp [sqNorm]
        rw [e1, e2, Real.sqrt_sq (by norm_num), Real.sqrt_sq (by norm_num [T])]
        norm_num [T]

/-! ### Example: the pose graph of `PoseEx`, seen from elsewhere -/

namespace PoseEx
open LieGroup

/-- The factors in other coordinates: the prior has another mean. -/
noncomputable def prior' : Factor :=
  PriorFactor.make 0 x (se2.value (se2.multiply (motionOf .se2) [1, 0, 1, 2])) (.diagonal ⟨[3], [1, 1, 2]⟩)

theorem movedFactors : List.Forall₂ (MovedFactor F K motionOf) fs [prior', step, turn] :=
  .cons (.prior 0 x [1, 0, 1, 2] _ rfl ⟨1, 0, 1, 2, rfl, by norm_num⟩)
    (.cons (.between 1 x y [0, 1, 1, 0] _ _ rfl ⟨0, 1, 1, 0, rfl, by norm_num⟩ rfl)
      (.cons (.between 2 r s [0, 1, 0, 0] _ _ rfl ⟨0, 1, 0, 0, rfl, by norm_num⟩ rfl) .nil))

theorem noise : ∀ f ∈ fs, ∀ v ∈ f.vars, NoiseWF f.noise (K v.ty).ops.tangentDim (K v.ty).ops.tangentDim := by
  intro f hf v hv
  simp only [fs, List.mem_cons, List.not_mem_nil, or_false] at hf
  rcases hf with rfl | rfl | rfl
  · obtain rfl : v = x := by simpa [prior, PriorFactor.make] using hv
    exact ⟨⟨rfl, rfl⟩, rfl⟩
  · rcases (by simpa [step] using hv : v = x ∨ v = y) with rfl | rfl <;>
      exact ⟨⟨⟨rfl, rfl⟩, rfl⟩, 1, rfl, one_pos⟩
  · rcases (by simpa [turn] using hv : v = r ∨ v = s) with rfl | rfl <;>
      exact ⟨⟨rfl, rfl⟩, rfl⟩

/-- Settings without the tests that look at coordinates. -/
noncomputable def settings (stale : Pattern → ScipyCoo ℝ → ℝ → List ℝ → Py (List ℝ)) (addr : Nat) : GaussNewton ℝ :=
  { GaussNewton.defaults (Jaxfg.Poly.chol stale addr) with parameterTolerance := 0, gradientToleranceStartStep := 100 }

/-- From corresponding initial values that do not satisfy the measurements, the solver returns corresponding poses. -/
example (stale : Pattern → ScipyCoo ℝ → ℝ → List ℝ → Py (List ℝ)) (addr : Nat) : ∃ g g' a a' o o' log,
    Graph.make C fs = .ok g ∧ Graph.make C [prior', step, turn] = .ok g' ∧
    Holds C fs [x, y, r, s] (poseValue K (pose false)) a ∧
    Holds C [prior', step, turn] [x, y, r, s] (poseValue K fun v => (K v.ty).ops.multiply (motionOf (K v.ty)) (pose false v)) a' ∧
    (settings stale addr).lift.solve (fun t => (C t).lift) (g.ops F C).lift 100 (a.map fin) = .ok (some (o.map fin, log)) ∧
    (settings stale addr).lift.solve (fun t => (C t).lift) (g'.ops F C).lift 100 (a'.map fin) = .ok (some (o'.map fin, log)) ∧
    MovedPoses C K motionOf [x, y, r, s] o o' := by
  obtain ⟨a, ha⟩ := holds false
  obtain ⟨a', ha'⟩ := holds_of [prior', step, turn] (fun v => by simp [prior', step, turn, PriorFactor.make]; tauto)
    (fun v => (K v.ty).ops.multiply (motionOf (K v.ty)) (pose false v))
    (fun v hv => (lieLaws _).mul _ _ (motionOf_valid _) (pose_valid false v hv))
  obtain ⟨g, g', hg, hg', h⟩ := C71_pose_graphs F C K (fun _ => rfl) motionOf motionOf_valid fs _ (by simp [fs]) movedFactors noise
  have h1 := (h _ _ _ (lifts_lift _ _) (lifts_lift _ _) _ _ _ a a' (pose_valid false) ha ha').1 _ _ (liftsGN_lift (settings stale addr))
    (cholmod_sized stale addr) ⟨rfl, by norm_num [settings], by show (100 : Int) ≤ 100; norm_num⟩
  have hM : ∀ f ∈ fs, ∃ P, Measures F K f P := by
    intro f hf
    simp only [fs, List.mem_cons, List.not_mem_nil, or_false] at hf
    obtain ⟨m1, m2, m3⟩ := measures
    rcases hf with rfl | rfl | rfl
    · exact ⟨_, m1⟩
    · exact ⟨_, m2⟩
    · exact ⟨_, m3⟩
  have hwf : ∀ f ∈ fs, FactorWF F C f := fun f hf =>
    (C54_wellformed F C K f _ (hM f hf).choose_spec fun v hv => ⟨rfl, noise f hf v hv⟩).1
  obtain ⟨g1, hg1, h2⟩ := C72_solve_returns F C (lie_goodClasses fun _ => rfl) fs (by simp [fs]) hwf
    (fun f hf v hv => lie_paramDim_pos _)
  obtain ⟨g2, hg2, h3⟩ := C72_cholmod F C (lie_goodClasses fun _ => rfl) fs (by simp [fs]) hwf stale addr
  rw [hg] at hg1 hg2
  cases Except.ok.inj hg1
  cases Except.ok.inj hg2
  obtain ⟨o, log, -, -, h4⟩ := (h2 _ _ (lifts_lift _ _) _ a ha.assignment ha.isGlobal ha.sameVars).1 _ _
    (liftsGN_lift (settings stale addr)) h3
  have h4 := h4 100 (by show max (1 : Int) 100 ≤ 100; norm_num)
  obtain ⟨o1, o', e1, e2, -, -, e3⟩ := h1 100 _ _ h4
  exact ⟨g, g', a, a', o1, o', log, hg, hg', ha, ha', by rw [← e1]; exact h4, e2, e3⟩

end PoseEx

end Jaxfg.Props
