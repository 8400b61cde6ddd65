/-
Property C120: thresholds that no residual reaches do not matter. See Verif.Props.SolverReal for the setting: real arithmetic, inside
a program that also knows infinities and NaNs.
-/
import Verif.Lemmas.Inliers
import Verif.Props.Information
import Verif.Props.Rotation

namespace Jaxfg.Props
open Spec
open Ext (fin)
open Matrix hiding vec

/-! ### One factor -/

/-- **C120, noise models.** A Huber wrapper, or several of them, returns the weighted residual of the wrapped model unchanged if its
norm is below the threshold, and the same Jacobian. -/
theorem C120_noise (N : Noise) (n m : Nat) (hN : NoiseWF N n m) (r w : List ℝ) (hw : (stripHuber N).whiten r = .ok w)
    (hb : BelowThresholds N (√(w.map (· ^ 2)).sum)) :
    N.whiten r = .ok w ∧ ∀ J, N.whitenJacobian J w = (stripHuber N).whitenJacobian J w :=
  ⟨whiten_strip hN hw hb, fun _ => whitenJacobian_strip hN hb⟩

/-- A residual of 3 below the thresholds 4 and 5. -/
example : (Noise.huber (.huber (.diagonal ⟨[1], [1]⟩) ⟨[], [4]⟩) ⟨[], [5]⟩).whiten [3] = .ok [3] := by
  refine (C120_noise (.huber (.huber (.diagonal ⟨[1], [1]⟩) ⟨[], [4]⟩) ⟨[], [5]⟩) 1 1 ⟨⟨⟨⟨rfl, rfl⟩, rfl⟩, 4, rfl, by norm_num⟩, 5, rfl, by norm_num⟩ [3] [3] ?_ ?_).1
  · simp [stripHuber, Noise.whiten, pyAssert, py_bind_ok]
  · have : √(([3] : List ℝ).map (· ^ 2)).sum = 3 := by simp
    rw [this]
    simp [BelowThresholds]
    norm_num

/-! ### Solvers -/

section
variable (F : Nat → FactorClass) (C : Ty → VarClass ℝ)

/-- **C120.** Two lists of factors that differ only in Huber wrappers (their thresholds, their number, whether there are any) are the same
problem as long as no weighted residual reaches a threshold. Somebody watches a run of the first problem and stops it when it is
evaluated at an assignment with an outlier, in either problem. If the run returns nevertheless, the solver returns for the second problem,
unwatched, the same result after the same number of steps, and prints the same lines. With `fs' = fs`, the run is not affected by being watched. All termination tests may be on. The linear
solver must not depend on the order of the equations, see C73, because wrappers change the groups of the factors. The solver with a
fixed number of steps does not convert the assignments, so they must be in the order of the graph (see C40). -/
theorem C120_inliers (hC : GoodClasses C) (fs fs' : List Factor) (hp : fs.map plain = fs'.map plain) (hne : fs ≠ [])
    (hfs : ∀ f ∈ fs, FactorWF F C f) (hfs' : ∀ f ∈ fs', FactorWF F C f) (hb : ∀ f ∈ fs ++ fs', NoiseBlind (F f.cls))
    (hpos : ∀ f ∈ fs, ∀ v ∈ f.vars, 0 < (C v.ty).paramDim) :
    ∃ g g', Graph.make C fs = .ok g ∧ Graph.make C fs' = .ok g' ∧ g'.layout = g.layout ∧
      ∀ CE gE gE', Lifts CE gE C (watchedFor (fun a => Inliers F C fs a ∧ Inliers F C fs' a) (g.ops F C)) → Lifts CE gE' C (g'.ops F C) →
      ∀ vars val a, Holds C fs vars val a →
        let Free := fun L : LinSolver ℝ => OrderFree L ∨ OrderFreeDistinct L ∧ ∀ f ∈ fs, f.vars.Nodup
        (Inliers F C fs a → Inliers F C fs' a → ∃ c r r', g.computeCost F C a = .ok (c, r) ∧ g'.computeCost F C a = .ok (c, r')) ∧
        (∀ sE s, LiftsGN sE s → Free s.linear → SolvesAlike (sE.solve CE gE) (sE.solve CE gE') a a fun o o' => o' = o) ∧
        (∀ sE s, LiftsLM sE s → Free s.linear → s.lambdaFactor ≠ 0 →
          SolvesAlike (sE.solve CE gE) (sE.solve CE gE') a a fun o o' => o' = o) ∧
        (∀ sE s, LiftsDogleg sE s → Free s.linear → ZeroAtZero s.linear → 0 < s.radiusInitial →
          SolvesAlike (sE.solve CE gE) (sE.solve CE gE') a a fun o o' => o' = o) ∧
        (∀ (sE : FixedIteration Ext) L, LiftsSolver sE.linear L → Free L → a.layout = g.layout →
          SolvesAlike (sE.solve CE gE) (sE.solve CE gE') a a fun o o' => o' = o) := by
  have hne' : fs' ≠ [] := by
    rintro rfl
    exact hne (by simpa using hp)
  obtain ⟨g, hg, hG⟩ := graph_ok (F := F) hfs hne
  obtain ⟨g', hg', hG'⟩ := graph_ok (F := F) hfs' hne'
  have hlay : g'.layout = g.layout := by rw [hG.layout, hG'.layout, variablesOf_same hp]
  refine ⟨g, g', hg, hg', hlay, fun CE gE gE' hl hl' vars val a ha => ?_⟩
  have hs := variablesOf_spec fs
  have hv' : (∀ f ∈ fs, f.vars.Nodup) → ∀ f ∈ fs', f.vars.Nodup := by
    intro h f hf
    obtain ⟨f0, h0, e⟩ := mem_plain hp hf
    have : f.vars = f0.vars := (congrArg Factor.vars e).symm
    rw [this]; exact h f0 h0
  have hnd : (∀ f ∈ fs, f.vars.Nodup) → g.jacobianCoords.Nodup ∧ g'.jacobianCoords.Nodup := by
    intro hn
    obtain ⟨g1, h1, -, -, h2, -⟩ := C19_coordinates F C hC fs hne hfs
    obtain ⟨g2, h3, -, -, h4, -⟩ := C19_coordinates F C hC fs' hne' hfs'
    rw [hg] at h1; rw [hg'] at h3
    cases h1; cases h3
    exact ⟨h2 hn, h4 (hv' hn)⟩
  have values : ∀ {vars val} {a : Assign ℝ}, Holds C fs vars val a → ∀ f ∈ fs ++ fs', f.vars.mapM (a.getValue C) = .ok (f.vars.map val) := by
    intro vars val a h f hf
    have hin : ∀ v ∈ f.vars, v ∈ vars := by
      intro v hv
      rw [h.sameVars]
      rcases List.mem_append.1 hf with hf | hf
      · exact ⟨f, hf, hv⟩
      · obtain ⟨f0, h0, e⟩ := mem_plain hp hf
        exact ⟨f0, h0, by
          have : (plain f0).vars = (plain f).vars := congrArg Factor.vars e
          exact (this ▸ hv : v ∈ (plain f0).vars)⟩
    exact mapM_ok fun v hv => h.values v (hin v hv)
  have sim := fun L hL => inliers_sim (L := L) hC hp hfs hfs' hne hb hG hG' hnd hL
    (cost := (watchedFor (fun a => Inliers F C fs a ∧ Inliers F C fs' a) (g.ops F C)).computeCost)
    (fun {a p} h => by
      unfold watchedFor at h
      simp only at h
      split at h
      · exact h
      · cases h)
    fun {a p vars val} h hh f hf => by
      unfold watchedFor at h
      simp only at h
      split at h
      · rename_i hi
        rcases List.mem_append.1 hf with hf' | hf'
        · exact hi.1 f hf' _ (values hh f hf)
        · exact hi.2 f hf' _ (values hh f hf)
      · cases h
  have hin : ∀ {x}, a.updateStorageLayout C (g.ops F C).layout = .ok x →
      ∃ x', a.updateStorageLayout C (g'.ops F C).layout = .ok x' ∧ (x' = x ∧ ∃ val, Stores C (Graph.variablesOf fs) val x) := by
    intro x hx
    obtain ⟨b, h1, -, h2⟩ := (stores_of_holds hC ha).update hs.1 (fun v => by rw [ha.sameVars, hs.2]) fun v hv => by
      obtain ⟨f, hf, hv⟩ := (ha.sameVars v).1 hv; exact hpos f hf v hv
    have hx : a.updateStorageLayout C g.layout = .ok x := hx
    rw [hG.layout, h1] at hx
    cases hx
    refine ⟨_, ?_, rfl, _, h2⟩
    show a.updateStorageLayout C g'.layout = _
    rw [hlay, hG.layout]; exact h1
  have hout : ∀ {x x' o : Assign ℝ}, (x' = x ∧ ∃ val, Stores C (Graph.variablesOf fs) val x) → x.updateStorageLayout C a.layout = .ok o →
      ∃ o', x'.updateStorageLayout C a.layout = .ok o' ∧ o' = o := by
    rintro _ x o ⟨rfl, -⟩ ho
    exact ⟨o, ho, rfl⟩
  have hll : g'.localLayout = g.localLayout := by rw [hG.localLayout, hG'.localLayout, variablesOf_same hp]
  have tests : ∀ t : Criteria ℝ, TestSim True C C (watchedFor (fun a => Inliers F C fs a ∧ Inliers F C fs' a) (g.ops F C)) (g'.ops F C)
      (fun a a' => a' = a ∧ ∃ val, Stores C (Graph.variablesOf fs) val a) (PlainQ fs fs')
      (fun d d' => d' = d ∧ d.length = g.localLayout.dim) t (InBounds t) :=
    fun t => equal_tests (P := fun a => ∃ val, Stores C (Graph.variablesOf fs) val a) (Pd := fun d => d.length = g.localLayout.dim) hll t
  refine ⟨fun i1 i2 => ?_, fun sE s hs hL fuel out log h => ?_, fun sE s hs hL hf fuel out log h => ?_,
    fun sE s hs hL hz hr fuel out log h => ?_, fun sE L hs' hL h1 fuel out log h => ?_⟩
  · have hfs0 : ∀ f ∈ fs.map plain, FactorWF F C f := by
      intro f hf
      obtain ⟨f0, h0, rfl⟩ := List.mem_map.1 hf
      exact factorWF_plain (hb f0 (List.mem_append.2 (.inl h0))) (hfs f0 h0)
    obtain ⟨w, hw⟩ := (holds_plain ha).whitened hC hfs0
    have hW : ∀ f ∈ fs ++ fs', whitenedAt F val f = .ok (w (plain f)) := by
      intro f hf
      have h0 : plain f ∈ fs.map plain := (List.mem_append.1 hf).elim (fun h => List.mem_map.2 ⟨f, h, rfl⟩)
        fun h => by rw [hp]; exact List.mem_map.2 ⟨f, h, rfl⟩
      have x1 : (stripHuber f.noise).whiten ((F f.cls).residual f.self (f.vars.map val)) = .ok (w (plain f)) := by
        rw [← residual_plain (hb f hf)]; exact (hw _ h0).1
      rcases List.mem_append.1 hf with hf' | hf'
      · exact whiten_strip (hfs f hf').noise x1 (i1 f hf' _ (values ha f hf) _ x1)
      · exact whiten_strip (hfs' f hf').noise x1 (i2 f hf' _ (values ha f hf) _ x1)
    have ha' : Holds C fs' vars val a := ⟨ha.assignment, ha.isGlobal, fun v => by
      rw [ha.sameVars, ← hs.2, ← variablesOf_same hp, (variablesOf_spec fs').2], ha.values⟩
    have e1 := cost_ok _ _ hC hne hfs hG ha (w := fun f => w (plain f)) fun f hf => hW f (List.mem_append.2 (.inl hf))
    have e2 := cost_ok _ _ hC hne' hfs' hG' ha' (w := fun f => w (plain f)) fun f hf => hW f (List.mem_append.2 (.inr hf))
    have := congrArg (fun l => (l.map fun f => sqNorm (w f)).sum) hp
    simp only [List.map_map, Function.comp_def] at this
    rw [← this] at e2
    exact ⟨_, _, _, e1, e2⟩
  · obtain ⟨ρ, hS⟩ := sim _ hL
    exact hS.gnSolve hl hl' hs hs (tests _) hin hout h
  · obtain ⟨ρ, hS⟩ := sim _ hL
    exact hS.lmSolve hl hl' hs hs hf (tests _) hin hout h
  · obtain ⟨ρ, hS⟩ := sim _ hL
    exact hS.doglegSolve hl hl' hs hs hz hr (tests _) hin hout h
  · obtain ⟨ρ, hS⟩ := sim _ hL
    have hst : ∃ val, Stores C (Graph.variablesOf fs) val a := by
      obtain ⟨b, k1, -, k2⟩ := (stores_of_holds hC ha).update hs.1 (fun v => by rw [ha.sameVars, hs.2]) fun v hv => by
        obtain ⟨f, hf, hv⟩ := (ha.sameVars v).1 hv; exact hpos f hf v hv
      have : a.updateStorageLayout C g.layout = .ok a := by
        unfold Assign.updateStorageLayout; rw [h1, hG.layout, layoutEq_refl C hs.1]; rfl
      rw [hG.layout, k1] at this
      cases this
      exact ⟨_, k2⟩
    obtain ⟨o, o', k1, k2, k3, -⟩ := hS.fixedSolve hl hl' hs' hs' rfl rfl rfl ⟨rfl, hst⟩ h
    exact ⟨o, o', k1, k2, k3⟩

/-- Nobody needs to watch a run for what always holds. -/
theorem watched_always (P : Assign ℝ → Prop) (g : GraphOps ℝ) (h : ∀ a, P a) : watchedFor P g = g := by
  unfold watchedFor
  simp [h]

/-- **C120, wrappers without effect.** If the residuals never reach the thresholds, whatever the values of the variables are, then nobody
needs to watch: a run that returns for one of the problems returns for the other, with the same result and the same printed lines. -/
theorem C120_never (hC : GoodClasses C) (fs fs' : List Factor) (hp : fs.map plain = fs'.map plain) (hne : fs ≠ [])
    (hfs : ∀ f ∈ fs, FactorWF F C f) (hfs' : ∀ f ∈ fs', FactorWF F C f) (hb : ∀ f ∈ fs ++ fs', NoiseBlind (F f.cls))
    (hpos : ∀ f ∈ fs, ∀ v ∈ f.vars, 0 < (C v.ty).paramDim) (hin : ∀ f ∈ fs ++ fs', ∀ vals, Inlier F f vals) :
    ∃ g g', Graph.make C fs = .ok g ∧ Graph.make C fs' = .ok g' ∧ g'.layout = g.layout ∧
      ∀ CE gE gE', Lifts CE gE C (g.ops F C) → Lifts CE gE' C (g'.ops F C) →
      ∀ vars val a, Holds C fs vars val a →
        let Free := fun L : LinSolver ℝ => OrderFree L ∨ OrderFreeDistinct L ∧ ∀ f ∈ fs, f.vars.Nodup
        (∀ sE s, LiftsGN sE s → Free s.linear → SolvesAlike (sE.solve CE gE) (sE.solve CE gE') a a fun o o' => o' = o) ∧
        (∀ sE s, LiftsLM sE s → Free s.linear → s.lambdaFactor ≠ 0 →
          SolvesAlike (sE.solve CE gE) (sE.solve CE gE') a a fun o o' => o' = o) ∧
        (∀ sE s, LiftsDogleg sE s → Free s.linear → ZeroAtZero s.linear → 0 < s.radiusInitial →
          SolvesAlike (sE.solve CE gE) (sE.solve CE gE') a a fun o o' => o' = o) ∧
        (∀ (sE : FixedIteration Ext) L, LiftsSolver sE.linear L → Free L → a.layout = g.layout →
          SolvesAlike (sE.solve CE gE) (sE.solve CE gE') a a fun o o' => o' = o) := by
  obtain ⟨g, g', hg, hg', hlay, h⟩ := C120_inliers F C hC fs fs' hp hne hfs hfs' hb hpos
  refine ⟨g, g', hg, hg', hlay, fun CE gE gE' hl hl' vars val a ha => ?_⟩
  refine (h CE gE gE' ?_ hl' vars val a ha).2
  rw [watched_always _ _ fun a => ⟨fun f hf vals _ => hin f (List.mem_append.2 (.inl hf)) vals,
    fun f hf vals _ => hin f (List.mem_append.2 (.inr hf)) vals⟩]
  exact hl

end

/-! ### Rotations of the plane -/

theorem below_mono {N : Noise} {x y : ℝ} (h : BelowThresholds N y) (hxy : x ≤ y) : BelowThresholds N x := by
  induction N with
  | huber w δ ih => exact ⟨fun d hd => lt_of_le_of_lt hxy (h.1 d hd), ih h.2⟩
  | _ => trivial

theorem so2_rminus (a b : List ℝ) : ∃ t, LieGroup.so2.rminus a b = [t] ∧ |t| ≤ Real.pi :=
  ⟨_, rfl, Complex.abs_arg_le_pi _⟩

/-- **C120, rotations of the plane.** No measurement of a rotation of the plane, with weight `s`, differs by more than half a turn. So
Huber wrappers with thresholds of more than `π s` have no effect. -/
theorem C120_rotations (F : Nat → FactorClass) (f : Factor) (s : ℝ)
    (hF : F f.cls = priorFactorClass .so2 ∨ F f.cls = betweenFactorClass .so2) (hs : Weighs s (stripHuber f.noise))
    (hb : BelowThresholds f.noise (Real.pi * |s|)) (vals : List (Value ℝ)) : Inlier F f vals := by
  obtain ⟨t, ht, htp⟩ : ∃ t, (F f.cls).residual f.self vals = [t] ∧ |t| ≤ Real.pi := by
    rcases hF with hF | hF <;> rw [hF] <;> exact so2_rminus _ _
  intro w hw
  rw [ht, weighs_whiten hs] at hw
  cases hw
  refine below_mono hb ?_
  simp only [List.map_cons, List.map_nil, List.sum_cons, List.sum_nil, add_zero, Real.sqrt_sq_eq_abs, abs_mul]
  rw [mul_comm]
  exact mul_le_mul_of_nonneg_right htp (abs_nonneg s)

namespace Ring3

/-- The measurement that closes the ring, with a Huber wrapper. -/
noncomputable def wrapped : Factor := { f3 with noise := .huber f3.noise ⟨[], [5]⟩ }

/-- The ring of `Ring3` with and without the wrapper: Levenberg-Marquardt with CHOLMOD prints the same lines and returns the same result. -/
example : ∃ g g' a, Graph.make C fs = .ok g ∧ Graph.make C [f0, f1, f2, wrapped] = .ok g' ∧
    Holds C fs [v0, v1, v2] (fun v => turnBy (v.uid / 2)) a ∧
    ∀ stale addr fuel out log, (LevenbergMarquardt.defaults fun A b l _ => (cholmodSolve stale .empty addr A b l).1).lift.solve (fun t => (C t).lift)
        (g.ops F C).lift fuel (a.map fin) = .ok (some (out, log)) →
      (LevenbergMarquardt.defaults fun A b l _ => (cholmodSolve stale .empty addr A b l).1).lift.solve (fun t => (C t).lift)
        (g'.ops F C).lift fuel (a.map fin) = .ok (some (out, log)) := by
  have hwf : ∀ f ∈ fs, FactorWF F C f := fun f hf => (measuresAngle_wf (measures f hf) fun _ _ => rfl).1
  have hb : ∀ n, NoiseBlind (F n) := by
    intro n
    unfold F
    split
    · exact (C119_library _).1
    · exact (C119_library _).2
  have h3 := hwf f3 (by simp [fs])
  have hw3 : FactorWF F C wrapped := factorWF_noise (hb _) h3 ⟨h3.noise, 5, rfl, by norm_num⟩ rfl
  have hwf' : ∀ f ∈ [f0, f1, f2, wrapped], FactorWF F C f := by
    intro f hf
    simp only [List.mem_cons, List.not_mem_nil, or_false] at hf
    rcases hf with rfl | rfl | rfl | rfl
    · exact hwf _ (by simp [fs])
    · exact hwf _ (by simp [fs])
    · exact hwf _ (by simp [fs])
    · exact hw3
  have hin : ∀ f ∈ fs ++ [f0, f1, f2, wrapped], ∀ vals, Inlier F f vals := by
    have hF : ∀ n, F n = priorFactorClass .so2 ∨ F n = betweenFactorClass .so2 := by
      intro n; unfold F; split <;> simp
    intro f hf
    simp only [fs, List.cons_append, List.nil_append, List.mem_cons, List.not_mem_nil, or_false] at hf
    rcases hf with rfl | rfl | rfl | rfl | rfl | rfl | rfl | rfl <;> refine C120_rotations F _ 1 (hF _) rfl ?_
    all_goals first | trivial | exact ⟨fun d hd => by
      obtain rfl : d = 5 := by simpa [wrapped] using hd
      rw [abs_one, mul_one]; linarith [Real.pi_le_four], trivial⟩
  obtain ⟨g, g', hg, hg', -, h⟩ := C120_never F C classes fs [f0, f1, f2, wrapped] rfl (by simp [fs]) hwf hwf' (fun f _ => hb _)
    (fun f _ v _ => by show 0 < (SO2Variable).paramDim; exact lie_paramDim_pos .so2) hin
  obtain ⟨a, ha⟩ : ∃ a, Holds C fs [v0, v1, v2] (fun v => turnBy (v.uid / 2)) a := by
    refine ⟨_, (stores_exists (C := C) (by decide) (fun v _ => ?_) fun v _ => ?_).holds same⟩
    · exact (isValueOf_lie .so2).2 ⟨_, rfl, rfl⟩
    · rw [turnBy_flatten]; rfl
  refine ⟨g, g', a, hg, hg', ha, fun stale addr fuel out log hrun => ?_⟩
  obtain ⟨o, _, h1, h2, rfl⟩ := (h _ _ _ (lifts_lift _ _) (lifts_lift _ _) _ _ _ ha).2.1 _ _
    (liftsLM_lift (LevenbergMarquardt.defaults fun A b l _ => (cholmodSolve stale .empty addr A b l).1))
    (.inl (C73_cholmod stale addr)) (by simp [LevenbergMarquardt.defaults]) fuel out log hrun
  rw [h1]
  exact h2

end Ring3

end Jaxfg.Props
