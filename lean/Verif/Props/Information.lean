/-
Property C119: only the information in the measurements counts. See Verif.Props.SolverReal for the setting: real arithmetic, inside a
program that also knows infinities and NaNs.
-/
import Verif.Lemmas.Information
import Verif.Props.Equivariance
import Verif.Props.Linearize
import Verif.Props.OrderIndependence

namespace Jaxfg.Props
open Spec
open Ext (fin)
open Matrix hiding vec

/-! ### Linear solvers -/

/-- **C119, CHOLMOD.** Whatever the matrices are, and for every damping, the direct solver returns the same solution for two
systems with the same normal equations, in any order of the unknowns (for a factor without an analysis of another pattern, see
C37). The systems may have different numbers of equations. -/
theorem C119_cholmod (stale : Pattern → ScipyCoo ℝ → ℝ → List ℝ → Py (List ℝ)) (addr : Nat) :
    NormalOnly fun A b l _ => (cholmodSolve stale .empty addr A b l).1 := cholmod_normalOnly stale addr

/-- **C119, conjugate gradient.** The same for both iterative solvers and every tolerance, even if they stop early, for matrices
that list no position twice. (For a column of zeros the code divides by zero; the numbers of the model then mean nothing.) -/
theorem C119_conjugate_gradient (tolerance eta : ℝ) :
    NormalOnlyDistinct (fun A b l i => cgSolve A b l (cgTolerance tolerance i)) ∧
    NormalOnlyDistinct (fun A b l i => cgSolve A b l (inexactTolerance eta i)) :=
  ⟨cg_normalOnly _, cg_normalOnly _⟩

/-- One equation `5 x = ...` and two equations `3 x = ...`, `4 x = ...` with the same normal equations. -/
example : SameNormalEquations (1 : Equiv.Perm (Fin 1)) (⟨[5], [0], [0], (1, 1)⟩ : Coo ℝ) ⟨[3, 4], [0, 1], [0, 0], (2, 1)⟩ := by
  refine ⟨by simp [CooWF], by simp [CooWF], rfl, rfl, ?_⟩
  funext i j
  fin_cases i
  fin_cases j
  simp [mul_apply, cooMatrix, entries]
  norm_num

/-! ### Nonlinear solvers -/

section
variable (F : Nat → FactorClass) (C : Ty → VarClass ℝ)

/-- **C119.** Two lists of factors that measure the same quantities with the same total precision are the same problem: costs at
equal values are equal, and a solver that returns for one list returns for the other after the same number of steps, prints the
same lines, and its result holds the same value of every variable. How often a quantity is measured, how its precision is
distributed among the factors, which square root of it a noise model stores, in which form, and in which order factors and
variables come does not matter. All termination tests may be on. The linear solver must only depend on the normal equations
(`C119_cholmod`), at least if no factor lists a variable twice (`C119_conjugate_gradient`). The solver with a fixed number of
steps does not convert the assignments, so they must be in the order of the graph (see C40). -/
theorem C119_information (hC : GoodClasses C) (fs fs' : List Factor) (hI : SameInformation fs fs') (hne : fs ≠ []) (hne' : fs' ≠ [])
    (hfs : ∀ f ∈ fs, FactorWF F C f) (hfs' : ∀ f ∈ fs', FactorWF F C f) (hb : ∀ f ∈ fs ++ fs', NoiseBlind (F f.cls))
    (hpos : ∀ f ∈ fs, ∀ v ∈ f.vars, 0 < (C v.ty).paramDim) :
    ∃ g g', Graph.make C fs = .ok g ∧ Graph.make C fs' = .ok g' ∧
      ∀ CE gE gE', Lifts CE gE C (g.ops F C) → Lifts CE gE' C (g'.ops F C) →
      ∀ vars vars' val a a', SameValues C fs vars vars' val a a' →
        let O := fun o o' => o.layout = a.layout ∧ o'.layout = a'.layout ∧ ∃ val', SameValues C fs vars vars' val' o o'
        let Free := fun L : LinSolver ℝ => NormalOnly L ∨ NormalOnlyDistinct L ∧ (∀ f ∈ fs, f.vars.Nodup) ∧ ∀ f ∈ fs', f.vars.Nodup
        (∃ c r r', g.computeCost F C a = .ok (c, r) ∧ g'.computeCost F C a' = .ok (c, r')) ∧
        (∀ sE s, LiftsGN sE s → Free s.linear → SolvesAlike (sE.solve CE gE) (sE.solve CE gE') a a' O) ∧
        (∀ sE s, LiftsLM sE s → Free s.linear → s.lambdaFactor ≠ 0 → SolvesAlike (sE.solve CE gE) (sE.solve CE gE') a a' O) ∧
        (∀ sE s, LiftsDogleg sE s → Free s.linear → ZeroAtZero s.linear → 0 < s.radiusInitial →
          SolvesAlike (sE.solve CE gE) (sE.solve CE gE') a a' O) ∧
        (∀ (sE : FixedIteration Ext) L, LiftsSolver sE.linear L → Free L → a.layout = g.layout → a'.layout = g'.layout →
          SolvesAlike (sE.solve CE gE) (sE.solve CE gE') a a' O) := by
  obtain ⟨g, hg, hG⟩ := graph_ok (F := F) hfs hne
  obtain ⟨g', hg', hG'⟩ := graph_ok (F := F) hfs' hne'
  refine ⟨g, g', hg, hg', fun CE gE gE' hl hl' vars vars' val a a' ha => ?_⟩
  have hp := hI.variablesOf
  have hnd : ((∀ f ∈ fs, f.vars.Nodup) ∧ ∀ f ∈ fs', f.vars.Nodup) → g.jacobianCoords.Nodup ∧ g'.jacobianCoords.Nodup := by
    intro hn
    obtain ⟨g1, h1, -, -, h2, -⟩ := C19_coordinates F C hC fs hne hfs
    obtain ⟨g2, h3, -, -, h4, -⟩ := C19_coordinates F C hC fs' hne' hfs'
    rw [hg] at h1; rw [hg'] at h3
    cases h1; cases h3
    exact ⟨h2 hn.1, h4 hn.2⟩
  have sim := fun L hL => information_sim (L := L) hC hfs hfs' hne hne' hb hI hG hG' hnd hL
  obtain ⟨b, b', u1, u2, hb'⟩ := sameValues_in hC hpos hp hG hG' ha
  have hin : ∀ {x}, a.updateStorageLayout C (g.ops F C).layout = .ok x →
      ∃ x', a'.updateStorageLayout C (g'.ops F C).layout = .ok x' ∧ OrdR C fs fs' x x' := by
    intro x hx
    have hx : a.updateStorageLayout C g.layout = .ok x := hx
    rw [u1] at hx; cases hx
    exact ⟨b', u2, hb'⟩
  have hout : ∀ {x x' o}, OrdR C fs fs' x x' → x.updateStorageLayout C a.layout = .ok o →
      ∃ o', x'.updateStorageLayout C a'.layout = .ok o' ∧
        (o.layout = a.layout ∧ o'.layout = a'.layout ∧ ∃ val', SameValues C fs vars vars' val' o o') := by
    intro x x' o hx ho
    obtain ⟨o1, o1', e1, e2, e3⟩ := sameValues_out hpos hp ha hx
    rw [e1] at ho; cases ho
    exact ⟨o1', e2, e3⟩
  refine ⟨?_, fun sE s hs hL fuel out log h => ?_, fun sE s hs hL hf fuel out log h => ?_,
    fun sE s hs hL hz hr fuel out log h => ?_, fun sE L hs hL h1 h2 fuel out log h => ?_⟩
  · have ha' : Holds C fs' vars' val a' := ⟨ha.right.assignment, ha.right.isGlobal, fun v => by rw [ha.right.sameVars, hI.vars], ha.right.values⟩
    obtain ⟨w, hw⟩ := ha.left.whitened hC hfs
    obtain ⟨w', hw'⟩ := ha'.whitened hC hfs'
    obtain ⟨σ, hS⟩ := sim _ (.inl (cholmod_normalOnly (fun _ _ _ _ => .ok []) 0))
    obtain ⟨val', s1, s2⟩ := hb'
    have e1 := cost_ok _ _ hC hne hfs hG ha.left fun f hf => (hw f hf).1
    have e2 := cost_ok _ _ hC hne' hfs' hG' ha' fun f hf => (hw' f hf).1
    refine ⟨_, _, (evalOrder fs').flatMap w', e1, e2.trans ?_⟩
    obtain ⟨b1, v1, -, v2⟩ := (stores_of_holds hC ha.left).update (variablesOf_spec fs).1 (fun v => by rw [ha.left.sameVars, (variablesOf_spec fs).2])
      fun v hv => by obtain ⟨f, hf, hv⟩ := (ha.left.sameVars v).1 hv; exact hpos f hf v hv
    obtain ⟨b2, v3, -, v4⟩ := (stores_of_holds hC ha').update (variablesOf_spec fs').1 (fun v => by rw [ha'.sameVars, (variablesOf_spec fs').2])
      fun v hv => by obtain ⟨f, hf, hv⟩ := (ha.right.sameVars v).1 hv; exact hpos f hf v hv
    have e3 := cost_ok _ _ hC hne hfs hG (v2.holds (variablesOf_spec fs).2) fun f hf => (hw f hf).1
    have e4 := cost_ok _ _ hC hne' hfs' hG' (v4.holds (variablesOf_spec fs').2) fun f hf => (hw' f hf).1
    obtain ⟨r', h5, -⟩ := hS.cost ⟨val, v2, v4⟩ e3
    have h5 : g'.computeCost F C b2 = _ := h5
    rw [e4] at h5
    have := congrArg Prod.fst (Except.ok.inj h5)
    simp only at this
    rw [this]
  · obtain ⟨σ, hS⟩ := sim _ hL
    exact hS.gnSolve hl hl' hs hs (order_tests hp hS _) hin hout h
  · obtain ⟨σ, hS⟩ := sim _ hL
    exact hS.lmSolve hl hl' hs hs hf (order_tests hp hS _) hin hout h
  · obtain ⟨σ, hS⟩ := sim _ hL
    exact hS.doglegSolve hl hl' hs hs hz hr (order_tests hp hS _) hin hout h
  · obtain ⟨σ, hS⟩ := sim _ hL
    have e1 : a.updateStorageLayout C g.layout = .ok a := by
      unfold Assign.updateStorageLayout; rw [h1, hG.layout, layoutEq_refl C (variablesOf_spec _).1]; rfl
    have e2 : a'.updateStorageLayout C g'.layout = .ok a' := by
      unfold Assign.updateStorageLayout; rw [h2, hG'.layout, layoutEq_refl C (variablesOf_spec _).1]; rfl
    rw [e1] at u1; rw [e2] at u2; cases u1; cases u2
    obtain ⟨o, o', k1, k2, val', s1, s2⟩ := hS.fixedSolve hl hl' hs hs rfl rfl rfl hb' h
    have hv := variablesOf_spec fs
    have hv' := variablesOf_spec fs'
    have l1 : o.layout = a.layout := by rw [h1, hG.layout]; exact s1.1.layout
    have l2 : o'.layout = a'.layout := by rw [h2, hG'.layout]; exact s2.1.layout
    have m1 := s1.holds hv.2
    have m2 := s2.holds hv'.2
    have same : ∀ v, v ∈ vars ↔ v ∈ Graph.variablesOf fs := fun v => by rw [ha.left.sameVars, hv.2]
    have same' : ∀ v, v ∈ vars' ↔ v ∈ Graph.variablesOf fs' := fun v => by
      rw [ha.right.sameVars, ← hv.2, hp.mem_iff]
    refine ⟨o, o', k1, k2, l1, l2, val', ⟨⟨ha.left.assignment.1, ?_, m1.assignment.2.2⟩, m1.isGlobal, ha.left.sameVars,
      fun v hv => m1.values v ((same v).1 hv)⟩, ⟨⟨ha.right.assignment.1, ?_, m2.assignment.2.2⟩, m2.isGlobal, ha.right.sameVars,
      fun v hv => m2.values v ((same' v).1 hv)⟩⟩
    · rw [l1]; exact ha.left.assignment.2.1
    · rw [l2]; exact ha.right.assignment.2.1

end

/-! ### Factors with the same information -/

/-- **C119, library factors.** The residuals of priors and of relative measurements do not look at the noise model. -/
theorem C119_library (G : LieGroup) : NoiseBlind (priorFactorClass G) ∧ NoiseBlind (betweenFactorClass G) :=
  ⟨fun _ _ _ => ⟨rfl, rfl⟩, fun _ _ _ => ⟨rfl, rfl⟩⟩

/-- **C119, order.** The order of the factors does not matter. -/
theorem C119_order {fs fs' : List Factor} (h : fs.Perm fs') : SameInformation fs fs' where
  vars := fun v => ⟨fun ⟨f, hf, hv⟩ => ⟨f, h.mem_iff.1 hf, hv⟩, fun ⟨f, hf, hv⟩ => ⟨f, h.mem_iff.2 hf, hv⟩⟩
  robust := h.filter _
  gaussian := fun q n => by unfold information; exact (((h.filter _).map _).sum_eq).symm

/-- **C119, chains.** Problems with the same information as a third one have the same information. -/
theorem C119_trans {fs gs hs : List Factor} (h : SameInformation fs gs) (k : SameInformation gs hs) : SameInformation fs hs where
  vars := fun v => (h.vars v).trans (k.vars v)
  robust := h.robust.trans k.robust
  gaussian := fun q n => (k.gaussian q n).trans (h.gaussian q n)

/-- **C119, merging measurements.** Measurements of the same quantity without Huber wrapper may be replaced by others, as long as the
precisions (inverse covariances) add up to the same matrix: by one measurement with the sum of the precisions, by one with another
square root of the same precision, by several that share it. -/
theorem C119_merge (ks ks' fs : List Factor) (q : Nat × List Var × List (Arr ℝ)) (n : Nat) (hne : ks ≠ []) (hne' : ks' ≠ [])
    (hk : ∀ f ∈ ks ++ ks', NoiseGaussian f.noise ∧ quantity f = q ∧ rdim f = n)
    (hs : (ks'.map fun f => noisePrecision f.noise n).sum = (ks.map fun f => noisePrecision f.noise n).sum) :
    SameInformation (ks ++ fs) (ks' ++ fs) := by
  classical
  have hk1 : ∀ f ∈ ks, NoiseGaussian f.noise ∧ quantity f = q ∧ rdim f = n := fun f hf => hk f (by simp [hf])
  have hk2 : ∀ f ∈ ks', NoiseGaussian f.noise ∧ quantity f = q ∧ rdim f = n := fun f hf => hk f (by simp [hf])
  obtain ⟨f0, h0⟩ := List.exists_mem_of_ne_nil ks hne
  obtain ⟨f1, h1⟩ := List.exists_mem_of_ne_nil ks' hne'
  have hv : ∀ f ∈ ks ++ ks', f.vars = q.2.1 := fun f hf => by rw [← (hk f hf).2.1]; rfl
  have none : ∀ l : List Factor, (∀ f ∈ l, NoiseGaussian f.noise ∧ quantity f = q ∧ rdim f = n) →
      l.filter (fun f => ¬ NoiseGaussian f.noise) = [] := by
    intro l hl
    rw [List.filter_eq_nil_iff]
    intro f hf
    simpa using (hl f hf).1
  refine ⟨fun v => ?_, ?_, fun q' n' => ?_⟩
  · constructor
    · rintro ⟨f, hf, hvf⟩
      rcases List.mem_append.1 hf with hf | hf
      · exact ⟨f1, by simp [h1], by rw [hv f1 (by simp [h1]), ← hv f (by simp [hf])]; exact hvf⟩
      · exact ⟨f, by simp [hf], hvf⟩
    · rintro ⟨f, hf, hvf⟩
      rcases List.mem_append.1 hf with hf | hf
      · exact ⟨f0, by simp [h0], by rw [hv f0 (by simp [h0]), ← hv f (by simp [hf])]; exact hvf⟩
      · exact ⟨f, by simp [hf], hvf⟩
  · rw [List.filter_append, List.filter_append, none ks hk1, none ks' hk2]
  · unfold information
    rw [List.filter_append, List.filter_append, List.map_append, List.map_append, List.sum_append, List.sum_append]
    congr 1
    by_cases hq : q = q' ∧ n = n'
    · obtain ⟨rfl, rfl⟩ := hq
      rw [List.filter_eq_self (l := ks').2 fun f hf => by simpa using hk2 f hf,
        List.filter_eq_self (l := ks).2 fun f hf => by simpa using hk1 f hf, hs]
    · have : ∀ l : List Factor, (∀ f ∈ l, NoiseGaussian f.noise ∧ quantity f = q ∧ rdim f = n) →
          l.filter (fun f => NoiseGaussian f.noise ∧ quantity f = q' ∧ rdim f = n') = [] := by
        intro l hl
        rw [List.filter_eq_nil_iff]
        intro f hf h
        simp only [decide_eq_true_eq] at h
        exact hq ⟨(hl f hf).2.1.symm.trans h.2.1, (hl f hf).2.2.symm.trans h.2.2⟩
      rw [this ks hk1, this ks' hk2]

theorem noisePrecision_apply (N : Noise) (n : Nat) (i j : Fin n) :
    noisePrecision N n i j = ∑ k, noiseMat N n n k i * noiseMat N n n k j := by
  simp only [noisePrecision, mul_apply, transpose_apply]

/-- **C119, robust measurements cannot be merged.** Four measurements of one quantity with precision 1 and a Huber loss cost twice as
much as one with precision 4 and the same threshold, at a residual of 2. -/
theorem C119_robust_not_merged : ∃ w w', noisePrecision (.diagonal ⟨[1], [2]⟩) 1 = 4 • noisePrecision (.diagonal ⟨[1], [1]⟩) 1 ∧
    (Noise.huber (.diagonal ⟨[1], [1]⟩) ⟨[], [1]⟩).whiten [2] = .ok w ∧ (Noise.huber (.diagonal ⟨[1], [2]⟩) ⟨[], [1]⟩).whiten [2] = .ok w' ∧
    4 * sqNorm w = 8 ∧ sqNorm w' = 4 := by
  have hn : ∀ x : ℝ, 0 ≤ x → norm2 [x] = x := fun x hx => by simp [norm2, Real.sqrt_sq hx]
  have h1 : (Noise.diagonal ⟨[1], [1]⟩).whiten [2] = .ok [2] := by simp [Noise.whiten, pyAssert, py_bind_ok]
  have h2 : (Noise.diagonal ⟨[1], [2]⟩).whiten [2] = .ok [4] := by
    simp [Noise.whiten, pyAssert, py_bind_ok]; norm_num
  refine ⟨_, _, ?_, huber_whiten h1, huber_whiten h2, ?_, ?_⟩
  · funext i j
    fin_cases i
    fin_cases j
    simp only [Matrix.smul_apply, noisePrecision_apply]
    simp [noiseMat]
    norm_num
  · rw [huberWeight_eq one_pos, hn 2 (by norm_num)]
    simp only [sqNorm, List.map_cons, List.map_nil, List.sum_cons, List.sum_nil, mul_pow]
    rw [Real.sq_sqrt (by positivity)]
    norm_num
  · rw [huberWeight_eq one_pos, hn 4 (by norm_num)]
    simp only [sqNorm, List.map_cons, List.map_nil, List.sum_cons, List.sum_nil, mul_pow]
    rw [Real.sq_sqrt (by positivity)]
    norm_num

namespace PoseEx

/-- The prior of `PoseEx` split into two measurements, one of them with a full matrix that is not even triangular. -/
noncomputable def priorA : Factor := PriorFactor.make 0 x (LieGroup.se2.value [1, 0, 1, 2]) (.diagonal ⟨[3], [3 / 5, 3 / 5, 6 / 5]⟩)
noncomputable def priorB : Factor :=
  PriorFactor.make 0 x (LieGroup.se2.value [1, 0, 1, 2]) (.gaussian ⟨[3, 3], [4 / 5, 0, 0, 0, 0, 8 / 5, 0, 4 / 5, 0]⟩)

theorem same_information : SameInformation fs [step, turn, priorA, priorB] := by
  refine C119_trans (C119_merge [prior] [priorA, priorB] [step, turn] (quantity prior) 3 (by simp) (by simp) ?_ ?_) (C119_order ?_)
  · intro f hf
    simp only [List.cons_append, List.nil_append, List.mem_cons, List.not_mem_nil, or_false] at hf
    rcases hf with rfl | rfl | rfl <;> exact ⟨trivial, rfl, rfl⟩
  · funext i j
    simp only [List.map_cons, List.map_nil, List.sum_cons, List.sum_nil, Matrix.add_apply, Matrix.zero_apply, noisePrecision_apply, Fin.sum_univ_three]
    fin_cases i <;> fin_cases j <;> simp [noiseMat, arrMat, prior, priorA, priorB, PriorFactor.make] <;> norm_num
  · exact List.perm_append_comm (l₁ := [priorA, priorB]) (l₂ := [step, turn])

/-- The pose graph of `PoseEx` with its prior in one piece and in two, solved by Levenberg-Marquardt with conjugate gradients from poses
that do not satisfy the measurements: the runs print the same lines and give the same values. -/
example : ∃ g g' a a', Graph.make C fs = .ok g ∧ Graph.make C [step, turn, priorA, priorB] = .ok g' ∧
    SameValues C fs [x, y, r, s] [s, y, r, x] (poseValue K (pose false)) a a' ∧
    ∀ fuel out log, (LevenbergMarquardt.defaults fun A b l i => cgSolve A b l (cgTolerance (1 / 100000) i)).lift.solve (fun t => (C t).lift)
        (g.ops F C).lift fuel (a.map fin) = .ok (some (out, log)) →
      ∃ o o' val, out = o.map fin ∧
        (LevenbergMarquardt.defaults fun A b l i => cgSolve A b l (cgTolerance (1 / 100000) i)).lift.solve (fun t => (C t).lift)
          (g'.ops F C).lift fuel (a'.map fin) = .ok (some (o'.map fin, log)) ∧
        SameValues C fs [x, y, r, s] [s, y, r, x] val o o' := by
  obtain ⟨a, ha⟩ := holds false
  have hC : GoodClasses C := lie_goodClasses fun _ => rfl
  obtain ⟨m1, m2, m3⟩ := measures
  have hwf : ∀ f ∈ fs, FactorWF F C f := by
    intro f hf
    have hM : ∃ P, Measures F K f P := by
      have hf' := hf
      simp only [fs, List.mem_cons, List.not_mem_nil, or_false] at hf'
      rcases hf' with rfl | rfl | rfl
      · exact ⟨_, m1⟩
      · exact ⟨_, m2⟩
      · exact ⟨_, m3⟩
    exact (C54_wellformed F C K f _ hM.choose_spec fun v hv => ⟨rfl, noise f hf v hv⟩).1
  have hwf' : ∀ f ∈ [step, turn, priorA, priorB], FactorWF F C f := by
    intro f hf
    simp only [List.mem_cons, List.not_mem_nil, or_false] at hf
    rcases hf with rfl | rfl | rfl | rfl
    · exact hwf _ (by simp [fs])
    · exact hwf _ (by simp [fs])
    · exact (C54_wellformed F C K _ _ (Measures.prior 0 x [1, 0, 1, 2] _ rfl ⟨1, 0, 1, 2, rfl, by norm_num⟩) fun v hv => by
        obtain rfl : v = x := by simpa [PriorFactor.make] using hv
        exact ⟨rfl, ⟨rfl, rfl⟩, rfl⟩).1
    · exact (C54_wellformed F C K _ _ (Measures.prior 0 x [1, 0, 1, 2] _ rfl ⟨1, 0, 1, 2, rfl, by norm_num⟩) fun v hv => by
        obtain rfl : v = x := by simpa [PriorFactor.make] using hv
        exact ⟨rfl, rfl, rfl⟩).1
  have hvars : ∀ v, v ∈ [x, y, r, s] ↔ v ∈ [s, y, r, x] := fun v => by simp; tauto
  obtain ⟨a', -, -, ha'⟩ := (stores_of_holds hC ha).update (vs := [s, y, r, x]) (by decide) hvars fun v _ => lie_paramDim_pos _
  have hsame : SameValues C fs [x, y, r, s] [s, y, r, x] (poseValue K (pose false)) a a' :=
    ⟨ha, ha'.holds fun v => by rw [← hvars, ha.sameVars]⟩
  have hb : ∀ n, NoiseBlind (F n) := by
    intro n
    unfold F
    split
    · exact (C119_library _).1
    · split
      · exact (C119_library _).2
      · exact (C119_library _).2
  have hnd : ∀ f ∈ fs ++ [step, turn, priorA, priorB], f.vars.Nodup := by
    intro f hf
    simp only [fs, List.cons_append, List.nil_append, List.mem_cons, List.not_mem_nil, or_false] at hf
    rcases hf with rfl | rfl | rfl | rfl | rfl | rfl | rfl <;> simp [prior, step, turn, priorA, priorB, PriorFactor.make, x, y, r, PoseEx.s]
  obtain ⟨g, g', hg, hg', h⟩ := C119_information F C hC fs _ same_information (by simp [fs]) (by simp) hwf hwf' (fun f _ => hb _)
    (fun f hf v hv => lie_paramDim_pos _)
  refine ⟨g, g', a, a', hg, hg', hsame, fun fuel out log hrun => ?_⟩
  obtain ⟨o, o', h1, h2, -, -, val, h3⟩ := (h _ _ _ (lifts_lift _ _) (lifts_lift _ _) _ _ _ a a' hsame).2.2.1 _ _
    (liftsLM_lift (LevenbergMarquardt.defaults fun A b l i => cgSolve A b l (cgTolerance (1 / 100000) i)))
    (.inr ⟨(C119_conjugate_gradient _ 0).1, fun f hf => hnd f (by simp [hf]), fun f hf => hnd f (List.mem_append_right _ hf)⟩)
    (by simp [LevenbergMarquardt.defaults]) fuel out log hrun
  exact ⟨o, o', val, h1, h2, h3⟩

end PoseEx

end Jaxfg.Props
