/-
Properties C16-C18, C23-C25, C58, C59: factor graphs (jaxfg/core/_stacked_factor_graph.py, _factor_stack.py, _factor_base.py).
-/
import Verif.Lemmas.ExampleGraph
import Verif.Props.Assign
import Mathlib.LinearAlgebra.Matrix.NonsingularInverse

namespace Jaxfg.Props
open Spec
open Matrix hiding vec
variable (F : Nat → FactorClass) (C : Ty → VarClass ℝ)

/-! ### C17: residual vector -/

/-- **C17.** For every non-empty list of well-formed factors the graph can be made, and for every assignments object that holds
the factors' variables (in any storage order) the whitened residual vector is the concatenation of each factor's whitened
residual, in the order `evalOrder` (groups of one kind in order of first appearance, input order inside a group), and has
length `residual_dim`, the sum of the factors' residual sizes. -/
theorem C17_residual_vector (hC : GoodClasses C) (fs : List Factor) (hne : fs ≠ []) (hfs : ∀ f ∈ fs, FactorWF F C f) :
    ∃ g, Graph.make C fs = .ok g ∧ g.residualDim = (fs.map rdim).sum ∧
      ∀ vars val a, Holds C fs vars val a → ∃ w : Factor → List ℝ,
        (∀ f ∈ fs, whitenedAt F val f = .ok (w f) ∧ (w f).length = rdim f) ∧
        g.computeWhitenedResidualVector F C a = .ok ((evalOrder fs).flatMap w) ∧
        ((evalOrder fs).flatMap w).length = g.residualDim := by
  obtain ⟨g, hg, hG⟩ := graph_ok (F := F) hfs hne
  refine ⟨g, hg, ?_, ?_⟩
  · rw [hG.residualDim]
    exact ((groupedBy_perm kind fs).map rdim).sum_eq
  · intro vars val a h
    obtain ⟨w, hw⟩ := h.whitened hC hfs
    exact ⟨w, hw, residual_ok hC hfs hne hG h fun f hf => (hw f hf).1⟩

/-- `evalOrder` is a rearrangement of the factors: every factor is evaluated exactly once. -/
theorem C17_every_factor_once (fs : List Factor) : (evalOrder fs).Perm fs := groupedBy_perm kind fs

/-- Non-vacuity: four factors of three kinds, assignments in another storage order, interleaved groups. -/
example : Ex.fs ≠ [] ∧ (∀ f ∈ Ex.fs, FactorWF Ex.F Ex.C f) ∧ GoodClasses Ex.C ∧ Holds Ex.C Ex.fs Ex.vars Ex.val Ex.a ∧
    evalOrder Ex.fs = [Ex.f1, Ex.f3, Ex.f2, Ex.f4] :=
  ⟨by simp [Ex.fs], Ex.fs_wf, Ex.good, Ex.holds, Ex.evalOrder_fs⟩

/-! ### C16, C18: cost -/

theorem sqNorm_append (l m : List ℝ) : sqNorm (l ++ m) = sqNorm l + sqNorm m := by simp [sqNorm]

theorem sqNorm_flatMap {β : Type _} (l : List β) (w : β → List ℝ) : sqNorm (l.flatMap w) = (l.map fun f => sqNorm (w f)).sum := by
  induction l with
  | nil => rfl
  | cons x l ih => rw [List.flatMap_cons, sqNorm_append, ih]; rfl

theorem cost_ok (hC : GoodClasses C) {fs : List Factor} (hne : fs ≠ []) (hfs : ∀ f ∈ fs, FactorWF F C f) {g : Graph}
    (hG : GraphOf F C fs g) {vars : List Var} {val : Var → Value ℝ} {a : Assign ℝ} (h : Holds C fs vars val a)
    {w : Factor → List ℝ} (hw : ∀ f ∈ fs, whitenedAt F val f = .ok (w f)) :
    g.computeCost F C a = .ok ((fs.map fun f => sqNorm (w f)).sum, (evalOrder fs).flatMap w) := by
  obtain ⟨h1, _⟩ := residual_ok hC hfs hne hG h hw
  unfold Graph.computeCost
  rw [h1]
  simp only [py_bind_ok, py_pure]
  have := sqNorm_flatMap (evalOrder fs) w
  unfold sqNorm at this
  rw [this]
  have := ((groupedBy_perm kind fs).map fun f => sqNorm (w f)).sum_eq
  unfold evalOrder
  unfold sqNorm at this ⊢
  rw [this]

/-- **C16.** `compute_cost` returns the sum over all given factors of the squared norm of the factor's whitened residual at
the assigned values, together with the residual vector of C17. -/
theorem C16_cost_is_sum (hC : GoodClasses C) (fs : List Factor) (hne : fs ≠ []) (hfs : ∀ f ∈ fs, FactorWF F C f) :
    ∃ g, Graph.make C fs = .ok g ∧ ∀ vars val a, Holds C fs vars val a → ∃ w : Factor → List ℝ,
      (∀ f ∈ fs, whitenedAt F val f = .ok (w f)) ∧
      g.computeCost F C a = .ok ((fs.map fun f => sqNorm (w f)).sum, (evalOrder fs).flatMap w) := by
  obtain ⟨g, hg, hG⟩ := graph_ok (F := F) hfs hne
  refine ⟨g, hg, fun vars val a h => ?_⟩
  obtain ⟨w, hw⟩ := h.whitened hC hfs
  exact ⟨w, fun f hf => (hw f hf).1, cost_ok F C hC hne hfs hG h fun f hf => (hw f hf).1⟩

/-- Non-vacuity: the hypotheses hold for the example graph (see C17), whose cost is not zero. -/
example : ∃ g r, Graph.make Ex.C Ex.fs = .ok g ∧ g.computeCost Ex.F Ex.C Ex.a = .ok (324 + 225 + 256 + 10845, r) := by
  obtain ⟨g, hg, h⟩ := C16_cost_is_sum Ex.F Ex.C Ex.good Ex.fs (by simp [Ex.fs]) Ex.fs_wf
  obtain ⟨w, hw, h⟩ := h _ _ _ Ex.holds
  refine ⟨g, (evalOrder Ex.fs).flatMap w, hg, h.trans ?_⟩
  congr 2
  have e1 : w Ex.f1 = [18] := by
    have := hw Ex.f1 (by simp [Ex.fs])
    simp [whitenedAt, Ex.f1, Ex.F, Ex.val, Ex.flat, Ex.x, Factor.self, Value.flatten, Noise.whiten] at this
    simp only [Ex.f1, Ex.x]; rw [← this]; norm_num
  have e2 : w Ex.f2 = [15] := by
    have := hw Ex.f2 (by simp [Ex.fs])
    simp [whitenedAt, Ex.f2, Ex.F, Ex.val, Ex.flat, Ex.x, Ex.y, Factor.self, Value.flatten, Noise.whiten, einsumMatVec,
      Arr.at2] at this
    simp only [Ex.f2, Ex.x, Ex.y]; rw [← this]; norm_num
  have e3 : w Ex.f3 = [16] := by
    have := hw Ex.f3 (by simp [Ex.fs])
    simp [whitenedAt, Ex.f3, Ex.F, Ex.val, Ex.flat, Ex.x, Ex.y, Factor.self, Value.flatten, Noise.whiten] at this
    simp only [Ex.f3, Ex.y]; rw [← this]; norm_num
  have e4 : w Ex.f4 = [69, 78] := by
    have := hw Ex.f4 (by simp [Ex.fs])
    simp [whitenedAt, Ex.f4, Ex.F, Ex.val, Ex.flat, Ex.x, Ex.y, Ex.z, Factor.self, Value.flatten, Noise.whiten, einsumMatVec,
      Arr.at2, List.range_succ, Finset.sum_range_succ] at this
    simp only [Ex.f4, Ex.z]; rw [← this]; norm_num
  simp only [Ex.fs, List.map_cons, List.map_nil, e1, e2, e3, e4, sqNorm]
  norm_num

/-- **C18.** The cost depends neither on the order in which the factors are given nor on the storage order of the assignments:
two graphs made from permutations of one list of factors, evaluated at two assignments objects that give every variable the
same value, have the same cost. -/
theorem C18_order_independent (hC : GoodClasses C) (fs fs' : List Factor) (hp : fs.Perm fs') (hne : fs ≠ [])
    (hfs : ∀ f ∈ fs, FactorWF F C f) :
    ∃ g g', Graph.make C fs = .ok g ∧ Graph.make C fs' = .ok g' ∧
      ∀ vars vars' val a a', Holds C fs vars val a → Holds C fs vars' val a' →
        ∃ c r r', g.computeCost F C a = .ok (c, r) ∧ g'.computeCost F C a' = .ok (c, r') := by
  have hfs' : ∀ f ∈ fs', FactorWF F C f := fun f hf => hfs f (hp.mem_iff.2 hf)
  have hne' : fs' ≠ [] := by
    intro he; rw [he] at hp; exact hne hp.eq_nil
  obtain ⟨g, hg, hG⟩ := graph_ok (F := F) hfs hne
  obtain ⟨g', hg', hG'⟩ := graph_ok (F := F) hfs' hne'
  refine ⟨g, g', hg, hg', fun vars vars' val a a' h h' => ?_⟩
  obtain ⟨w, hw⟩ := h.whitened hC hfs
  have h'' : Holds C fs' vars' val a' := ⟨h'.assignment, h'.isGlobal, fun v => by
    rw [h'.sameVars]
    exact ⟨fun ⟨f, hf, hv⟩ => ⟨f, hp.mem_iff.1 hf, hv⟩, fun ⟨f, hf, hv⟩ => ⟨f, hp.mem_iff.2 hf, hv⟩⟩, h'.values⟩
  refine ⟨_, _, (evalOrder fs').flatMap w, cost_ok F C hC hne hfs hG h fun f hf => (hw f hf).1, ?_⟩
  rw [cost_ok F C hC hne' hfs' hG' h'' (w := w) fun f hf => (hw f (hp.mem_iff.2 hf)).1]
  rw [(hp.map fun f => sqNorm (w f)).sum_eq]

/-- Non-vacuity: a non-trivial permutation of the example factors, and the example assignments converted to another layout. -/
example : Ex.fs.Perm Ex.fs.reverse ∧ Ex.fs ≠ [] ∧ Holds Ex.C Ex.fs Ex.vars Ex.val Ex.a ∧
    ∃ a', Holds Ex.C Ex.fs [Ex.x, Ex.z, Ex.y] Ex.val a' ∧ a'.layout ≠ Ex.a.layout := by
  refine ⟨(List.reverse_perm _).symm, by simp [Ex.fs], Ex.holds, ?_⟩
  have hs : ∀ v, v ∈ Ex.vars ↔ v ∈ [Ex.x, Ex.z, Ex.y] := by intro v; simp [Ex.vars]; tauto
  obtain ⟨b, hb, hcase⟩ := Ex.rep.update (ws := [Ex.x, Ex.z, Ex.y]) (by decide) hs
  have hidx : ∀ us : List Var, (Layout.make Ex.C us false).indexFromVar.get? Ex.z =
      (Layout.make Ex.C us false).indexFromVar.get? Ex.z := fun _ => rfl
  have h1 : (Layout.make Ex.C Ex.vars false).indexFromVar.get? Ex.z = some 0 := rfl
  have h2 : (Layout.make Ex.C [Ex.x, Ex.z, Ex.y] false).indexFromVar.get? Ex.z = some 2 := by
    rw [make_index Ex.C (as := [Ex.x, Ex.y]) (bs := []) (by decide) false (by decide)]
    simp [total, dimOf, Ex.paramDim, Ex.x, Ex.y]
  rcases hcase with ⟨heq, _⟩ | ⟨_, hrep⟩
  · exfalso
    have := ((layoutEq_iff Ex.C (by decide) (by decide)).1 heq).2.2.1 Ex.z
    rw [h1, h2] at this
    simp at this
  · refine ⟨b, ⟨hrep.isAssignment, hrep.flag, fun v => ?_, fun v hv => ?_⟩, ?_⟩
    · rw [← hs, Ex.holds.sameVars]
    · rw [hrep.getValue_ok hv, Ex.val_eq ((hs v).2 hv)]
    · intro he
      rw [hrep.layout] at he
      have : (Layout.make Ex.C [Ex.x, Ex.z, Ex.y] false).indexFromVar.get? Ex.z = some 0 := by rw [he]; exact h1
      rw [h2] at this
      simp at this

/-! ### C23, C24 -/

/-- **C23.** `get_variables()` of a graph lists each variable that some factor connects to exactly once, and nothing else. -/
theorem C23_graph_variables (fs : List Factor) (hne : fs ≠ []) (hfs : ∀ f ∈ fs, FactorWF F C f) :
    ∃ g, Graph.make C fs = .ok g ∧ g.getVariables.Nodup ∧ (∀ v, v ∈ g.getVariables ↔ ∃ f ∈ fs, v ∈ f.vars) ∧
      g.layout.getVariables = g.getVariables := by
  obtain ⟨g, hg, hG⟩ := graph_ok (F := F) hfs hne
  have hs := variablesOf_spec fs
  have hv : g.getVariables = grouped (Graph.variablesOf fs) := by
    unfold Graph.getVariables; rw [hG.localLayout]; exact make_getVariables C hs.1 true
  refine ⟨g, hg, ?_, ?_, ?_⟩
  · rw [hv]; exact nodup_grouped hs.1
  · intro v; rw [hv, mem_grouped, hs.2]
  · rw [hv, hG.layout]; exact make_getVariables C hs.1 false

/-- A graph without factors cannot be made. -/
theorem C23_empty_raises : Graph.make C [] = .error .type := rfl

/-- **C24.** If the assignments object is local, or does not hold exactly the graph's variables, then `compute_cost` and the
residual vector raise `AssertionError`, for every factor table and all values: nothing is ever evaluated with another
variable's value. -/
theorem C24_rejects_wrong_variables (fs : List Factor) (hne : fs ≠ []) (hfs : ∀ f ∈ fs, FactorWF F C f) :
    ∃ g, Graph.make C fs = .ok g ∧ ∀ vars a, IsAssignmentOf C vars a →
      ¬ (a.layout.localFlag = false ∧ ∀ v, v ∈ vars ↔ ∃ f ∈ fs, v ∈ f.vars) →
      g.computeCost F C a = .error .assertion ∧ g.computeWhitenedResidualVector F C a = .error .assertion := by
  obtain ⟨g, hg, hG⟩ := graph_ok (F := F) hfs hne
  refine ⟨g, hg, fun vars a ha hnot => ?_⟩
  have hs := variablesOf_spec fs
  have h1 : a.updateStorageLayout C g.layout = .error .assertion := by
    rw [hG.layout]
    refine (C09_update_storage_layout C vars _ false a ha hs.1).2 fun h => hnot ⟨h.1, fun v => ?_⟩
    rw [h.2, hs.2]
  have h2 : g.computeWhitenedResidualVector F C a = .error .assertion := by
    unfold Graph.computeWhitenedResidualVector
    rw [h1]; rfl
  refine ⟨?_, h2⟩
  unfold Graph.computeCost
  rw [h2]; rfl

/-- Non-vacuity: an assignments object with one variable missing. -/
example : IsAssignmentOf Ex.C [Ex.x, Ex.y] ⟨[1, 2], Layout.make Ex.C [Ex.x, Ex.y] false⟩ ∧
    ¬ ∀ v, v ∈ [Ex.x, Ex.y] ↔ ∃ f ∈ Ex.fs, v ∈ f.vars := by
  refine ⟨⟨by decide, rfl, ?_⟩, ?_⟩
  · show _ = (Layout.make Ex.C [Ex.x, Ex.y] false).dim
    rw [make_dim Ex.C (by decide)]
    rw [show grouped [Ex.x, Ex.y] = [Ex.x, Ex.y] by decide]
    simp [total, dimOf, Ex.paramDim, Ex.x, Ex.y]
  · intro h
    have := (h Ex.z).2 ⟨Ex.f4, by simp [Ex.fs], by simp [Ex.f4]⟩
    revert this; decide

/-! ### C25: joint negative log-likelihood -/

/-- The precision matrix `WᵀW` of a Gaussian noise model. -/
noncomputable def precision (N : Noise) (n : Nat) : Matrix (Fin n) (Fin n) ℝ := (noiseMat N n n)ᵀ * noiseMat N n n

theorem logDetTerm_ok {N : Noise} {n : Nat} (hN : NoiseWF N n n) (hg : NoiseGaussian N) (hd : (noiseMat N n n).det ≠ 0) :
    Graph.logDetTerm N = .ok (Real.log ((precision N n)⁻¹).det) := by
  have key : -2 * Real.log |(noiseMat N n n).det| = Real.log ((precision N n)⁻¹).det := by
    unfold precision
    rw [Matrix.det_nonsing_inv, Matrix.det_mul, Matrix.det_transpose, Ring.inverse_eq_inv', Real.log_inv, Real.log_mul hd hd,
      Real.log_abs]
    ring
  cases N with
  | gaussian W =>
    have hs : W.shape = [n, n] := hN.1
    simp only [Graph.logDetTerm, Graph.arrDet, hs, if_true, py_bind_ok, py_pure]
    rw [← key]
    rfl
  | huber w δ => exact hg.elim
  | diagonal d =>
    rw [← key]
    have hdiag : noiseMat (.diagonal d) n n = Matrix.diagonal (vec d.data n) := by
      funext i j
      simp only [noiseMat, Matrix.diagonal_apply, Fin.ext_iff, vec]
    rw [hdiag, Matrix.det_diagonal]
    obtain ⟨⟨_, hl⟩, _⟩ := hN
    subst hl
    rw [← List.prod_ofFn]
    have : d.data = List.ofFn (vec d.data d.data.length) := by
      apply List.ext_getElem (by simp)
      intro i h1 h2
      rw [List.getElem_ofFn, vec_eq rfl]
    rw [← this]
    rfl

theorem stackLogDet_ok {layout : Layout} {pos : Var → Nat} {G : List Factor} {s : FactorStack} (hs : StackOf C layout pos G s)
    {t : Factor → ℝ} (ht : ∀ f ∈ G, Graph.logDetTerm f.noise = .ok (t f)) :
    Graph.stackLogDet s = .ok (G.map t).sum := by
  unfold Graph.stackLogDet
  rw [hs.num, mapM_range (g := t)]
  · rfl
  · intro n hn
    rw [hs.self n hn]
    exact ht _ (List.getElem_mem hn)

theorem sum_flatten_map {β : Type _} (L : List (List β)) (t : β → ℝ) : (L.map fun G => (G.map t).sum).sum = (L.flatten.map t).sum := by
  induction L with
  | nil => rfl
  | cons G L ih => simp [ih]

/-- **C25.** With Gaussian (full or diagonal) noise models of nonsingular precision, `compute_joint_nll` is the sum over the
factors of the squared Mahalanobis distance `rᵀ P r` of the factor's raw residual plus the log-determinant of the covariance
`P⁻¹`, where `P = WᵀW` is the factor's precision matrix. -/
theorem C25_joint_nll (hC : GoodClasses C) (fs : List Factor) (hne : fs ≠ []) (hfs : ∀ f ∈ fs, FactorWF F C f)
    (hg : ∀ f ∈ fs, NoiseGaussian f.noise) (hd : ∀ f ∈ fs, (noiseMat f.noise (rdim f) (rdim f)).det ≠ 0) :
    ∃ g, Graph.make C fs = .ok g ∧ ∀ vars val a, Holds C fs vars val a →
      g.computeJointNll F C a false = .ok (fs.map fun f =>
        vec ((F f.cls).residual f.self (f.vars.map val)) (rdim f) ⬝ᵥ precision f.noise (rdim f) *ᵥ
            vec ((F f.cls).residual f.self (f.vars.map val)) (rdim f) +
          Real.log ((precision f.noise (rdim f))⁻¹).det).sum := by
  obtain ⟨g, hgm, hG⟩ := graph_ok (F := F) hfs hne
  refine ⟨g, hgm, fun vars val a h => ?_⟩
  obtain ⟨w, hw⟩ := h.whitened hC hfs
  obtain ⟨h1, _⟩ := residual_ok hC hfs hne hG h fun f hf => (hw f hf).1
  unfold Graph.computeJointNll
  simp only [Bool.false_eq_true, if_false, h1, py_bind_ok, py_pure]
  rw [mapM_forall₂ hG.factorStacks (g := fun G => (G.map fun f => Real.log ((precision f.noise (rdim f))⁻¹).det).sum)]
  · simp only [py_bind_ok]
    have e1 := sqNorm_flatMap (evalOrder fs) w
    unfold sqNorm at e1
    rw [e1, sum_flatten_map, ← groupedBy_eq, ← evalOrder, ← List.sum_map_add]
    rw [((C17_every_factor_once fs).map _).sum_eq]
    congr 2
    apply List.map_congr_left
    intro f hf
    congr 1
    obtain ⟨u, h2, h3, h4⟩ := whiten_gaussian (hfs f hf).noise (hg f hf) ((hfs f hf).residual _ (h.valuesFor hC hf))
    have h5 := (hw f hf).1
    unfold whitenedAt at h5
    rw [h2] at h5
    cases h5
    have := sqNorm_eq h3
    unfold sqNorm at this
    rw [this, h4, precision, ← Matrix.mulVec_mulVec, Matrix.dotProduct_mulVec _ (noiseMat _ _ _)ᵀ, Matrix.vecMul_transpose]
  · intro G hGm s hs
    refine stackLogDet_ok C hs fun f hf => ?_
    have hf' := mem_groups_mem hGm f hf
    exact logDetTerm_ok (hfs f hf').noise (hg f hf') (hd f hf')

/-- For a noise model made from a covariance matrix `S`, the precision is `S⁻¹` and the covariance in C25 is `S`. -/
theorem C25_covariance (n : Nat) (S : Arr ℝ) (hS : IsMat S n n) (hpos : (arrMat S n n).PosDef) :
    ∃ N, Noise.gaussianFromCovariance S = .ok N ∧ NoiseWF N n n ∧ NoiseGaussian N ∧ (noiseMat N n n).det ≠ 0 ∧
      precision N n = (arrMat S n n)⁻¹ ∧ (precision N n)⁻¹ = arrMat S n n := by
  have hc := cholesky_spec hpos
  refine ⟨.gaussian (.ofMat (cholesky (arrMat S n n))⁻¹), ?_, isMat_ofMat _, trivial, ?_, ?_⟩
  · simp only [Noise.gaussianFromCovariance, hS.1, if_true]
    rfl
  · simp only [noiseMat, arrMat_ofMat]
    rw [Matrix.det_nonsing_inv, Ring.inverse_eq_inv']
    exact inv_ne_zero ((Matrix.isUnit_iff_isUnit_det _).1 hc.isUnit).ne_zero
  · have : precision (.gaussian (.ofMat (cholesky (arrMat S n n))⁻¹)) n = (arrMat S n n)⁻¹ := by
      simp only [precision, noiseMat, arrMat_ofMat]
      rw [← congrArg (·⁻¹) hc.mul_self]
      simp only [Matrix.mul_inv_rev, Matrix.transpose_nonsing_inv]
    refine ⟨this, ?_⟩
    rw [this, Matrix.nonsing_inv_nonsing_inv]
    exact (Matrix.isUnit_iff_isUnit_det _).1 hpos.isUnit

/-- `include_constants=True` is not implemented. -/
theorem C25_constants_not_implemented (g : Graph) (a : Assign ℝ) : g.computeJointNll F C a true = .error .notImplemented := rfl

theorem mapM_assertion {β γ : Type} {f : β → Py γ} {l : List β} (h : ∀ x ∈ l, (∃ y, f x = .ok y) ∨ f x = .error .assertion)
    (hx : ∃ x ∈ l, f x = .error .assertion) : l.mapM f = .error .assertion := by
  induction l with
  | nil => obtain ⟨x, hx, _⟩ := hx; cases hx
  | cons a l ih =>
    rw [List.mapM_cons]
    rcases h a (by simp) with ⟨y, hy⟩ | he
    · obtain ⟨x, hm, hx⟩ := hx
      rcases List.mem_cons.1 hm with rfl | hm
      · rw [hx] at hy; cases hy
      · rw [hy, ih (fun x hx => h x (by simp [hx])) ⟨x, hm, hx⟩]; rfl
    · rw [he]; rfl

theorem mapM_total {β γ : Type} {f : β → Py γ} {l : List β} (h : ∀ x ∈ l, (∃ y, f x = .ok y) ∨ f x = .error .assertion) :
    (∃ ys, l.mapM f = .ok ys) ∨ l.mapM f = .error .assertion := by
  by_cases hx : ∃ x ∈ l, f x = .error .assertion
  · exact .inr (mapM_assertion h hx)
  · push Not at hx
    left
    have : ∀ x ∈ l, ∃ y, f x = .ok y := fun x hm => (h x hm).resolve_right (hx x hm)
    clear hx h
    induction l with
    | nil => exact ⟨[], rfl⟩
    | cons a l ih =>
      obtain ⟨y, hy⟩ := this a (by simp)
      obtain ⟨ys, hys⟩ := ih fun x hm => this x (by simp [hm])
      exact ⟨y :: ys, by rw [List.mapM_cons, hy, hys]; rfl⟩

/-- **C25, Huber.** `compute_joint_nll` raises if some factor's noise model is a Huber wrapper. -/
theorem C25_huber_raises (hC : GoodClasses C) (fs : List Factor) (hfs : ∀ f ∈ fs, FactorWF F C f)
    (hh : ∃ f ∈ fs, ¬ NoiseGaussian f.noise) :
    ∃ g, Graph.make C fs = .ok g ∧ ∀ vars val a, Holds C fs vars val a →
      g.computeJointNll F C a false = .error .assertion := by
  obtain ⟨f₁, hf₁, hn₁⟩ := hh
  have hne : fs ≠ [] := List.ne_nil_of_mem hf₁
  obtain ⟨g, hgm, hG⟩ := graph_ok (F := F) hfs hne
  refine ⟨g, hgm, fun vars val a h => ?_⟩
  obtain ⟨w, hw⟩ := h.whitened hC hfs
  obtain ⟨h1, _⟩ := residual_ok hC hfs hne hG h fun f hf => (hw f hf).1
  have hterm : ∀ f ∈ fs, (∃ y, Graph.logDetTerm f.noise = .ok y) ∨ Graph.logDetTerm f.noise = .error .assertion := by
    intro f hf
    have hN := (hfs f hf).noise
    revert hN
    cases f.noise with
    | gaussian W =>
      intro hN
      left
      have hs : W.shape = [rdim f, rdim f] := hN.1
      simp [Graph.logDetTerm, Graph.arrDet, hs]
    | diagonal d => exact fun _ => .inl ⟨_, rfl⟩
    | huber w δ => exact fun _ => .inr rfl
  have hbad : Graph.logDetTerm f₁.noise = .error .assertion := by
    cases hN : f₁.noise with
    | gaussian W => rw [hN] at hn₁; exact absurd trivial hn₁
    | diagonal W => rw [hN] at hn₁; exact absurd trivial hn₁
    | huber w δ => rfl
  have hstack : ∀ G s, G ∈ groups kind fs →
      StackOf C (Layout.make C (Graph.variablesOf fs) false) (posIn (Layout.make C (Graph.variablesOf fs) false)) G s →
      ((∃ y, Graph.stackLogDet s = .ok y) ∨ Graph.stackLogDet s = .error .assertion) ∧
      (f₁ ∈ G → Graph.stackLogDet s = .error .assertion) := by
    intro G s hGm hs
    have hall : ∀ n ∈ List.range s.numFactors, (∃ y, (do let self ← s.selfAt n; Graph.logDetTerm self.noise : Py ℝ) = .ok y) ∨
        (do let self ← s.selfAt n; Graph.logDetTerm self.noise : Py ℝ) = .error .assertion := by
      intro n hn
      rw [List.mem_range, hs.num] at hn
      rw [hs.self n hn]
      exact hterm _ (mem_groups_mem hGm _ (List.getElem_mem hn))
    constructor
    · unfold Graph.stackLogDet
      rcases mapM_total hall with ⟨ys, hys⟩ | he
      · left; rw [hys]; exact ⟨_, rfl⟩
      · right; rw [he]; rfl
    · intro hfG
      obtain ⟨n, hn, hfn⟩ := List.getElem_of_mem hfG
      unfold Graph.stackLogDet
      rw [mapM_assertion hall ⟨n, by rw [List.mem_range, hs.num]; exact hn, ?_⟩]
      · rfl
      · rw [hs.self n hn, hfn]
        exact hbad
  unfold Graph.computeJointNll
  simp only [Bool.false_eq_true, if_false, h1, py_bind_ok, py_pure]
  rw [mapM_assertion]
  · rfl
  · intro s hsm
    obtain ⟨i, hi, rfl⟩ := List.getElem_of_mem hsm
    have hl := hG.factorStacks.length_eq
    exact (hstack _ _ (List.getElem_mem (by omega)) (List.forall₂_iff_get.1 hG.factorStacks |>.2 i (by omega) hi)).1
  · have : f₁ ∈ (groups kind fs).flatten := by rw [← groupedBy_eq]; exact mem_groupedBy.2 hf₁
    obtain ⟨G, hGm, hfG⟩ := List.mem_flatten.1 this
    obtain ⟨i, hi, rfl⟩ := List.getElem_of_mem hGm
    have hl := hG.factorStacks.length_eq
    exact ⟨g.factorStacks[i], List.getElem_mem _,
      (hstack _ _ hGm (List.forall₂_iff_get.1 hG.factorStacks |>.2 i hi (by omega))).2 hfG⟩

/-- The example graph has nonsingular Gaussian noise. -/
theorem exGaussian_nonsingular : (∀ f ∈ Ex.fs, NoiseGaussian f.noise) ∧
    ∀ f ∈ Ex.fs, (noiseMat f.noise (rdim f) (rdim f)).det ≠ 0 := by
  refine ⟨?_, ?_⟩
  · intro f hf
    simp only [Ex.fs, List.mem_cons, List.not_mem_nil, or_false] at hf
    rcases hf with rfl | rfl | rfl | rfl <;> trivial
  · intro f hf
    simp only [Ex.fs, List.mem_cons, List.not_mem_nil, or_false] at hf
    rcases hf with rfl | rfl | rfl | rfl
    · show (noiseMat (.diagonal ⟨[1], [2]⟩) 1 1).det ≠ 0
      rw [Matrix.det_fin_one]; simp [noiseMat]
    · show (noiseMat (.gaussian ⟨[1, 1], [3]⟩) 1 1).det ≠ 0
      simp [noiseMat, arrMat]
    · show (noiseMat (.diagonal ⟨[1], [1]⟩) 1 1).det ≠ 0
      rw [Matrix.det_fin_one]; simp [noiseMat]
    · show (noiseMat (.gaussian ⟨[2, 2], [1, 1, 0, 2]⟩) 2 2).det ≠ 0
      rw [Matrix.det_fin_two]
      simp [noiseMat, arrMat]

/-- Non-vacuity of C25: the example graph has nonsingular Gaussian noise; with a fifth factor it has Huber noise. -/
example : (∀ f ∈ Ex.fs, NoiseGaussian f.noise) ∧ (∀ f ∈ Ex.fs, (noiseMat f.noise (rdim f) (rdim f)).det ≠ 0) ∧
    (∀ f ∈ Ex.fsHuber, FactorWF Ex.F Ex.C f) ∧ (∃ f ∈ Ex.fsHuber, ¬ NoiseGaussian f.noise) ∧
    Holds Ex.C Ex.fsHuber Ex.vars Ex.val Ex.a :=
  ⟨exGaussian_nonsingular.1, exGaussian_nonsingular.2, Ex.fsHuber_wf,
    ⟨Ex.f5, by simp [Ex.fsHuber], by simp [Ex.f5, NoiseGaussian]⟩, Ex.holdsHuber⟩

/-! ### C58: value tuples -/

theorem checkHints_error {β : Type _} {tyOf : β → Nat} {values : List β} {cs : List TyHint}
    (h : ¬ List.Forall₂ (fun t c => c t = true) (values.map tyOf) cs) : checkHints tyOf values cs = .error .assertion := by
  unfold checkHints
  by_cases hl : values.length = cs.length
  · have : ((values.zip cs).all fun p => p.2 (tyOf p.1)) = false := by
      rw [← Bool.not_eq_true]
      intro hall
      apply h
      rw [List.forall₂_map_left_iff, List.forall₂_iff_zip]
      refine ⟨hl, fun {a b} hm => ?_⟩
      rw [List.all_eq_true] at hall
      exact hall _ hm
    simp [hl, this]
  · simp [hl]

/-- **C58.** `build_variable_value_tuple` on a tuple of values: if the hinted types and arity fit it returns exactly the given
values in order, wrapped in the named tuple class iff the hint is one; it raises otherwise (`NotImplementedError` without a
hint, `TypeError` for a named tuple of the wrong arity, `AssertionError` for other misfits). -/
theorem C58_value_tuple {β : Type _} (hint : Option Hint) (tyOf : β → Nat) (values : List β) :
    (HintAccepts hint (values.map tyOf) →
      buildVariableValueTuple hint tyOf values =
        .ok (match hint with | some (.named _) => .named values | _ => .plain values)) ∧
    (¬ HintAccepts hint (values.map tyOf) →
      buildVariableValueTuple hint tyOf values = .error (match hint with
        | none => .notImplemented
        | some (.named cs) => if values.length = cs.length then .assertion else .type
        | _ => .assertion)) := by
  have key : ∀ c : TyHint, List.Forall₂ (fun t (c : TyHint) => c t = true) (values.map tyOf) (List.replicate values.length c) ↔
      ∀ t ∈ values.map tyOf, c t = true := by
    intro c
    rw [List.forall₂_iff_get]
    constructor
    · rintro ⟨_, h⟩ t ht
      obtain ⟨i, hi, rfl⟩ := List.getElem_of_mem ht
      have := h i hi (by simpa using hi)
      simpa using this
    · intro h
      refine ⟨by simp, ?_⟩
      intro i h1 h2
      have := h _ (List.getElem_mem h1)
      simpa using this
  constructor
  · intro h
    unfold buildVariableValueTuple
    match hint, h with
    | some (.named cs), h =>
      have hl : values.length = cs.length := by simpa using h.length_eq
      simp [hl, checkHints_ok h]
    | some (.tuple cs), h => simp [checkHints_ok h]
    | some (.ellipsis c), h => simp [checkHints_ok ((key c).2 h)]
  · intro h
    unfold buildVariableValueTuple
    match hint, h with
    | none, _ => rfl
    | some (.named cs), h =>
      by_cases hl : values.length = cs.length
      · simp only [hl]
        have : checkHints tyOf values cs = .error .assertion := checkHints_error h
        simp [this]
      · simp [hl]
    | some (.tuple cs), h => simp [checkHints_error (show ¬ _ from h)]
    | some (.ellipsis c), h => simp [checkHints_error (mt (key c).1 h)]

/-- Non-vacuity of C58: hints of all three forms that fit, and one of each that does not. -/
example : let isPose : TyHint := fun t => t == 7
    let isVec : TyHint := fun t => t == 0
    HintAccepts (some (.named [isPose, isVec])) [7, 0] ∧ ¬ HintAccepts (some (.named [isPose, isVec])) [0, 7] ∧
    HintAccepts (some (.tuple [isVec])) [0] ∧ ¬ HintAccepts (some (.tuple [isVec])) [0, 0] ∧
    HintAccepts (some (.ellipsis isVec)) [0, 0, 0] ∧ ¬ HintAccepts (some (.ellipsis isVec)) [0, 7] := by
  simp [HintAccepts]

/-! ### C59: grouping -/

/-- The stack `s` holds exactly the factors `G`, in order: same class and variable classes, and slice `n` of the stacked
arrays (what `vmap` passes to the factor's methods) is the `n`-th factor's noise model and array fields. -/
def HoldsFactors (s : FactorStack) (G : List Factor) : Prop :=
  s.numFactors = G.length ∧ ∀ (n : Nat) (hn : n < G.length),
    s.cls = G[n].cls ∧ s.types = G[n].vars.map (·.ty) ∧
    s.selfAt n = .ok ⟨G[n].vars.map (·.ty), G[n].noise, G[n].params⟩

/-- **C59.** For every non-empty list of well-formed factors, making the graph succeeds; the stacks hold a partition of the
factors (a permutation of the input, cut into non-empty pieces), two factors are in one piece iff they agree in class and
static fields, variable classes, noise structure and leaf shapes. -/
theorem C59_grouping (fs : List Factor) (hne : fs ≠ []) (hfs : ∀ f ∈ fs, FactorWF F C f) :
    ∃ g Gs, Graph.make C fs = .ok g ∧ List.Forall₂ HoldsFactors g.factorStacks Gs ∧
      Gs.flatten.Perm fs ∧ [] ∉ Gs ∧ (∀ G ∈ Gs, ∀ f ∈ G, ∀ f' ∈ G, kind f = kind f') ∧
      Gs.Pairwise (fun G G' => ∀ f ∈ G, ∀ f' ∈ G', kind f ≠ kind f') := by
  obtain ⟨g, hg, hG⟩ := graph_ok (F := F) hfs hne
  refine ⟨g, groups kind fs, hg, ?_, ?_, ?_, ?_, ?_⟩
  · refine (hG.factorStacks.imp ?_).flip
    intro G s hs
    refine ⟨hs.num, fun n hn => ⟨(hs.cls _ (List.getElem_mem hn)).symm, (hs.types _ (List.getElem_mem hn)).symm, hs.self n hn⟩⟩
  · rw [← groupedBy_eq]; exact groupedBy_perm kind fs
  · intro h; exact mem_groups_nonempty h rfl
  · intro G hGm; exact mem_groups_key hGm
  · unfold groups
    rw [List.pairwise_map]
    refine (List.Pairwise.imp ?_ (nodup_firstKeys (key := kind) (xs := fs)))
    intro k k' hk f hf f' hf'
    simp only [List.mem_filter, decide_eq_true_eq] at hf hf'
    rw [hf.2, hf'.2]; exact hk

/-- Non-vacuity of C59: the example has two factors of one kind that are not adjacent, and factors of other kinds. -/
example : kind Ex.f1 = kind Ex.f3 ∧ kind Ex.f1 ≠ kind Ex.f2 ∧ kind Ex.f1 ≠ kind Ex.f4 ∧ kind Ex.f4 ≠ kind Ex.f5 := by
  simp [kind, Ex.f1, Ex.f2, Ex.f3, Ex.f4, Ex.f5, Noise.treedef, Noise.leaves, Ex.x, Ex.y, Ex.z]

end Jaxfg.Props
