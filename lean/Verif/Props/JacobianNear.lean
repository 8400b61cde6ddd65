/-
The Jacobian of a factor graph near a point (jaxfg/core/_stacked_factor_graph.py): for C127.
-/
import Verif.Props.LocalMin

namespace Jaxfg.Props
open Spec Filter Topology
open Matrix hiding vec

section
variable {F : Nat → FactorClass} {C : Ty → VarClass ℝ}

/-- The Jacobians that the factor class computes depend continuously on the deltas of its variables, at zero. -/
def JacobiansContinuous (F : Nat → FactorClass) (C : Ty → VarClass ℝ) (f : Factor) (vals : List (Value ℝ)) : Prop :=
  ∀ i : Fin f.vars.length, ContinuousAt (fun x : Deltas C f.vars =>
    arrMat (((F f.cls).jacobians f.self (movedBy C f.vars vals x)).getD i ⟨[], []⟩) (rdim f) (C (f.vars.get i).ty).localDim) 0

/-- The delta of a variable of a factor, in a delta of the whole graph. -/
theorem block_deltas {fs : List Factor} {g : Graph} (hG : GraphOf F C fs g) {f : Factor} (hf : f ∈ fs)
    (d : Fin g.localLayout.dim → ℝ) (i : Fin f.vars.length) :
    block C ⟨List.ofFn d, g.localLayout⟩ (f.vars.get i) = List.ofFn (deltasL C g.localLayout g.localLayout.dim f.vars d i) := by
  have hs := variablesOf_spec fs
  have hδ : IsAssignmentOf C (Graph.variablesOf fs) ⟨List.ofFn d, g.localLayout⟩ := by
    refine ⟨hs.1, ?_, by simp⟩
    simp only [hG.localLayout, make_localFlag]
  obtain ⟨q, hq⟩ := exists_rep hδ
  have hm := mem_variablesOf hf (List.get_mem f.vars i)
  obtain ⟨p, hp, -, -⟩ := hq.index hm
  have hlen : (block C ⟨List.ofFn d, g.localLayout⟩ (f.vars.get i)).length = (C (f.vars.get i).ty).localDim := by
    rw [hq.block_eq hm, hq.len _ hm]
    simp [hG.localLayout, make_localFlag, dimOf]
  apply List.ext_getElem (by rw [hlen, List.length_ofFn])
  intro j h1 h2
  have hj : j < (C (f.vars.get i).ty).localDim := by simpa using h2
  simp only [List.getElem_ofFn]
  show _ = windowL _ _ j d
  rw [windowL_eq]
  have hp' : g.localLayout.indexFromVar.get? (f.vars.get i) = some p := hp
  rw [hp', Option.getD_some]
  unfold block at h1 ⊢
  simp only [hp'] at h1 ⊢
  rw [List.getElem_take, List.getElem_drop, List.getD_eq_getElem]

/-- The values of a factor's variables after a retraction of the graph's variables. -/
theorem moved_deltas {fs : List Factor} {g : Graph} (hG : GraphOf F C fs g) {f : Factor} (hf : f ∈ fs) (val : Var → Value ℝ)
    (d : Fin g.localLayout.dim → ℝ) :
    f.vars.map (fun v => (C v.ty).retract (val v) (block C ⟨List.ofFn d, g.localLayout⟩ v)) =
      movedBy C f.vars (f.vars.map val) (deltasL C g.localLayout g.localLayout.dim f.vars d) := by
  unfold movedBy
  apply List.ext_getElem (by simp)
  intro i hi1 hi2
  have hi : i < f.vars.length := by simpa using hi1
  simp only [List.getElem_map, List.getElem_ofFn]
  rw [← block_deltas hG hf d ⟨i, hi⟩]
  simp [hi]

/-- An entry of the graph's Jacobian, if the noise models are Gaussian: which factor and which row of it is meant does not depend on
the values. -/
theorem jacobian_entry (hC : GoodClasses C) {fs : List Factor} (hne : fs ≠ []) (hfs : ∀ f ∈ fs, FactorWF F C f)
    (hgauss : ∀ f ∈ fs, NoiseGaussian f.noise) {g : Graph} (hG : GraphOf F C fs g) (hg : Graph.make C fs = .ok g)
    (k : Fin g.residualDim) (j : Fin g.localLayout.dim) :
    ∃ f ∈ fs, ∃ r : Fin (rdim f), ∀ vars val a (ρ : Factor → List ℝ) A, Holds C fs vars val a → (∀ f ∈ fs, (ρ f).length = rdim f) →
      g.computeWhitenedResidualJacobian F C a ((evalOrder fs).flatMap ρ) = .ok A →
      CooWF A ∧ A.shape = (g.residualDim, g.localLayout.dim) ∧
      cooMatrix A g.residualDim g.localLayout.dim k j = (noiseMat f.noise (rdim f) (rdim f) *ᵥ ∑ i : Fin f.vars.length,
        arrMat (((F f.cls).jacobians f.self (f.vars.map val)).getD i ⟨[], []⟩) (rdim f) (C (f.vars.get i).ty).localDim *ᵥ
          deltasL C g.localLayout g.localLayout.dim f.vars (Pi.single j 1) i) r := by
  obtain ⟨pre, f, post, r, he, hr, hk⟩ := exists_split_total (evalOrder fs) rdim k (by rw [← hG.residualDim]; exact k.2)
  have hf : f ∈ fs := mem_groupedBy.1 (show f ∈ evalOrder fs by rw [he]; simp)
  have hpre : ∀ f' ∈ pre, f' ∈ fs := fun f' h' => mem_groupedBy.1 (show f' ∈ evalOrder fs by rw [he]; simp [h'])
  have hcomp : ∀ z : Factor → List ℝ, (∀ f ∈ fs, (z f).length = rdim f) →
      Spec.vec ((evalOrder fs).flatMap z) g.residualDim k = Spec.vec (z f) (rdim f) ⟨r, hr⟩ := by
    intro z hz
    unfold Spec.vec
    rw [he, List.flatMap_append, List.flatMap_cons, hk,
      List.getD_append_right _ _ _ _ (by rw [length_flatMap_blocks fun f hf => hz f (hpre f hf)]; omega),
      length_flatMap_blocks (dim := rdim) fun f hf => hz f (hpre f hf), Nat.add_sub_cancel_left,
      List.getD_append _ _ _ _ (by rw [hz f hf]; exact hr)]
  refine ⟨f, hf, ⟨r, hr⟩, fun vars val a ρ A h hρ hA => ?_⟩
  obtain ⟨g', hg', hall⟩ := C20_jacobian_product F C hC fs hne hfs
  rw [hg] at hg'
  cases hg'
  obtain ⟨A', R, hA', hsh, hR, hprod⟩ := hall vars val a h ρ hρ
  rw [hA] at hA'
  cases hA'
  have hwf : CooWF A := by
    obtain ⟨A', h1, h2, -⟩ := jacobian_ok hC hfs hne hG h hρ (fun f hf => (hR f hf).1)
    rw [hA] at h1
    cases h1
    exact h2
  refine ⟨hwf, hsh, ?_⟩
  obtain ⟨d, hd⟩ : ∃ d : Fin g.localLayout.dim → ℝ, d = Pi.single j 1 := ⟨_, rfl⟩
  obtain ⟨u, hu, hud⟩ := hprod (List.ofFn d) (by simp)
  obtain ⟨y, hy, -, hyv⟩ := C31_matmul A hwf (List.ofFn d) (by rw [hsh]; simp)
  rw [hu] at hy
  cases hy
  rw [hsh] at hyv
  have hdv : Spec.vec (List.ofFn d) g.localLayout.dim = d := by
    funext i
    simp [Spec.vec]
  simp only [hdv] at hyv
  have h1 : Spec.vec (u f) (rdim f) ⟨r, hr⟩ = (cooMatrix A g.residualDim g.localLayout.dim *ᵥ d) k := by
    rw [← hyv]
    exact (hcomp u fun f hf => (hud f hf).1).symm
  rw [(hud f hf).2, applyBlocks_whitened (hfs f hf) (hgauss f hf) (hρ f hf) (block C ⟨List.ofFn d, g.localLayout⟩) f.vars _ (R f)
    ((hfs f hf).jacobians _ (h.valuesFor hC hf)) (hR f hf).1,
    zip3_sum _ _ ((hfs f hf).jacobians _ (h.valuesFor hC hf)).length_eq] at h1
  have h2 : (cooMatrix A g.residualDim g.localLayout.dim *ᵥ d) k = cooMatrix A g.residualDim g.localLayout.dim k j := by
    rw [hd, mulVec_single_one]
    rfl
  rw [← h2, ← h1, ← hd]
  refine congrArg (fun z => (noiseMat f.noise (rdim f) (rdim f) *ᵥ z) ⟨r, hr⟩) ?_
  refine Finset.sum_congr rfl fun i _ => ?_
  congr 1
  rw [block_deltas hG hf d i]
  funext j
  simp [Spec.vec]

/-- Near a point where the Jacobians of all factors are total derivatives and continuous, the graph has residuals that the Jacobian
predicts to first order, and a Jacobian near the one at the point. -/
theorem jacobian_near (hC : GoodClasses C) {fs : List Factor} (hne : fs ≠ []) (hfs : ∀ f ∈ fs, FactorWF F C f)
    (hgauss : ∀ f ∈ fs, NoiseGaussian f.noise) {g : Graph} (hg : Graph.make C fs = .ok g) {vars : List Var}
    {val : Var → Value ℝ} {a : Assign ℝ} (h : Holds C fs vars val a) (hlay : a.layout = g.layout)
    (hzero : ∀ v ∈ vars, (C v.ty).retract (val v) (List.replicate (C v.ty).localDim 0) = val v)
    (htot : ∀ f ∈ fs, JacobiansTotal F C f (f.vars.map val)) (hcont : ∀ f ∈ fs, JacobiansContinuous F C f (f.vars.map val))
    {r₀ : List ℝ} {A₀ : Coo ℝ} (hcost : g.computeCost F C a = .ok (0, r₀)) (hA₀ : g.computeWhitenedResidualJacobian F C a r₀ = .ok A₀) :
    CooWF A₀ ∧ A₀.shape = (g.residualDim, g.localLayout.dim) ∧
    ∃ (b : (Fin g.localLayout.dim → ℝ) → Assign ℝ) (c : (Fin g.localLayout.dim → ℝ) → ℝ) (r : (Fin g.localLayout.dim → ℝ) → List ℝ)
      (A : (Fin g.localLayout.dim → ℝ) → Coo ℝ),
      (∀ d, a.manifoldRetract C ⟨List.ofFn d, g.localLayout⟩ = .ok (b d) ∧ (b d).layout = g.layout ∧
        g.computeCost F C (b d) = .ok (c d, r d) ∧ (r d).length = g.residualDim ∧
        g.computeWhitenedResidualJacobian F C (b d) (r d) = .ok (A d) ∧ CooWF (A d) ∧
        (A d).shape = (g.residualDim, g.localLayout.dim)) ∧
      HasFDerivAt (fun d => Spec.vec (r d) g.residualDim) (mulVecL (cooMatrix A₀ g.residualDim g.localLayout.dim)) 0 ∧
      Spec.vec (r 0) g.residualDim = 0 ∧
      ∀ k j, Tendsto (fun d => cooMatrix (A d) g.residualDim g.localLayout.dim k j) (𝓝 0)
        (𝓝 (cooMatrix A₀ g.residualDim g.localLayout.dim k j)) := by
  obtain ⟨g', hg', hG⟩ := graph_ok (F := F) hfs hne
  rw [hg] at hg'
  cases hg'
  obtain ⟨g', hg', hall⟩ := C21_total_derivative F C hC fs hne hfs hgauss
  rw [hg] at hg'
  cases hg'
  obtain ⟨w, hw⟩ := h.whitened hC hfs
  have hcost' := cost_ok F C hC hne hfs hG h fun f hf => (hw f hf).1
  rw [hcost] at hcost'
  have hr := congrArg Prod.snd (Except.ok.inj hcost')
  simp only at hr
  rw [hr] at hA₀
  obtain ⟨A', b, res, hA', hsh, hres, hder⟩ := hall vars val a h hlay htot w fun f hf => (hw f hf).2
  rw [hA₀] at hA'
  cases hA'
  have hcd : ∀ d, g.computeCost F C (b d) = .ok (sqNorm (res d), res d) := by
    intro d
    unfold Graph.computeCost
    rw [(hres d).2.1]
    rfl
  have hzero' : Spec.vec (res 0) g.residualDim = 0 :=
    exact_fit hC hfs hne hG h hlay hzero hcost (fun d => (hres d).1) hcd (hres 0).2.2
  have hretr := fun d : Fin g.localLayout.dim → ℝ => holds_retract hC hG h hlay (d := List.ofFn d) (by simp)
  choose b' hb1 hb2 hb3 using hretr
  obtain rfl : b' = b := funext fun d => by
    have := hb1 d
    rw [(hres d).1] at this
    exact (Except.ok.inj this).symm
  have hwh := fun d => (hb3 d).whitened hC hfs
  choose w' hw' using hwh
  have hrw : ∀ d, res d = (evalOrder fs).flatMap (w' d) := by
    intro d
    have h1 := cost_ok F C hC hne hfs hG (hb3 d) fun f hf => (hw' d f hf).1
    rw [hcd] at h1
    exact congrArg Prod.snd (Except.ok.inj h1)
  have hjac : ∀ d, ∃ A, g.computeWhitenedResidualJacobian F C (b' d) (res d) = .ok A ∧ CooWF A ∧
      A.shape = (g.residualDim, g.localLayout.dim) := by
    intro d
    have : ∀ f, ∃ R, f ∈ fs → whitenedJacobiansAt F (fun v => (C v.ty).retract (val v) (block C ⟨List.ofFn d, g.localLayout⟩ v)) f
        (w' d f) = .ok R := by
      intro f
      by_cases hf : f ∈ fs
      · obtain ⟨R, h1, _⟩ := whitenedJacobians_ok (hfs f hf) ((hb3 d).valuesFor hC hf) (hw' d f hf).2
        exact ⟨R, fun _ => h1⟩
      · exact ⟨[], fun h => absurd h hf⟩
    choose R hR using this
    obtain ⟨A, h1, h2, h3, -⟩ := jacobian_ok hC hfs hne hG (hb3 d) (fun f hf => (hw' d f hf).2) hR
    exact ⟨A, by rw [hrw]; exact h1, h2, h3⟩
  choose A hA using hjac
  refine ⟨?_, hsh, b', fun d => sqNorm (res d), res, A, fun d => ⟨(hres d).1, hb2 d, hcd d, (hres d).2.2, hA d⟩, hder, hzero', ?_⟩
  · have : ∀ f, ∃ R, f ∈ fs → whitenedJacobiansAt F val f (w f) = .ok R := by
      intro f
      by_cases hf : f ∈ fs
      · obtain ⟨R, h1, _⟩ := whitenedJacobians_ok (hfs f hf) (h.valuesFor hC hf) (hw f hf).2
        exact ⟨R, fun _ => h1⟩
      · exact ⟨[], fun h => absurd h hf⟩
    choose R hR using this
    obtain ⟨A', h1, h2, -⟩ := jacobian_ok hC hfs hne hG h (fun f hf => (hw f hf).2) hR
    rw [hA₀] at h1
    cases h1
    exact h2
  · intro k j
    obtain ⟨f, hf, s, hent⟩ := jacobian_entry hC hne hfs hgauss hG hg k j
    rw [(hent vars val a w A₀ h (fun f hf => (hw f hf).2) hA₀).2.2]
    have hd : ∀ d, cooMatrix (A d) g.residualDim g.localLayout.dim k j = _ := fun d =>
      (hent _ _ (b' d) (w' d) (A d) (hb3 d) (fun f hf => (hw' d f hf).2) (by rw [← hrw]; exact (hA d).1)).2.2
    simp only [hd, moved_deltas hG hf val]
    have h0 : movedBy C f.vars (f.vars.map val) 0 = f.vars.map val := by
      unfold movedBy
      apply List.ext_getElem (by simp)
      intro i hi1 hi2
      have hi : i < f.vars.length := by simpa using hi1
      have hv : f.vars[i] ∈ vars := (h.sameVars _).2 ⟨f, hf, List.getElem_mem hi⟩
      have e := hzero _ hv
      simp only [List.getElem_ofFn, List.getElem_map]
      have e0 : List.ofFn ((0 : Deltas C f.vars) ⟨i, hi⟩) = List.replicate (C (f.vars[i]).ty).localDim 0 := by
        show List.ofFn (fun _ => (0 : ℝ)) = _
        rw [List.ofFn_const]
        rfl
      have e1 : (f.vars.map val).getD i ⟨0, []⟩ = val f.vars[i] := by
        rw [List.getD_eq_getElem _ _ (by simpa using hi), List.getElem_map]
      show (C (f.vars.get ⟨i, hi⟩).ty).retract ((f.vars.map val).getD i ⟨0, []⟩) _ = _
      rw [e0, e1]
      exact e
    have hsum : Tendsto (fun d : Fin g.localLayout.dim → ℝ => ∑ i : Fin f.vars.length,
        arrMat (((F f.cls).jacobians f.self (movedBy C f.vars (f.vars.map val)
          (deltasL C g.localLayout g.localLayout.dim f.vars d))).getD i ⟨[], []⟩) (rdim f) (C (f.vars.get i).ty).localDim *ᵥ
          deltasL C g.localLayout g.localLayout.dim f.vars (Pi.single j 1) i) (𝓝 0)
        (𝓝 (∑ i : Fin f.vars.length, arrMat (((F f.cls).jacobians f.self (f.vars.map val)).getD i ⟨[], []⟩) (rdim f)
          (C (f.vars.get i).ty).localDim *ᵥ deltasL C g.localLayout g.localLayout.dim f.vars (Pi.single j 1) i)) := by
      refine tendsto_finsetSum _ fun i _ => ?_
      have h1 := hcont f hf i
      unfold ContinuousAt at h1
      beta_reduce at h1
      rw [h0] at h1
      have h2 : Tendsto (deltasL C g.localLayout g.localLayout.dim f.vars) (𝓝 0) (𝓝 0) := by
        have := (deltasL C g.localLayout g.localLayout.dim f.vars).continuous.tendsto 0
        rwa [map_zero] at this
      have h3 := h1.comp h2
      have h4 : Continuous fun M : Matrix (Fin (rdim f)) (Fin (C (f.vars.get i).ty).localDim) ℝ =>
        M *ᵥ deltasL C g.localLayout g.localLayout.dim f.vars (Pi.single j 1) i := continuous_id.matrix_mulVec continuous_const
      exact (h4.tendsto _).comp h3
    have h5 : Continuous fun z : Fin (rdim f) → ℝ => (noiseMat f.noise (rdim f) (rdim f) *ᵥ z) s :=
      (continuous_apply s).comp (continuous_const.matrix_mulVec continuous_id)
    exact (h5.tendsto _).comp hsum

end

end Jaxfg.Props
