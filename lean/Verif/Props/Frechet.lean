/-
Property C21: the Jacobian of a factor graph as a total derivative (jaxfg/core/_stacked_factor_graph.py).
-/
import Verif.Spec.Frechet
import Verif.Props.Linearize
import Verif.Lemmas.ExamplePoly
import Mathlib.Analysis.Calculus.FDeriv.Comp
import Mathlib.Analysis.Calculus.FDeriv.Linear
import Mathlib.Analysis.Calculus.FDeriv.Pi
import Mathlib.Analysis.Calculus.FDeriv.Add
import Mathlib.Analysis.Calculus.FDeriv.Mul
import Mathlib.Analysis.Calculus.FDeriv.Pow

namespace Jaxfg.Props
open Spec
open Matrix hiding vec
variable (F : Nat → FactorClass) (C : Ty → VarClass ℝ)

/-- Entry `p + j` of a vector, as a linear map. -/
noncomputable def windowL (n : Nat) (p j : Nat) : (Fin n → ℝ) →L[ℝ] ℝ :=
  if h : p + j < n then ContinuousLinearMap.proj ⟨p + j, h⟩ else 0

theorem windowL_eq {n : Nat} (p j : Nat) (d : Fin n → ℝ) : windowL n p j d = (List.ofFn d).getD (p + j) 0 := by
  unfold windowL
  split
  · rename_i h
    rw [List.getD_eq_getElem _ _ (by simpa using h), List.getElem_ofFn]
    rfl
  · rename_i h
    rw [List.getD_eq_default _ _ (by simpa using h)]
    rfl

/-- The deltas that the graph's local layout gives to the variables of a factor. -/
noncomputable def deltasL (l : Layout) (n : Nat) (vars : List Var) : (Fin n → ℝ) →L[ℝ] Deltas C vars :=
  ContinuousLinearMap.pi fun i => ContinuousLinearMap.pi fun j => windowL n (((l.indexFromVar.get? (vars.get i))).getD 0) j

theorem zip3_sum {C : Ty → VarClass ℝ} {rd : Nat} (vs : List Var) (Js : List (Arr ℝ)) (hl : vs.length = Js.length) (δ : Var → List ℝ) :
    ((vs.zip (Js.zip (vs.map δ))).map fun p => arrMat p.2.1 rd (C p.1.ty).localDim *ᵥ vec p.2.2 (C p.1.ty).localDim).sum =
      ∑ i : Fin vs.length, arrMat (Js.getD i ⟨[], []⟩) rd (C (vs.get i).ty).localDim *ᵥ vec (δ (vs.get i)) (C (vs.get i).ty).localDim := by
  rw [← List.sum_ofFn]
  congr 1
  apply List.ext_getElem
  · simp [hl]
  · intro i h1 h2
    have hi : i < vs.length := by simpa using h2
    have hj : i < Js.length := hl ▸ hi
    have e : (vs.zip (Js.zip (vs.map δ)))[i]'(by simpa using h1) = (vs[i], Js[i], δ vs[i]) := by simp
    rw [List.getElem_map, e, List.getElem_ofFn]
    simp [List.getD_eq_getElem?_getD, hj]

/-- **C21, total derivatives.** If all noise models are Gaussian and the Jacobians of every factor are together the total derivative of
its residual, then the graph's Jacobian at `a`, read as a matrix, is the total (Fréchet) derivative at zero of the map that takes a local
delta `d` to the residual vector of `a.manifold_retract(d)`. -/
theorem C21_total_derivative (hC : GoodClasses C) (fs : List Factor) (hne : fs ≠ []) (hfs : ∀ f ∈ fs, FactorWF F C f)
    (hgauss : ∀ f ∈ fs, NoiseGaussian f.noise) :
    ∃ g, Graph.make C fs = .ok g ∧
      ∀ vars val a, Holds C fs vars val a → a.layout = g.layout → (∀ f ∈ fs, JacobiansTotal F C f (f.vars.map val)) →
        ∀ ρ : Factor → List ℝ, (∀ f ∈ fs, (ρ f).length = rdim f) →
        ∃ (A : Coo ℝ) (b : (Fin g.localLayout.dim → ℝ) → Assign ℝ) (r : (Fin g.localLayout.dim → ℝ) → List ℝ),
          g.computeWhitenedResidualJacobian F C a ((evalOrder fs).flatMap ρ) = .ok A ∧
          A.shape = (g.residualDim, g.localLayout.dim) ∧
          (∀ d, a.manifoldRetract C ⟨List.ofFn d, g.localLayout⟩ = .ok (b d) ∧
            g.computeWhitenedResidualVector F C (b d) = .ok (r d) ∧ (r d).length = g.residualDim) ∧
          HasFDerivAt (fun d => vec (r d) g.residualDim) (mulVecL (cooMatrix A g.residualDim g.localLayout.dim)) 0 := by
  obtain ⟨g, hg, hG⟩ := graph_ok (F := F) hfs hne
  refine ⟨g, hg, fun vars val a h hlay htot ρ hρ => ?_⟩
  obtain ⟨g', hg', hall⟩ := C20_jacobian_product F C hC fs hne hfs
  rw [hg] at hg'
  cases hg'
  obtain ⟨A, R, hA, hsh, hR, hprod⟩ := hall vars val a h ρ hρ
  have hwf : CooWF A := by
    obtain ⟨A', h1, h2, -⟩ := jacobian_ok hC hfs hne hG h hρ (fun f hf => (hR f hf).1)
    rw [hA] at h1
    cases h1
    exact h2
  have hretr := fun d : Fin g.localLayout.dim → ℝ => holds_retract hC hG h hlay (d := List.ofFn d) (by simp)
  choose b hb1 hb2 hb3 using hretr
  have hwh := fun d => (hb3 d).whitened hC hfs
  choose w hw using hwh
  have hres := fun d => residual_ok hC hfs hne hG (hb3 d) (fun f hf => (hw d f hf).1)
  refine ⟨A, b, fun d => (evalOrder fs).flatMap (w d), hA, hsh, fun d => ⟨hb1 d, (hres d).1, (hres d).2⟩, ?_⟩
  -- blocks of deltas
  have hblock : ∀ f ∈ fs, ∀ (d : Fin g.localLayout.dim → ℝ) (i : Fin f.vars.length),
      block C ⟨List.ofFn d, g.localLayout⟩ (f.vars.get i) = List.ofFn (deltasL C g.localLayout g.localLayout.dim f.vars d i) := by
    intro f hf d i
    have hs := variablesOf_spec fs
    have hδ : IsAssignmentOf C (Graph.variablesOf fs) ⟨List.ofFn d, g.localLayout⟩ := by
      refine ⟨hs.1, ?_, by simp⟩
      simp only [hG.localLayout, make_localFlag]
    obtain ⟨q, hq⟩ := exists_rep hδ
    have hm := mem_variablesOf hf (List.get_mem f.vars i)
    obtain ⟨p, hp, -, -⟩ := hq.index hm
    have hlen : (block C ⟨List.ofFn d, g.localLayout⟩ (f.vars.get i)).length = (C (f.vars.get i).ty).localDim := by
      rw [hq.block_eq hm, hq.len _ hm]
      simp [hG.localLayout, make_localFlag, dimOf]
    apply List.ext_getElem (by rw [hlen, List.length_ofFn])
    intro j h1 h2
    have hj : j < (C (f.vars.get i).ty).localDim := by simpa using h2
    simp only [List.getElem_ofFn]
    show _ = windowL _ _ j d
    rw [windowL_eq]
    have hp' : g.localLayout.indexFromVar.get? (f.vars.get i) = some p := hp
    rw [hp', Option.getD_some]
    unfold block at h1 ⊢
    simp only [hp'] at h1 ⊢
    rw [List.getElem_take, List.getElem_drop, List.getD_eq_getElem]
  have hfac : ∀ f ∈ fs, HasFDerivAt (fun d => vec (w d f) (rdim f))
      ((mulVecL (noiseMat f.noise (rdim f) (rdim f))).comp ((∑ i : Fin f.vars.length, (mulVecL (arrMat (((F f.cls).jacobians f.self (f.vars.map val)).getD i
        ⟨[], []⟩) (rdim f) (C (f.vars.get i).ty).localDim)).comp (ContinuousLinearMap.proj i)).comp
          (deltasL C g.localLayout g.localLayout.dim f.vars))) 0 := by
    intro f hf
    have h1 := htot f hf
    unfold JacobiansTotal at h1
    have h0 : deltasL C g.localLayout g.localLayout.dim f.vars 0 = 0 := map_zero _
    rw [← h0] at h1
    have h2 := h1.comp (0 : Fin g.localLayout.dim → ℝ) (deltasL C g.localLayout g.localLayout.dim f.vars).hasFDerivAt
    have h3 := (mulVecL (noiseMat f.noise (rdim f) (rdim f))).hasFDerivAt.comp (0 : Fin g.localLayout.dim → ℝ) h2
    refine h3.congr_of_eventuallyEq (Filter.Eventually.of_forall fun d => ?_)
    have hvf := (hb3 d).valuesFor hC hf
    obtain ⟨w', e1, e2, e3⟩ := whiten_gaussian (hfs f hf).noise (hgauss f hf) ((hfs f hf).residual _ hvf)
    have := (hw d f hf).1
    unfold whitenedAt at this
    rw [e1] at this
    cases this
    simp only [e3, Function.comp]
    show _ = noiseMat f.noise (rdim f) (rdim f) *ᵥ _
    congr 3
    unfold movedBy
    apply List.ext_getElem (by simp)
    intro i hi1 hi2
    have hi : i < f.vars.length := by simpa using hi1
    simp only [List.getElem_map, List.getElem_ofFn]
    rw [← hblock f hf d ⟨i, hi⟩]
    simp [hi]
  have hsplit : ∀ k : Fin g.residualDim, ∃ f ∈ fs, ∃ r : Fin (rdim f), ∀ z : Factor → List ℝ, (∀ f ∈ fs, (z f).length = rdim f) →
      vec ((evalOrder fs).flatMap z) g.residualDim k = vec (z f) (rdim f) r := by
    intro k
    obtain ⟨pre, f, post, r, he, hr, hk⟩ := exists_split_total (evalOrder fs) rdim k (by rw [← hG.residualDim]; exact k.2)
    have hf : f ∈ fs := mem_groupedBy.1 (show f ∈ evalOrder fs by rw [he]; simp)
    have hpre : ∀ f' ∈ pre, f' ∈ fs := fun f' h' => mem_groupedBy.1 (show f' ∈ evalOrder fs by rw [he]; simp [h'])
    refine ⟨f, hf, ⟨r, hr⟩, fun z hz => ?_⟩
    unfold vec
    rw [he, List.flatMap_append, List.flatMap_cons, hk,
      List.getD_append_right _ _ _ _ (by rw [length_flatMap_blocks fun f hf => hz f (hpre f hf)]; omega),
      length_flatMap_blocks (dim := rdim) fun f hf => hz f (hpre f hf), Nat.add_sub_cancel_left,
      List.getD_append _ _ _ _ (by rw [hz f hf]; exact hr)]
  rw [hasFDerivAt_pi']
  intro k
  obtain ⟨f, hf, r, hcomp⟩ := hsplit k
  have hk := hasFDerivAt_pi'.1 (hfac f hf) r
  have e : ((ContinuousLinearMap.proj k).comp (mulVecL (cooMatrix A g.residualDim g.localLayout.dim)) :
      (Fin g.localLayout.dim → ℝ) →L[ℝ] ℝ) = (ContinuousLinearMap.proj r).comp
      ((mulVecL (noiseMat f.noise (rdim f) (rdim f))).comp ((∑ i : Fin f.vars.length, (mulVecL (arrMat (((F f.cls).jacobians f.self (f.vars.map val)).getD i
        ⟨[], []⟩) (rdim f) (C (f.vars.get i).ty).localDim)).comp (ContinuousLinearMap.proj i)).comp
          (deltasL C g.localLayout g.localLayout.dim f.vars))) := by
    ext1 d
    obtain ⟨u, hu, hud⟩ := hprod (List.ofFn d) (by simp)
    obtain ⟨y, hy, -, hyv⟩ := C31_matmul A hwf (List.ofFn d) (by rw [hsh]; simp)
    rw [hu] at hy
    cases hy
    rw [hsh] at hyv
    have hd : vec (List.ofFn d) g.localLayout.dim = d := by
      funext i
      simp [vec]
    simp only [hd] at hyv
    have h1 : vec (u f) (rdim f) r = (cooMatrix A g.residualDim g.localLayout.dim *ᵥ d) k := by
      rw [← hyv]
      exact (hcomp u fun f hf => (hud f hf).1).symm
    rw [(hud f hf).2, applyBlocks_whitened (hfs f hf) (hgauss f hf) (hρ f hf) (block C ⟨List.ofFn d, g.localLayout⟩) f.vars _ (R f)
      ((hfs f hf).jacobians _ (h.valuesFor hC hf)) (hR f hf).1,
      zip3_sum _ _ ((hfs f hf).jacobians _ (h.valuesFor hC hf)).length_eq] at h1
    rw [ContinuousLinearMap.comp_apply, ContinuousLinearMap.comp_apply, ContinuousLinearMap.comp_apply, ContinuousLinearMap.comp_apply,
      _root_.sum_apply]
    show (cooMatrix A g.residualDim g.localLayout.dim *ᵥ d) k = (noiseMat f.noise (rdim f) (rdim f) *ᵥ _) r
    rw [← h1]
    refine congrArg (fun z => (noiseMat f.noise (rdim f) (rdim f) *ᵥ z) r) ?_
    refine Finset.sum_congr rfl fun i _ => ?_
    show _ = arrMat _ _ _ *ᵥ (deltasL C g.localLayout g.localLayout.dim f.vars d i)
    congr 1
    rw [hblock f hf d i]
    funext j
    simp [vec]
  rw [e]
  refine hk.congr_of_eventuallyEq (Filter.Eventually.of_forall fun d => ?_)
  exact hcomp (w d) fun f hf => (hw d f hf).2

/-- A total derivative gives every directional derivative: the hypothesis of `C21_total_derivative` implies that of
`C21_jacobian_is_derivative`. -/
theorem jacobiansTotal_correct {F : Nat → FactorClass} {C : Ty → VarClass ℝ} {f : Factor} {vals : List (Value ℝ)}
    (hl : vals.length = f.vars.length) (hJ : ((F f.cls).jacobians f.self vals).length = f.vars.length)
    (h : JacobiansTotal F C f vals) : JacobiansCorrect F C f vals := by
  intro δs hδ
  have hlen := hδ.length_eq
  let X : Deltas C f.vars := fun i => Spec.vec (δs.getD i []) _
  have hline : HasDerivAt (fun t : ℝ => t • X) X 0 := by simpa using (hasDerivAt_id (0 : ℝ)).smul_const X
  have h0 : (fun t : ℝ => t • X) 0 = 0 := zero_smul ℝ X
  have h1 := h
  unfold JacobiansTotal at h1
  rw [← h0] at h1
  have h2 := h1.comp_hasDerivAt (0 : ℝ) hline
  have hmoved : ∀ t : ℝ, movedBy C f.vars vals (t • X) = movedValues C f.vars vals δs t := by
    intro t
    unfold movedBy movedValues
    apply List.ext_getElem (by simp [hl, ← hlen])
    intro i h3 h4
    have hi : i < f.vars.length := by simpa using h3
    have hi' : i < δs.length := hlen ▸ hi
    have hiv : i < vals.length := hl ▸ hi
    have hd : (δs[i]).length = (C (f.vars[i]).ty).localDim := (List.forall₂_iff_get.1 hδ).2 i hi hi'
    simp only [List.getElem_ofFn, List.getElem_zipWith, List.getElem_zip, List.get_eq_getElem]
    rw [List.getD_eq_getElem _ _ hiv]
    congr 1
    apply List.ext_getElem (by simp [hd])
    intro j h5 h6
    have hj : j < (δs[i]).length := by simpa using h6
    simp [X, Spec.vec, hi', hj]
  have hsum : (∑ i : Fin f.vars.length, (mulVecL (arrMat (((F f.cls).jacobians f.self vals).getD i ⟨[], []⟩) (rdim f)
      (C (f.vars.get i).ty).localDim)).comp (ContinuousLinearMap.proj i)) X =
      ((f.vars.zip (((F f.cls).jacobians f.self vals).zip δs)).map fun p =>
        arrMat p.2.1 (rdim f) (C p.1.ty).localDim *ᵥ Spec.vec p.2.2 (C p.1.ty).localDim).sum := by
    rw [_root_.sum_apply, ← List.sum_ofFn]
    congr 1
    apply List.ext_getElem (by simp [hJ, ← hlen])
    intro i h3 h4
    have hi : i < f.vars.length := by simpa using h3
    have hi' : i < δs.length := hlen ▸ hi
    have hij : i < ((F f.cls).jacobians f.self vals).length := hJ ▸ hi
    rw [List.getElem_ofFn, List.getElem_map, List.getElem_zip, List.getElem_zip]
    show arrMat _ _ _ *ᵥ Spec.vec (δs.getD i []) _ = _
    rw [List.getD_eq_getElem _ _ hi', List.getD_eq_getElem _ _ hij]
    rfl
  rw [hsum] at h2
  refine h2.congr_of_eventuallyEq (Filter.Eventually.of_forall fun t => ?_)
  show _ = Spec.vec ((F f.cls).residual f.self (movedBy C f.vars vals (t • X))) (rdim f)
  rw [hmoved]

/-- **C22, gradients.** Under the hypotheses of `C21_total_derivative`, with `r` the residual vector at `a`, `A` the Jacobian there and
`y = A.T @ r`: the cost of `a.manifold_retract(d)`, as a function of `d`, has at zero the total derivative `2 y ⬝ᵥ ·`. The right-hand
side `-y` of the solvers is therefore minus one half of the gradient. -/
theorem C22_gradient (hC : GoodClasses C) (fs : List Factor) (hne : fs ≠ []) (hfs : ∀ f ∈ fs, FactorWF F C f)
    (hgauss : ∀ f ∈ fs, NoiseGaussian f.noise) :
    ∃ g, Graph.make C fs = .ok g ∧
      ∀ vars val a, Holds C fs vars val a → a.layout = g.layout → (∀ f ∈ fs, JacobiansTotal F C f (f.vars.map val)) →
        (∀ v ∈ vars, (C v.ty).retract (val v) (List.replicate (C v.ty).localDim 0) = val v) →
        ∃ c r A y, g.computeCost F C a = .ok (c, r) ∧ g.computeWhitenedResidualJacobian F C a r = .ok A ∧
          A.T.matmul r = .ok y ∧ y.length = g.localLayout.dim ∧
          ∃ (b : (Fin g.localLayout.dim → ℝ) → Assign ℝ) (cost : (Fin g.localLayout.dim → ℝ) → ℝ)
            (res : (Fin g.localLayout.dim → ℝ) → List ℝ) (D : (Fin g.localLayout.dim → ℝ) →L[ℝ] ℝ),
            (∀ d, a.manifoldRetract C ⟨List.ofFn d, g.localLayout⟩ = .ok (b d) ∧ g.computeCost F C (b d) = .ok (cost d, res d)) ∧
            (∀ d, D d = 2 * (Spec.vec y g.localLayout.dim ⬝ᵥ d)) ∧ HasFDerivAt cost D 0 := by
  obtain ⟨g, hg, hall⟩ := C21_total_derivative F C hC fs hne hfs hgauss
  obtain ⟨g', hg', h22⟩ := C22_right_hand_side F C hC fs hne hfs hgauss
  rw [hg] at hg'; cases hg'
  obtain ⟨g', hg', hG⟩ := graph_ok (F := F) hfs hne
  rw [hg] at hg'; cases hg'
  refine ⟨g, hg, fun vars val a h hlay htot hzero => ?_⟩
  have hcorr : ∀ f ∈ fs, JacobiansCorrect F C f (f.vars.map val) := fun f hf =>
    jacobiansTotal_correct (by simp) ((hfs f hf).jacobians _ (h.valuesFor hC hf)).length_eq.symm (htot f hf)
  obtain ⟨c, r, A, y, hc, hA, hy, hyl, hdir⟩ := h22 vars val a h hlay hcorr hzero
  obtain ⟨w, hw⟩ := h.whitened hC hfs
  have hcost := cost_ok F C hC hne hfs hG h fun f hf => (hw f hf).1
  rw [hcost] at hc
  obtain ⟨-, rfl⟩ := Prod.mk.inj (Except.ok.inj hc)
  obtain ⟨A', b, res, hA', hsh, hres, hder⟩ := hall vars val a h hlay htot w fun f hf => (hw f hf).2
  have hcd : ∀ d, g.computeCost F C (b d) = .ok (sqNorm (res d), res d) := by
    intro d
    unfold Graph.computeCost
    rw [(hres d).2.1]
    rfl
  have hfun : (fun d => sqNorm (res d)) = fun d => ∑ i : Fin g.residualDim, Spec.vec (res d) g.residualDim i ^ 2 := by
    funext d; exact sqNorm_eq_sum (hres d).2.2
  have hdiff : HasFDerivAt (fun d => sqNorm (res d)) (fderiv ℝ (fun d => sqNorm (res d)) 0) 0 := by
    rw [hfun]
    refine DifferentiableAt.hasFDerivAt (DifferentiableAt.fun_sum fun i _ => ?_)
    exact (hasFDerivAt_pi'.1 hder i).differentiableAt.pow 2
  refine ⟨c, _, A, y, hcost.trans hc, hA, hy, hyl, b, fun d => sqNorm (res d), res, _, fun d => ⟨(hres d).1, hcd d⟩, fun d => ?_, hdiff⟩
  obtain ⟨b', cost', res', h1, h2⟩ := hdir (List.ofFn d) (by simp)
  have hd : Spec.vec (List.ofFn d) g.localLayout.dim = d := by
    funext i
    simp [Spec.vec]
  rw [hd] at h2
  have hline : HasDerivAt (fun t : ℝ => t • d) d 0 := by simpa using (hasDerivAt_id (0 : ℝ)).smul_const d
  have h0 : (fun t : ℝ => t • d) 0 = 0 := zero_smul ℝ d
  rw [← h0] at hdiff
  have h3 := hdiff.comp_hasDerivAt (0 : ℝ) hline
  rw [h0] at h3
  refine h3.unique (h2.congr_of_eventuallyEq (Filter.Eventually.of_forall fun t => ?_))
  have e1 : (List.ofFn d).map (t * ·) = List.ofFn (t • d) := by
    rw [List.map_ofFn]
    rfl
  have e2 := (h1 t).1
  rw [e1, (hres (t • d)).1] at e2
  have e3 := (h1 t).2
  rw [← Except.ok.inj e2, hcd] at e3
  exact (Prod.mk.inj (Except.ok.inj e3)).1

/-! ### Example -/

namespace Poly1
open Jaxfg.Poly

/-- The factor with the residual `p + q x + s x²` meets the hypothesis at every value. -/
theorem f_total (p q s : ℝ) {vals : List (Value ℝ)} (hv : ValuesFor Ex.C (f p q s).vars vals) :
    JacobiansTotal Poly.F Ex.C (f p q s) vals := by
  have hd : rdim (f p q s) = 1 := noiseDim_eq (⟨⟨rfl, rfl⟩, rfl⟩ : NoiseWF (f p q s).noise 1 1)
  cases hv with
  | @cons _ x _ _ hx h2 =>
    cases h2
    unfold JacobiansTotal
    rw [hasFDerivAt_pi']
    intro i
    have hi : i.1 = 0 := by
      have := i.2
      omega
    let L : Deltas Ex.C (f p q s).vars →L[ℝ] ℝ :=
      (ContinuousLinearMap.proj (R := ℝ) (φ := fun _ : Fin (Ex.C ((f p q s).vars.get ⟨0, Nat.succ_pos _⟩).ty).localDim => ℝ)
        ⟨0, Nat.succ_pos _⟩).comp (ContinuousLinearMap.proj (⟨0, Nat.succ_pos _⟩ : Fin (f p q s).vars.length))
    set v := x.flatten.getD 0 0 with hvdef
    have hφ : HasDerivAt (fun t : ℝ => p + q * (v + t) + s * (v + t) ^ 2) (q + 2 * s * v) (L 0) := by
      have h1 : HasDerivAt (fun t : ℝ => v + t) 1 (L 0) := (hasDerivAt_id _).const_add v
      have := ((h1.const_mul q).const_add p).add ((h1.pow 2).const_mul s)
      refine this.congr_deriv ?_
      rw [map_zero]
      simp
      ring
    have hcomp := hφ.comp_hasFDerivAt (0 : Deltas Ex.C (f p q s).vars) L.hasFDerivAt
    have hL : (ContinuousLinearMap.proj i).comp (∑ i : Fin (f p q s).vars.length, (mulVecL (arrMat (((Poly.F (f p q s).cls).jacobians
      (f p q s).self [x]).getD i ⟨[], []⟩) (rdim (f p q s)) (Ex.C ((f p q s).vars.get i).ty).localDim)).comp
        (ContinuousLinearMap.proj i)) = (q + 2 * s * v) • L := by
      refine ContinuousLinearMap.ext fun X => ?_
      rw [ContinuousLinearMap.comp_apply, _root_.sum_apply]
      show (∑ j : Fin 1, (_ : Fin (rdim (f p q s)) → ℝ)) i = _
      rw [Fin.sum_univ_one]
      show ∑ j : Fin 1, _ * _ = _
      rw [Fin.sum_univ_one]
      show List.getD [q + 2 * s * v] (i.1 * 1 + 0) 0 * L X = (q + 2 * s * v) • L X
      rw [hi]
      rfl
    rw [hL]
    refine hcomp.congr_of_eventuallyEq (Filter.Eventually.of_forall fun X => ?_)
    obtain ⟨-, e2⟩ := Ex.retract_entry hx (d := List.ofFn (X ⟨0, Nat.succ_pos _⟩)) (by rw [List.length_ofFn]; exact Ex.localDim _) (i := 0)
      (Nat.succ_pos _)
    have e3 : (List.ofFn (X ⟨0, Nat.succ_pos _⟩)).getD 0 0 = L X := by
      rw [List.getD_eq_getElem _ _ (by rw [List.length_ofFn, Ex.localDim]; exact Nat.succ_pos _), List.getElem_ofFn]
      rfl
    rw [e3] at e2
    show List.getD _ i.1 0 = p + q * (v + L X) + s * (v + L X) ^ 2
    rw [hi, hvdef, ← e2]
    rfl

/-- Non-vacuity: every assignment to this graph meets the hypotheses of `C21_total_derivative` and `C22_gradient`. -/
example (p q s v : ℝ) : (∀ h ∈ [f p q s], FactorWF Poly.F Ex.C h ∧ NoiseGaussian h.noise) ∧
    ∀ vars val, Holds Ex.C [f p q s] vars val (at_ v) → ∀ h ∈ [f p q s], JacobiansTotal Poly.F Ex.C h (h.vars.map val) := by
  refine ⟨fun h hh => ?_, fun vars val hH h hh => ?_⟩
  · obtain rfl := List.mem_singleton.1 hh
    exact ⟨f_wf p q s, trivial⟩
  · have := hH.valuesFor Ex.good hh
    obtain rfl := List.mem_singleton.1 hh
    exact f_total p q s this

end Poly1

end Jaxfg.Props
