/-
Properties C19-C22, C30: the Jacobian of a factor graph (jaxfg/core/_stacked_factor_graph.py, _factor_stack.py).
-/
import Verif.Lemmas.Linearize
import Verif.Lemmas.ExampleDeriv
import Verif.Props.Graph
import Verif.Props.Sparse
import Verif.Spec.Linearize
import Mathlib.Analysis.Calculus.Deriv.Add
import Mathlib.Analysis.Calculus.Deriv.Mul
import Mathlib.Analysis.Calculus.Deriv.Prod
import Mathlib.Analysis.Calculus.Deriv.Pow

namespace Jaxfg.Props
open Spec
open Matrix hiding vec
variable (F : Nat → FactorClass) (C : Ty → VarClass ℝ)

/-! ### C19: sparsity pattern -/

/-- **C19.** For every non-empty list of well-formed factors: all coordinates of the graph's Jacobian lie inside
`residual_dim` × local dimension; at any assignments the Jacobian has exactly one value for each coordinate; and the
coordinate in row `r` of a factor and column `c` of a variable occurs exactly as often as the factor lists the variable. So
coordinates are equal only if one factor lists one variable twice. -/
theorem C19_coordinates (hC : GoodClasses C) (fs : List Factor) (hne : fs ≠ []) (hfs : ∀ f ∈ fs, FactorWF F C f) :
    ∃ g, Graph.make C fs = .ok g ∧
      (∀ p ∈ g.jacobianCoords, p.1 < g.residualDim ∧ p.2 < g.localLayout.dim) ∧
      (∀ pre f post, evalOrder fs = pre ++ f :: post → ∀ r < rdim f, ∀ v ∈ g.getVariables, ∀ i,
        g.localLayout.indexFromVar.get? v = some i → ∀ c < (C v.ty).localDim,
        g.jacobianCoords.count ((pre.map rdim).sum + r, i + c) = f.vars.count v) ∧
      ((∀ f ∈ fs, f.vars.Nodup) → g.jacobianCoords.Nodup) ∧
      ∀ vars val a, Holds C fs vars val a → ∀ ρ : Factor → List ℝ, (∀ f ∈ fs, (ρ f).length = rdim f) →
        ∃ A, g.computeWhitenedResidualJacobian F C a ((evalOrder fs).flatMap ρ) = .ok A ∧
          A.shape = (g.residualDim, g.localLayout.dim) ∧ A.rows.zip A.cols = g.jacobianCoords ∧ CooWF A := by
  obtain ⟨g, hg, hG⟩ := graph_ok (F := F) hfs hne
  have hcs := coordsOf hG
  have hs := variablesOf_spec fs
  have hmemv : ∀ v, v ∈ g.getVariables ↔ v ∈ Graph.variablesOf fs := by
    intro v
    unfold Graph.getVariables
    rw [hG.localLayout, make_getVariables C hs.1 true, mem_grouped]
  refine ⟨g, hg, fun p hp => ⟨hcs.row p hp, hcs.col p hp⟩, ?_, ?_, ?_⟩
  · intro pre f post he r hr v hv i hi c hc
    have := hcs.count pre f post he r hr v ((hmemv v).1 hv) c hc
    rw [posIn, hi] at this
    exact this
  · intro hnd
    rw [List.nodup_iff_count_le_one]
    rintro ⟨k, c⟩
    by_contra hgt
    have hmem : (k, c) ∈ g.jacobianCoords := List.count_pos_iff.1 (by omega)
    have hk := hcs.row _ hmem
    have hc := hcs.col _ hmem
    rw [hG.residualDim] at hk
    rw [hG.localLayout] at hc
    obtain ⟨v, ⟨hv, i, hi, h1, h2⟩, _⟩ := (C01_blocks_tile C _ hs.1 true).2.2.1 c hc
    have hpos : posIn g.localLayout v = i := by rw [posIn, hG.localLayout, hi]; rfl
    obtain ⟨pre, f, post, r, he, hr, rfl⟩ := exists_split_total (evalOrder fs) rdim k hk
    have hfm : f ∈ fs := mem_groupedBy.1 (show f ∈ evalOrder fs by rw [he]; simp)
    have hcount := hcs.count pre f post he r hr v hv (c - i) (by
      simp only [vdim, if_true] at h2; omega)
    rw [hpos, show i + (c - i) = c by omega] at hcount
    have := List.nodup_iff_count_le_one.1 (hnd f hfm) v
    omega
  · intro vars val a h ρ hρ
    have : ∀ f, ∃ R, f ∈ fs →
        ((F f.cls).jacobians f.self (f.vars.map val)).mapM (fun J => f.noise.whitenJacobian J (ρ f)) = .ok R := by
      intro f
      by_cases hf : f ∈ fs
      · obtain ⟨R, h1, _⟩ := whitenedJacobians_ok (hfs f hf) (h.valuesFor hC hf) (hρ f hf)
        exact ⟨R, fun _ => h1⟩
      · exact ⟨[], fun h => absurd h hf⟩
    choose R hR using this
    obtain ⟨A, h1, h2, h3, h4, _, _⟩ := jacobian_ok hC hfs hne hG h hρ hR
    exact ⟨A, h1, h3, h4, h2⟩

/-- Non-vacuity: the example graph meets the hypotheses, also with one variable listed twice. -/
example : GoodClasses Ex.C ∧ Ex.fsHuber ≠ [] ∧ (∀ f ∈ Ex.fsHuber, FactorWF Ex.F Ex.C f) ∧
    Holds Ex.C Ex.fsHuber Ex.vars Ex.val Ex.a :=
  ⟨Ex.good, by simp [Ex.fsHuber], Ex.fsHuber_wf, Ex.holdsHuber⟩

example : FactorWF Ex.F Ex.C ⟨1, [Ex.x, Ex.x], .gaussian ⟨[1, 1], [3]⟩, [⟨[1], [5]⟩]⟩ :=
  Ex.between_wf Ex.x Ex.x rfl _ _ ⟨rfl, rfl⟩ rfl

/-! ### C20: products with the Jacobian -/

variable {C} in
theorem blockProd_eq {fs : List Factor} {d : List ℝ} {v : Var} (hv : v ∈ Graph.variablesOf fs) {J : Arr ℝ} {rd : Nat} (r : Fin rd) :
    blockProd C (posIn (Layout.make C (Graph.variablesOf fs) true)) d v J r =
      (arrMat J rd (C v.ty).localDim *ᵥ vec (block C ⟨d, Layout.make C (Graph.variablesOf fs) true⟩ v) (C v.ty).localDim) r := by
  have hs := variablesOf_spec fs
  unfold blockProd block
  rw [posIn_spec hs.1 hv, ← Fin.sum_univ_eq_sum_range
    (fun c => J.at2 (C v.ty).localDim r c * d.getD (posIn (Layout.make C (Graph.variablesOf fs) true) v + c) 0)]
  unfold mulVec dotProduct
  apply Finset.sum_congr rfl
  intro c _
  congr 1
  simp only [make_localFlag, if_true, vec]
  simp [List.getD_eq_getElem?_getD, List.getElem?_drop]

variable {C} in
/-- The factor's product, in the vocabulary of the specification. -/
theorem vec_facProd {fs : List Factor} {f : Factor} (hf : f ∈ fs) {R : Factor → List (Arr ℝ)}
    (hR : (R f).length = f.vars.length) {d : List ℝ} :
    vec (facProd C (posIn (Layout.make C (Graph.variablesOf fs) true)) R d f) (rdim f) =
      applyBlocks C (rdim f) f.vars (R f) (block C ⟨d, Layout.make C (Graph.variablesOf fs) true⟩) := by
  funext r
  rw [vec_eq length_facProd]
  simp only [facProd, List.getElem_map, List.getElem_range]
  unfold applyBlocks
  have hm : ∀ v ∈ f.vars, v ∈ Graph.variablesOf fs := fun v hv => mem_variablesOf hf hv
  generalize R f = Rs at hR
  generalize f.vars = vs at hm hR
  induction vs generalizing Rs with
  | nil => simp
  | cons v vs ih =>
    obtain ⟨J, Rs, rfl⟩ := List.exists_cons_of_ne_nil (l := Rs) (by rintro rfl; simp at hR)
    rw [List.length_cons, Finset.sum_range_succ', List.zip_cons_cons, List.map_cons, List.sum_cons, Pi.add_apply,
      ← ih Rs (fun w hw => hm w (by simp [hw])) (by simpa using hR)]
    simp only [List.getD_cons_succ, List.getD_cons_zero]
    rw [blockProd_eq (hm v (by simp)), add_comm]

/-- **C20.** For every non-empty list of well-formed factors, every assignments object that holds their variables, every
residual argument made of one block per factor, and every local delta `d`: the product of the graph's Jacobian with `d` is the
concatenation, in the order of the residual vector, over the factors, of the sum over the factor's variables of whitened
Jacobian block times the block of `d` that the graph's local layout gives to the variable. -/
theorem C20_jacobian_product (hC : GoodClasses C) (fs : List Factor) (hne : fs ≠ []) (hfs : ∀ f ∈ fs, FactorWF F C f) :
    ∃ g, Graph.make C fs = .ok g ∧
      ∀ vars val a, Holds C fs vars val a → ∀ ρ : Factor → List ℝ, (∀ f ∈ fs, (ρ f).length = rdim f) →
        ∃ (A : Coo ℝ) (R : Factor → List (Arr ℝ)),
          g.computeWhitenedResidualJacobian F C a ((evalOrder fs).flatMap ρ) = .ok A ∧
          A.shape = (g.residualDim, g.localLayout.dim) ∧
          (∀ f ∈ fs, whitenedJacobiansAt F val f (ρ f) = .ok (R f) ∧
            List.Forall₂ (fun v J => IsMat J (rdim f) (C v.ty).localDim) f.vars (R f)) ∧
          ∀ d : List ℝ, d.length = g.localLayout.dim → ∃ u : Factor → List ℝ,
            A.matmul d = .ok ((evalOrder fs).flatMap u) ∧
            ∀ f ∈ fs, (u f).length = rdim f ∧
              vec (u f) (rdim f) = applyBlocks C (rdim f) f.vars (R f) (block C ⟨d, g.localLayout⟩) := by
  obtain ⟨g, hg, hG⟩ := graph_ok (F := F) hfs hne
  refine ⟨g, hg, fun vars val a h ρ hρ => ?_⟩
  have : ∀ f, ∃ R, f ∈ fs → whitenedJacobiansAt F val f (ρ f) = .ok R ∧
      List.Forall₂ (fun v J => IsMat J (rdim f) (C v.ty).localDim) f.vars R := by
    intro f
    by_cases hf : f ∈ fs
    · obtain ⟨R, h1, h2⟩ := whitenedJacobians_ok (hfs f hf) (h.valuesFor hC hf) (hρ f hf)
      exact ⟨R, fun _ => ⟨h1, h2⟩⟩
    · exact ⟨[], fun h => absurd h hf⟩
  choose R hR using this
  obtain ⟨A, h1, h2, h3, h4, h5, h6⟩ := jacobian_ok hC hfs hne hG h hρ (fun f hf => (hR f hf).1)
  refine ⟨A, R, h1, h3, hR, fun d hd => ⟨_, h6 d hd, fun f hf => ⟨length_facProd, ?_⟩⟩⟩
  rw [hG.localLayout]
  exact vec_facProd hf (hR f hf).2.length_eq.symm

/-- Non-vacuity. -/
example : GoodClasses Ex.C ∧ Ex.fsHuber ≠ [] ∧ (∀ f ∈ Ex.fsHuber, FactorWF Ex.F Ex.C f) ∧
    Holds Ex.C Ex.fsHuber Ex.vars Ex.val Ex.a ∧
    ∃ ρ : Factor → List ℝ, ∀ f ∈ Ex.fsHuber, (ρ f).length = rdim f :=
  ⟨Ex.good, by simp [Ex.fsHuber], Ex.fsHuber_wf, Ex.holdsHuber, fun f => List.replicate (rdim f) 7, by simp⟩

/-! ### C21: the Jacobian is the derivative -/

/-- Retracting the values a graph reads. -/
theorem holds_retract {F : Nat → FactorClass} {C : Ty → VarClass ℝ} (hC : GoodClasses C) {fs : List Factor} {g : Graph}
    (hG : GraphOf F C fs g) {vars : List Var}
    {val : Var → Value ℝ} {a : Assign ℝ} (h : Holds C fs vars val a) (hlay : a.layout = g.layout) {d : List ℝ}
    (hd : d.length = g.localLayout.dim) :
    ∃ b, a.manifoldRetract C ⟨d, g.localLayout⟩ = .ok b ∧ b.layout = g.layout ∧
      Holds C fs (Graph.variablesOf fs) (fun v => (C v.ty).retract (val v) (block C ⟨d, g.localLayout⟩ v)) b := by
  have hs := variablesOf_spec fs
  have ha : IsAssignmentOf C (Graph.variablesOf fs) a := by
    refine ⟨hs.1, ?_, h.assignment.2.2⟩
    rw [h.isGlobal, hlay, hG.layout]
  have hδ : IsAssignmentOf C (Graph.variablesOf fs) ⟨d, g.localLayout⟩ := by
    refine ⟨hs.1, ?_, hd⟩
    simp only [hG.localLayout, make_localFlag]
  obtain ⟨b, h1, h2, h3, h4⟩ := C11_retract_per_variable C hC _ a ⟨d, g.localLayout⟩ ha h.isGlobal hδ (by
    simp only [hG.localLayout, make_localFlag])
  refine ⟨b, h1, h2.trans hlay, h3, by rw [h2]; exact h.isGlobal, hs.2, ?_⟩
  intro v hv
  obtain ⟨x, hx1, _, hx3⟩ := h4 v hv
  have := h.values v ((h.sameVars v).2 ((hs.2 v).1 hv))
  rw [this] at hx1
  cases hx1
  exact hx3

theorem block_smul {C : Ty → VarClass ℝ} {d : List ℝ} {l : Layout} (t : ℝ) (v : Var) :
    block C ⟨d.map (t * ·), l⟩ v = (block C ⟨d, l⟩ v).map (t * ·) := by
  unfold block
  simp only
  split <;> simp [List.map_take, List.map_drop]

theorem movedValues_map {C : Ty → VarClass ℝ} (vars : List Var) (val : Var → Value ℝ) (δ : Var → List ℝ) (t : ℝ) :
    movedValues C vars (vars.map val) (vars.map δ) t = vars.map fun v => (C v.ty).retract (val v) ((δ v).map (t * ·)) := by
  unfold movedValues
  induction vars with
  | nil => rfl
  | cons v vs ih => simp only [List.map_cons, List.zip_cons_cons, List.zipWith_cons_cons, ih]

theorem hasDerivAt_mulVec {m n : Nat} (M : Matrix (Fin m) (Fin n) ℝ) {f : ℝ → Fin n → ℝ} {f' : Fin n → ℝ} {t : ℝ}
    (h : HasDerivAt f f' t) : HasDerivAt (fun t => M *ᵥ f t) (M *ᵥ f') t := by
  rw [hasDerivAt_pi] at h ⊢
  intro i
  simp only [mulVec, dotProduct]
  exact HasDerivAt.fun_sum fun j _ => (h j).const_mul (M i j)

/-- Sum of blocks whitened one by one. -/
theorem applyBlocks_whitened {F : Nat → FactorClass} {C : Ty → VarClass ℝ} {f : Factor} (hf : FactorWF F C f)
    (hg : NoiseGaussian f.noise) {r : List ℝ} (hr : r.length = rdim f) (δ : Var → List ℝ) :
    ∀ (vs : List Var) (Js Rs : List (Arr ℝ)), List.Forall₂ (fun v J => IsMat J (rdim f) (C v.ty).localDim) vs Js →
      Js.mapM (fun J => f.noise.whitenJacobian J r) = .ok Rs →
      applyBlocks C (rdim f) vs Rs δ = noiseMat f.noise (rdim f) (rdim f) *ᵥ
        (((vs.zip (Js.zip (vs.map δ))).map fun p =>
          arrMat p.2.1 (rdim f) (C p.1.ty).localDim *ᵥ vec p.2.2 (C p.1.ty).localDim).sum) := by
  intro vs Js Rs h
  induction h generalizing Rs with
  | nil =>
    intro hm
    cases hm
    simp [applyBlocks]
  | @cons v J vs Js hJ _ ih =>
    intro hm
    obtain ⟨R, h1, h2, h3⟩ := whitenJacobian_gaussian hf.noise hg hJ hr
    rw [List.mapM_cons, h1, py_bind_ok] at hm
    cases hm' : Js.mapM (fun J => f.noise.whitenJacobian J r) with
    | error e => rw [hm'] at hm; cases hm
    | ok Rs' =>
      rw [hm'] at hm
      cases hm
      have := ih Rs' hm'
      unfold applyBlocks at this ⊢
      simp only [List.zip_cons_cons, List.map_cons, List.sum_cons, this, h3, mulVec_add, mulVec_mulVec]

/-- **C21.** If all noise models are Gaussian and the Jacobians of all factors are the derivatives of their residuals, then the
graph's Jacobian at `a` (with the graph's layout, as in the solvers) is the derivative at zero of
`d ↦ residual vector of a.manifold_retract(d)`: along every direction `d` the retraction and the residual vector exist for all
step lengths, and the derivative at zero is `A @ d`. The residual passed to the Jacobian may be any vector with one block per
factor. -/
theorem C21_jacobian_is_derivative (hC : GoodClasses C) (fs : List Factor) (hne : fs ≠ []) (hfs : ∀ f ∈ fs, FactorWF F C f)
    (hgauss : ∀ f ∈ fs, NoiseGaussian f.noise) :
    ∃ g, Graph.make C fs = .ok g ∧
      ∀ vars val a, Holds C fs vars val a → a.layout = g.layout → (∀ f ∈ fs, JacobiansCorrect F C f (f.vars.map val)) →
        ∀ ρ : Factor → List ℝ, (∀ f ∈ fs, (ρ f).length = rdim f) →
        ∃ A, g.computeWhitenedResidualJacobian F C a ((evalOrder fs).flatMap ρ) = .ok A ∧
          ∀ d : List ℝ, d.length = g.localLayout.dim → ∃ (y : List ℝ) (b : ℝ → Assign ℝ) (r : ℝ → List ℝ),
            A.matmul d = .ok y ∧ y.length = g.residualDim ∧
            (∀ t, a.manifoldRetract C ⟨d.map (t * ·), g.localLayout⟩ = .ok (b t) ∧
              g.computeWhitenedResidualVector F C (b t) = .ok (r t) ∧ (r t).length = g.residualDim) ∧
            HasDerivAt (fun t => vec (r t) g.residualDim) (vec y g.residualDim) 0 := by
  obtain ⟨g, hg, hG⟩ := graph_ok (F := F) hfs hne
  refine ⟨g, hg, fun vars val a h hlay hcorrect ρ hρ => ?_⟩
  obtain ⟨g', hg', hall⟩ := C20_jacobian_product F C hC fs hne hfs
  rw [hg] at hg'
  cases hg'
  obtain ⟨A, R, hA, _, hR, hprod⟩ := hall vars val a h ρ hρ
  refine ⟨A, hA, fun d hd => ?_⟩
  obtain ⟨u, hu, hud⟩ := hprod d hd
  have hretr := fun t : ℝ => holds_retract hC hG h hlay (d := d.map (t * ·)) (by simpa using hd)
  choose b hb1 hb2 hb3 using hretr
  have hwh := fun t => (hb3 t).whitened hC hfs
  choose w hw using hwh
  have hres := fun t => residual_ok hC hfs hne hG (hb3 t) (fun f hf => (hw t f hf).1)
  have hulen : ((evalOrder fs).flatMap u).length = g.residualDim := by
    rw [hG.residualDim]
    exact length_flatMap_blocks fun f hf => (hud f (mem_groupedBy.1 hf)).1
  refine ⟨_, b, fun t => (evalOrder fs).flatMap (w t), hu, hulen, fun t => ⟨hb1 t, (hres t).1, (hres t).2⟩, ?_⟩
  have hfac : ∀ f ∈ fs, HasDerivAt (fun t => vec (w t f) (rdim f)) (vec (u f) (rdim f)) 0 := by
    intro f hf
    have hδ : List.Forall₂ (fun v (x : List ℝ) => x.length = (C v.ty).localDim) f.vars
        (f.vars.map (block C ⟨d, g.localLayout⟩)) := by
      rw [List.forall₂_map_right_iff, List.forall₂_same]
      intro v hv
      have hs := variablesOf_spec fs
      have hδ : IsAssignmentOf C (Graph.variablesOf fs) ⟨d, g.localLayout⟩ := by
        refine ⟨hs.1, ?_, hd⟩
        simp only [hG.localLayout, make_localFlag]
      obtain ⟨q, hq⟩ := exists_rep hδ
      have hm := mem_variablesOf hf hv
      rw [hq.block_eq hm, hq.len v hm]
      simp [hG.localLayout, make_localFlag, dimOf]
    have h1 := hcorrect f hf _ hδ
    have h2 := hasDerivAt_mulVec (noiseMat f.noise (rdim f) (rdim f)) h1
    rw [← applyBlocks_whitened (hfs f hf) (hgauss f hf) (hρ f hf) (block C ⟨d, g.localLayout⟩) f.vars _ (R f)
      ((hfs f hf).jacobians _ (h.valuesFor hC hf)) (hR f hf).1, ← (hud f hf).2] at h2
    refine h2.congr_of_eventuallyEq (Filter.Eventually.of_forall fun t => ?_)
    have hm : movedValues C f.vars (f.vars.map val) (f.vars.map (block C ⟨d, g.localLayout⟩)) t =
        f.vars.map fun v => (C v.ty).retract (val v) (block C ⟨d.map (t * ·), g.localLayout⟩ v) := by
      rw [movedValues_map]
      simp only [block_smul]
    have hvf := (hb3 t).valuesFor hC hf
    obtain ⟨w', e1, e2, e3⟩ := whiten_gaussian (hfs f hf).noise (hgauss f hf) ((hfs f hf).residual _ hvf)
    have := (hw t f hf).1
    unfold whitenedAt at this
    rw [e1] at this
    cases this
    simp only [e3, hm]
  rw [hasDerivAt_pi]
  intro k
  obtain ⟨pre, f, post, r, he, hr, hk⟩ := exists_split_total (evalOrder fs) rdim k (by rw [← hG.residualDim]; exact k.2)
  have hf : f ∈ fs := mem_groupedBy.1 (show f ∈ evalOrder fs by rw [he]; simp)
  have hpre : ∀ f' ∈ pre, f' ∈ fs := fun f' h' => mem_groupedBy.1 (show f' ∈ evalOrder fs by rw [he]; simp [h'])
  have hcomp : ∀ z : Factor → List ℝ, (∀ f ∈ fs, (z f).length = rdim f) →
      vec ((evalOrder fs).flatMap z) g.residualDim k = vec (z f) (rdim f) ⟨r, hr⟩ := by
    intro z hz
    unfold vec
    rw [he, List.flatMap_append, List.flatMap_cons, hk,
      List.getD_append_right _ _ _ _ (by rw [length_flatMap_blocks fun f hf => hz f (hpre f hf)]; omega),
      length_flatMap_blocks (dim := rdim) fun f hf => hz f (hpre f hf), Nat.add_sub_cancel_left,
      List.getD_append _ _ _ _ (by rw [hz f hf]; exact hr)]
  rw [hcomp u fun f hf => (hud f hf).1]
  have hd' := (hasDerivAt_pi.1 (hfac f hf)) ⟨r, hr⟩
  refine hd'.congr_of_eventuallyEq (Filter.Eventually.of_forall fun t => ?_)
  exact hcomp (w t) fun f hf => (hw t f hf).2

/-- Non-vacuity: the example graph with assignments in the graph's order; all Jacobians are correct. -/
example : GoodClasses Ex.C ∧ Ex.fs ≠ [] ∧ (∀ f ∈ Ex.fs, FactorWF Ex.F Ex.C f) ∧ (∀ f ∈ Ex.fs, NoiseGaussian f.noise) ∧
    Holds Ex.C Ex.fs (Graph.variablesOf Ex.fs) Ex.val Ex.a' ∧
    (∀ f ∈ Ex.fs, JacobiansCorrect Ex.F Ex.C f (f.vars.map Ex.val)) ∧
    ∃ g, Graph.make Ex.C Ex.fs = .ok g ∧ Ex.a'.layout = g.layout := by
  refine ⟨Ex.good, by simp [Ex.fs], Ex.fs_wf, Ex.fs_gaussian, Ex.holds', Ex.fs_correct, ?_⟩
  obtain ⟨g, hg, hG⟩ := graph_ok (F := Ex.F) Ex.fs_wf (by simp [Ex.fs])
  exact ⟨g, hg, hG.layout.symm⟩

/-! ### C22: the right-hand side is minus half the gradient of the cost -/

theorem sqNorm_eq_sum {l : List ℝ} {n : Nat} (h : l.length = n) : sqNorm l = ∑ i : Fin n, vec l n i ^ 2 := by
  rw [sqNorm_eq h]
  simp only [dotProduct, sq]

/-- **C22.** Under the hypotheses of C21, with `r` the residual vector at `a` and `y = A.T @ r`: along every direction `d` the
derivative at zero of `t ↦ compute_cost(a.manifold_retract(t d))` is `2 y · d`, so the right-hand side `-y` of the solvers is
minus one half of the gradient. -/
theorem C22_right_hand_side (hC : GoodClasses C) (fs : List Factor) (hne : fs ≠ []) (hfs : ∀ f ∈ fs, FactorWF F C f)
    (hgauss : ∀ f ∈ fs, NoiseGaussian f.noise) :
    ∃ g, Graph.make C fs = .ok g ∧
      ∀ vars val a, Holds C fs vars val a → a.layout = g.layout → (∀ f ∈ fs, JacobiansCorrect F C f (f.vars.map val)) →
        (∀ v ∈ vars, (C v.ty).retract (val v) (List.replicate (C v.ty).localDim 0) = val v) →
        ∃ c r A y, g.computeCost F C a = .ok (c, r) ∧ g.computeWhitenedResidualJacobian F C a r = .ok A ∧
          A.T.matmul r = .ok y ∧ y.length = g.localLayout.dim ∧
          ∀ d : List ℝ, d.length = g.localLayout.dim → ∃ (b : ℝ → Assign ℝ) (cost : ℝ → ℝ) (res : ℝ → List ℝ),
            (∀ t, a.manifoldRetract C ⟨d.map (t * ·), g.localLayout⟩ = .ok (b t) ∧
              g.computeCost F C (b t) = .ok (cost t, res t)) ∧
            HasDerivAt cost (2 * (vec y g.localLayout.dim ⬝ᵥ vec d g.localLayout.dim)) 0 := by
  obtain ⟨g, hg, hall⟩ := C21_jacobian_is_derivative F C hC fs hne hfs hgauss
  obtain ⟨g', hg', hG⟩ := graph_ok (F := F) hfs hne
  rw [hg] at hg'; cases hg'
  refine ⟨g, hg, fun vars val a h hlay hcorrect hzero => ?_⟩
  obtain ⟨w, hw⟩ := h.whitened hC hfs
  have hcost := cost_ok F C hC hne hfs hG h fun f hf => (hw f hf).1
  obtain ⟨hr1, hr2⟩ := residual_ok hC hfs hne hG h fun f hf => (hw f hf).1
  obtain ⟨A, hA, hder⟩ := hall vars val a h hlay hcorrect w fun f hf => (hw f hf).2
  obtain ⟨g', hg', hall'⟩ := (C19_coordinates F C hC fs hne hfs)
  rw [hg] at hg'; cases hg'
  obtain ⟨A', hA', hsh, _, hwf⟩ := hall'.2.2.2 vars val a h w fun f hf => (hw f hf).2
  rw [hA] at hA'; cases hA'
  set r := (evalOrder fs).flatMap w with hrdef
  obtain ⟨y, hy1, hy2, hy3⟩ := matmul_ok (cooWF_T hwf) (x := r) (by rw [hr2]; simp [Coo.T, hsh])
  have hT : A.T.shape.1 = g.localLayout.dim := by simp [Coo.T, hsh]
  refine ⟨_, r, A, y, hcost, hA, hy1, by rw [hy2, hT], fun d hd => ?_⟩
  obtain ⟨z, b, res, h1, h2, h3, h4⟩ := hder d hd
  have hc : ∀ t, g.computeCost F C (b t) = .ok (sqNorm (res t), res t) := by
    intro t
    unfold Graph.computeCost
    rw [(h3 t).2.1]
    rfl
  refine ⟨b, fun t => sqNorm (res t), res, fun t => ⟨(h3 t).1, hc t⟩, ?_⟩
  have hres0 : res 0 = r := by
    obtain ⟨b0, e1, e2, e3⟩ := holds_retract hC hG h hlay (d := d.map ((0 : ℝ) * ·)) (by simpa using hd)
    rw [(h3 0).1] at e1
    cases e1
    have hval : Holds C fs (Graph.variablesOf fs) val (b 0) := by
      refine ⟨e3.assignment, e3.isGlobal, e3.sameVars, fun v hv => ?_⟩
      rw [e3.values v hv]
      congr 1
      have hvm : v ∈ vars := by rw [h.sameVars, ← e3.sameVars]; exact hv
      rw [← hzero v hvm]
      congr 1
      · exact hzero v hvm
      rw [block_smul]
      have hs := variablesOf_spec fs
      have hδ : IsAssignmentOf C (Graph.variablesOf fs) ⟨d, g.localLayout⟩ := by
        refine ⟨hs.1, ?_, hd⟩
        simp only [hG.localLayout, make_localFlag]
      obtain ⟨q, hq⟩ := exists_rep hδ
      rw [hq.block_eq hv]
      have hl := hq.len v hv
      simp only [hG.localLayout, make_localFlag, dimOf, if_true] at hl
      rw [← hl]
      simp
    have := (residual_ok hC hfs hne hG hval fun f hf => (hw f hf).1).1
    rw [(h3 0).2.1] at this
    exact Except.ok.inj this
  have hfun : (fun t => sqNorm (res t)) = fun t => ∑ i : Fin g.residualDim, vec (res t) g.residualDim i ^ 2 := by
    funext t; exact sqNorm_eq_sum (h3 t).2.2
  rw [hfun]
  have hz := matmul_ok hwf (x := d) (by rw [hd, hsh])
  obtain ⟨z', hz1, hz2, hz3⟩ := hz
  rw [h1] at hz1; cases hz1
  have hsum : HasDerivAt (fun t => ∑ i : Fin g.residualDim, vec (res t) g.residualDim i ^ 2)
      (∑ i : Fin g.residualDim, 2 * vec r g.residualDim i * vec z g.residualDim i) 0 := by
    apply HasDerivAt.fun_sum
    intro i _
    have := ((hasDerivAt_pi.1 h4) i).fun_pow 2
    simpa [hres0] using this
  have heq : ∑ i : Fin g.residualDim, 2 * vec r g.residualDim i * vec z g.residualDim i =
      2 * (vec y g.localLayout.dim ⬝ᵥ vec d g.localLayout.dim) := by
    have h5 : vec z g.residualDim = cooMatrix A g.residualDim g.localLayout.dim *ᵥ vec d g.localLayout.dim := by
      rw [hsh] at hz3; exact hz3
    have h6 : vec y g.localLayout.dim = (cooMatrix A g.residualDim g.localLayout.dim)ᵀ *ᵥ vec r g.residualDim := by
      have : A.T.shape = (g.localLayout.dim, g.residualDim) := by simp [Coo.T, hsh]
      rw [this, cooMatrix_T] at hy3
      exact hy3
    rw [h6, mulVec_transpose, ← dotProduct_mulVec, ← h5]
    simp only [dotProduct, Finset.mul_sum, mul_assoc]
  rw [← heq]
  exact hsum

/-- Non-vacuity: see C21; the retractions of the example fix the value at zero. -/
example : ∀ v ∈ Ex.vars, (Ex.C v.ty).retract (Ex.val v) (List.replicate (Ex.C v.ty).localDim 0) = Ex.val v := by
  intro v hv
  rw [Ex.localDim]
  simp only [Ex.vars, List.mem_cons, List.not_mem_nil, or_false] at hv
  rcases hv with rfl | rfl | rfl <;>
    simp [Ex.C, VarClass.realVector, VarClass.euclidean, Ex.val, Ex.flat, Value.flatten, unravel, splitLeaves, Ex.x, Ex.y, Ex.z,
      List.replicate]

/-! ### C30: weight of the Jacobian of a Huber factor -/

/-- An array times a number. -/
noncomputable def scaled (c : ℝ) (J : Arr ℝ) : Arr ℝ := ⟨J.shape, J.data.map (· * c)⟩

theorem mapM_huber {N : Noise} {δ : ℝ} {r : List ℝ} {Js U : List (Arr ℝ)}
    (h : Js.mapM (fun J => N.whitenJacobian J r) = .ok U) :
    Js.mapM (fun J => (Noise.huber N ⟨[], [δ]⟩).whitenJacobian J r) = .ok (U.map (scaled (huberWeight δ (norm2 r)))) := by
  have hf := forall₂_of_mapM_ok h
  clear h
  induction hf with
  | nil => rfl
  | cons h1 _ ih => rw [List.mapM_cons, huber_whitenJacobian h1, py_bind_ok, ih]; rfl

theorem norm2_scale {u : List ℝ} {c : ℝ} (hc : 0 ≤ c) : norm2 (u.map (· * c)) = c * norm2 u := by
  unfold norm2
  have : ((u.map (· * c)).map fun x => x ^ 2).sum = c ^ 2 * (u.map fun x => x ^ 2).sum := by
    rw [← List.sum_map_mul_left, List.map_map]
    congr 1
    apply List.map_congr_left
    intro x _
    simp only [Function.comp]
    ring
  rw [this, Real.sqrt_mul (sq_nonneg c), Real.sqrt_sq hc]

/-- The weight computed from an already weighted residual is the square root of the weight. -/
theorem huberWeight_twice {δ n : ℝ} (hδ : 0 < δ) :
    huberWeight δ (huberWeight δ n * n) ^ 2 = huberWeight δ n := by
  by_cases h : n < δ
  · have h1 : huberWeight δ n = 1 := by rw [huberWeight, if_pos h]
    rw [h1, one_mul, h1, one_pow]
  · have h' := not_lt.1 h
    have hn' : 0 < n := lt_of_lt_of_le hδ h'
    have h1 : huberWeight δ n = Real.sqrt (δ / n) := by rw [huberWeight, if_neg h]
    have h2 : δ ≤ Real.sqrt (δ / n) * n := by
      have : Real.sqrt (δ / n) * n = Real.sqrt (δ * n) := by
        rw [show δ * n = (δ / n) * n ^ 2 by field_simp, Real.sqrt_mul (by positivity), Real.sqrt_sq hn'.le]
      rw [this]
      exact Real.le_sqrt_of_sq_le (by rw [sq]; exact mul_le_mul_of_nonneg_left h' hδ.le)
    rw [h1, huberWeight, if_neg (not_lt.2 h2), Real.sq_sqrt (by positivity)]
    have h3 : Real.sqrt (δ / n) * n ≠ 0 := ne_of_gt (lt_of_lt_of_le hδ h2)
    have h4 : Real.sqrt (δ / n) * Real.sqrt (δ / n) = δ / n := Real.mul_self_sqrt (by positivity)
    rw [div_eq_iff h3, ← mul_assoc, h4]
    field_simp

/-- **C30, what the code does.** For every graph and assignments, with `r` the residual vector of the graph at `a` and `A` the
Jacobian computed with it, as the solvers do: a factor with a Huber wrapper of threshold `δ` around the model `N` has, with
`u` the residual whitened by `N` alone, the weighted residual `c u` and the Jacobian blocks `c' U` (`U` the blocks whitened by
`N` alone), where `c = 1` for `‖u‖ < δ` and `c = √(δ / ‖u‖)` otherwise, and `c'` is the *square root* of `c`. So residual and
Jacobian of an outlier are weighted differently; they agree exactly when `c = 1`. -/
theorem C30_huber_jacobian_weight_partial (hC : GoodClasses C) (fs : List Factor) (hne : fs ≠ [])
    (hfs : ∀ f ∈ fs, FactorWF F C f) :
    ∃ g, Graph.make C fs = .ok g ∧
      ∀ vars val a, Holds C fs vars val a → ∃ (r : List ℝ) (A : Coo ℝ) (R : Factor → List (Arr ℝ)),
        g.computeWhitenedResidualVector F C a = .ok r ∧ g.computeWhitenedResidualJacobian F C a r = .ok A ∧
        (∀ d : List ℝ, d.length = g.localLayout.dim → ∃ u : Factor → List ℝ, A.matmul d = .ok ((evalOrder fs).flatMap u) ∧
          ∀ f ∈ fs, (u f).length = rdim f ∧
            vec (u f) (rdim f) = applyBlocks C (rdim f) f.vars (R f) (block C ⟨d, g.localLayout⟩)) ∧
        ∀ f ∈ fs, ∀ N δ, f.noise = .huber N ⟨[], [δ]⟩ → ∃ u w U c c',
          N.whiten ((F f.cls).residual f.self (f.vars.map val)) = .ok u ∧
          whitenedAt F val f = .ok w ∧ w = u.map (· * c) ∧
          ((F f.cls).jacobians f.self (f.vars.map val)).mapM (fun J => N.whitenJacobian J w) = .ok U ∧
          R f = U.map (scaled c') ∧ 0 < c ∧ 0 < c' ∧ c' ^ 2 = c ∧
          c = if Real.sqrt (sqNorm u) < δ then 1 else Real.sqrt (δ / Real.sqrt (sqNorm u)) := by
  obtain ⟨g, hg, hall⟩ := C20_jacobian_product F C hC fs hne hfs
  obtain ⟨g', hg', hG⟩ := graph_ok (F := F) hfs hne
  rw [hg] at hg'; cases hg'
  refine ⟨g, hg, fun vars val a h => ?_⟩
  obtain ⟨w, hw⟩ := h.whitened hC hfs
  obtain ⟨hr, _⟩ := residual_ok hC hfs hne hG h fun f hf => (hw f hf).1
  obtain ⟨A, R, hA, _, hR, hprod⟩ := hall vars val a h w fun f hf => (hw f hf).2
  refine ⟨_, A, R, hr, hA, hprod, fun f hf N δ hN => ?_⟩
  have hwf := (hfs f hf).noise
  rw [hN] at hwf
  obtain ⟨hwfN, δ', hδeq, hδ⟩ := hwf
  have : δ = δ' := by simpa using hδeq
  subst this
  obtain ⟨u, hu, hul⟩ := whiten_ok hwfN ((hfs f hf).residual _ (h.valuesFor hC hf))
  have hwf' := (hw f hf).1
  unfold whitenedAt at hwf'
  rw [hN, huber_whiten hu] at hwf'
  have hwu := (Except.ok.inj hwf').symm
  have hU : ∃ U, ((F f.cls).jacobians f.self (f.vars.map val)).mapM (fun J => N.whitenJacobian J (w f)) = .ok U := by
    have hJ := (hfs f hf).jacobians _ (h.valuesFor hC hf)
    generalize (F f.cls).jacobians f.self (f.vars.map val) = Js at hJ
    generalize f.vars = vs at hJ
    induction hJ with
    | nil => exact ⟨[], rfl⟩
    | cons hJ _ ih =>
      obtain ⟨U, hU⟩ := ih
      obtain ⟨R, h1, _⟩ := whitenJacobian_ok hwfN hJ (hw f hf).2
      exact ⟨R :: U, by rw [List.mapM_cons, h1, py_bind_ok, hU]; rfl⟩
  obtain ⟨U, hU⟩ := hU
  have hRf := (hR f hf).1
  unfold whitenedJacobiansAt at hRf
  rw [hN, mapM_huber hU] at hRf
  have hcpos := huberWeight_pos (n := norm2 u) hδ
  refine ⟨u, w f, U, huberWeight δ (norm2 u), huberWeight δ (norm2 (w f)), hu, (hw f hf).1, hwu, hU,
    (Except.ok.inj hRf).symm, hcpos, huberWeight_pos hδ, ?_, rfl⟩
  rw [hwu, norm2_scale hcpos.le]
  exact huberWeight_twice hδ

/-- Non-vacuity: the example graph has a factor with a Huber wrapper. -/
example : GoodClasses Ex.C ∧ (∀ f ∈ Ex.fsHuber, FactorWF Ex.F Ex.C f) ∧ Holds Ex.C Ex.fsHuber Ex.vars Ex.val Ex.a ∧
    Ex.f5 ∈ Ex.fsHuber ∧ Ex.f5.noise = .huber (.diagonal ⟨[2], [1, 2]⟩) ⟨[], [1]⟩ :=
  ⟨Ex.good, Ex.fsHuber_wf, Ex.holdsHuber, by simp [Ex.fsHuber], rfl⟩

/-- The graph of the counterexample: one scalar prior with a Huber wrapper of threshold 1. -/
noncomputable def exHuber : Factor := ⟨0, [Ex.x], .huber (.diagonal ⟨[1], [1]⟩) ⟨[], [1]⟩, [⟨[1], [0]⟩]⟩

/-- **C30, negation.** A graph with one factor whose residual is 16, whitened with unit variance and a Huber threshold of 1: the
residual is weighted with 1/4 (residual vector `[4]`), but the derivative of the unweighted residual, 1, is weighted with
1/2. -/
theorem C30_wrong_weight :
    ∃ (g : Graph) (a : Assign ℝ) (A : Coo ℝ) (val : Var → Value ℝ), (∀ f ∈ [exHuber], FactorWF Ex.F Ex.C f) ∧ Graph.make Ex.C [exHuber] = .ok g ∧
      Holds Ex.C [exHuber] [Ex.x] val a ∧
      (Ex.F 0).residual exHuber.self [val Ex.x] = [16] ∧ (Ex.F 0).jacobians exHuber.self [val Ex.x] = [⟨[1, 1], [1]⟩] ∧
      (Noise.diagonal ⟨[1], [1]⟩).whiten [16] = .ok [16] ∧
      g.computeWhitenedResidualVector Ex.F Ex.C a = .ok [4] ∧ g.computeWhitenedResidualJacobian Ex.F Ex.C a [4] = .ok A ∧
      A.matmul [1] = .ok [1 / 2] := by
  have hwf : ∀ f ∈ [exHuber], FactorWF Ex.F Ex.C f := by
    intro f hf
    rw [List.mem_singleton.1 hf]
    exact Ex.prior_wf Ex.x _ _ ⟨⟨⟨rfl, rfl⟩, rfl⟩, 1, rfl, by norm_num⟩ rfl
  obtain ⟨g, hg, hG⟩ := graph_ok (F := Ex.F) hwf (by simp)
  let val : Var → Value ℝ := fun _ => ⟨0, [⟨[1], [16]⟩]⟩
  let a : Assign ℝ := ⟨[16], Layout.make Ex.C [Ex.x] false⟩
  have hrep : Rep Ex.C [Ex.x] false (fun _ => [16]) a := by
    refine ⟨by decide, rfl, ?_, ?_⟩
    · intro v hv
      rw [List.mem_singleton.1 hv]
      simp [dimOf, Ex.paramDim, Ex.x]
    · have : grouped [Ex.x] = [Ex.x] := by decide
      rw [this]; rfl
  have hh : Holds Ex.C [exHuber] [Ex.x] val a := by
    refine ⟨hrep.isAssignment, hrep.flag, by simp [exHuber], ?_⟩
    intro v hv
    rw [hrep.getValue_ok hv, List.mem_singleton.1 hv]
    simp [unravel, Ex.C, VarClass.realVector, VarClass.euclidean, val, splitLeaves, Ex.x]
  have hres : (Ex.F 0).residual exHuber.self [val Ex.x] = [16] := by
    simp [Ex.F, val, exHuber, Factor.self, Value.flatten]
  have hjac : (Ex.F 0).jacobians exHuber.self [val Ex.x] = [⟨[1, 1], [1]⟩] := by
    simp [Ex.F, val, Value.flatten, Ex.eye, Arr.of2]
  have hwd : (Noise.diagonal ⟨[1], [1]⟩).whiten [16] = .ok [16] := by
    simp [Noise.whiten]
  have hn : norm2 [(16 : ℝ)] = 16 := by
    rw [norm2]; simp only [List.map_cons, List.map_nil, List.sum_cons, List.sum_nil, add_zero]
    exact Real.sqrt_sq (by norm_num)
  have hn4 : norm2 [(4 : ℝ)] = 4 := by
    rw [norm2]; simp only [List.map_cons, List.map_nil, List.sum_cons, List.sum_nil, add_zero]
    exact Real.sqrt_sq (by norm_num)
  have h16 : Real.sqrt (1 / 16) = 1 / 4 := by
    rw [show (1 : ℝ) / 16 = (1 / 4) ^ 2 by norm_num, Real.sqrt_sq (by norm_num)]
  have h4 : Real.sqrt (1 / 4) = 1 / 2 := by
    rw [show (1 : ℝ) / 4 = (1 / 2) ^ 2 by norm_num, Real.sqrt_sq (by norm_num)]
  have hwh : ∀ f ∈ [exHuber], whitenedAt Ex.F val f = .ok [4] := by
    intro f hf
    rw [List.mem_singleton.1 hf]
    unfold whitenedAt
    have : (Ex.F exHuber.cls).residual exHuber.self (exHuber.vars.map val) = [16] := hres
    rw [this]
    show (Noise.huber (.diagonal ⟨[1], [1]⟩) ⟨[], [1]⟩).whiten [16] = _
    rw [huber_whiten hwd, hn, huberWeight, if_neg (by norm_num), h16]
    norm_num
  have heval : evalOrder [exHuber] = [exHuber] := by simp [evalOrder, groupedBy, firstKeys]
  have hrd : rdim exHuber = 1 := rfl
  obtain ⟨hr, _⟩ := residual_ok Ex.good hwf (by simp) hG hh (w := fun _ => [4]) hwh
  rw [heval] at hr
  have hR : ∀ f ∈ [exHuber], ((Ex.F f.cls).jacobians f.self (f.vars.map val)).mapM
      (fun J => f.noise.whitenJacobian J ((fun _ => [4]) f)) = .ok ((fun _ => [⟨[1, 1], [1 / 2]⟩]) f) := by
    intro f hf
    rw [List.mem_singleton.1 hf]
    have : (Ex.F exHuber.cls).jacobians exHuber.self (exHuber.vars.map val) = [⟨[1, 1], [1]⟩] := hjac
    rw [this]
    show [(⟨[1, 1], [1]⟩ : Arr ℝ)].mapM (fun J => (Noise.huber (.diagonal ⟨[1], [1]⟩) ⟨[], [1]⟩).whitenJacobian J [4]) = _
    have hd : [(⟨[1, 1], [1]⟩ : Arr ℝ)].mapM (fun J => (Noise.diagonal ⟨[1], [1]⟩).whitenJacobian J [4]) = .ok [⟨[1, 1], [1]⟩] := by
      simp [Noise.whitenJacobian, Arr.of2, Arr.at2]
    rw [mapM_huber hd, hn4, huberWeight, if_neg (by norm_num), h4]
    simp [scaled]
  obtain ⟨A, hA, _, _, _, _, hprod⟩ := jacobian_ok Ex.good hwf (by simp) hG hh (ρ := fun _ => [4])
    (fun f hf => by rw [List.mem_singleton.1 hf]; rfl) hR
  rw [heval] at hA
  have hvars : Graph.variablesOf [exHuber] = [Ex.x] := rfl
  have hdim : g.localLayout.dim = 1 := by
    rw [hG.localLayout, hvars, make_dim _ (by decide)]
    have : grouped [Ex.x] = [Ex.x] := by decide
    rw [this]
    simp [total, dimOf, Ex.localDim, Ex.x]
  have hp := hprod [1] (by rw [hdim]; rfl)
  have hpos : posIn g.localLayout Ex.x = 0 := by
    have := posIn_lt (C := Ex.C) (vars := [Ex.x]) (by decide) (loc := true) (v := Ex.x) (by simp)
    rw [← hvars, ← hG.localLayout, hdim] at this
    simp [dimOf, Ex.localDim, Ex.x] at this
    exact this
  refine ⟨g, a, A, val, hwf, hg, hh, hres, hjac, hwd, by simpa using hr, by simpa using hA, ?_⟩
  have hfp : facProd Ex.C (posIn g.localLayout) (fun _ => [⟨[1, 1], [1 / 2]⟩]) [1] exHuber = [1 / 2] := by
    unfold facProd
    rw [hrd]
    have hv : exHuber.vars = [Ex.x] := rfl
    have hl : (Ex.C Ex.x.ty).localDim = 1 := Ex.localDim _
    simp [hv, blockProd, hpos, hl, Arr.at2]
  rw [hp, heval, List.flatMap_cons, hfp]
  rfl

end Jaxfg.Props
