/- The gradient that the normal equations of a graph with Huber noise use. -/
import Verif.Props.Linearize
import Verif.Spec.Huber
import Mathlib.Analysis.SpecialFunctions.Pow.Deriv
import Mathlib.Analysis.SpecialFunctions.Sqrt

namespace Jaxfg
open Spec
open Matrix hiding vec

/-- Product of the weights that the graph gives to the residual and to the Jacobian of a Huber factor. -/
noncomputable def slope (δ n : ℝ) : ℝ := if n < δ then 1 else (δ / n) ^ (3 / 4 : ℝ)

theorem huberWeight_mul {δ n : ℝ} (hδ : 0 < δ) : huberWeight δ n * huberWeight δ (huberWeight δ n * n) = slope δ n := by
  have h1 := Props.huberWeight_twice (n := n) hδ
  have h2 : huberWeight δ (huberWeight δ n * n) = Real.sqrt (huberWeight δ n) := by
    rw [← Real.sqrt_sq (huberWeight_pos (n := huberWeight δ n * n) hδ).le, h1]
  rw [h2]
  unfold slope
  by_cases h : n < δ
  · rw [if_pos h, huberWeight, if_pos h]; simp
  · have hn : 0 < δ / n := div_pos hδ (lt_of_lt_of_le hδ (not_lt.1 h))
    rw [if_neg h, huberWeight, if_neg h, Real.sqrt_eq_rpow, Real.sqrt_eq_rpow, ← Real.rpow_mul hn.le, ← Real.rpow_add hn]
    norm_num

theorem zipWith_sum_eq {a b : List ℝ} {n : Nat} (ha : a.length = n) (hb : b.length = n) :
    (List.zipWith (· * ·) a b).sum = vec a n ⬝ᵥ vec b n := by
  have : List.zipWith (· * ·) a b = List.ofFn fun i : Fin n => vec a n i * vec b n i := by
    apply List.ext_getElem (by simp [ha, hb])
    intro i h1 h2
    simp [vec_eq ha, vec_eq hb]
  rw [this, List.sum_ofFn]
  rfl

/-- Dot product of vectors given in blocks. -/
theorem dot_flatMap {β : Type _} (l : List β) (dim : β → Nat) (w u : β → List ℝ) (hw : ∀ f ∈ l, (w f).length = dim f)
    (hu : ∀ f ∈ l, (u f).length = dim f) :
    (List.zipWith (· * ·) (l.flatMap w) (l.flatMap u)).sum = (l.map fun f => vec (w f) (dim f) ⬝ᵥ vec (u f) (dim f)).sum := by
  induction l with
  | nil => rfl
  | cons f l ih =>
    rw [List.flatMap_cons, List.flatMap_cons, List.zipWith_append (by rw [hw f (by simp), hu f (by simp)]), List.sum_append,
      ih (fun f hf => hw f (by simp [hf])) (fun f hf => hu f (by simp [hf])), List.map_cons, List.sum_cons,
      zipWith_sum_eq (hw f (by simp)) (hu f (by simp))]

/-- Sum of blocks whitened one by one by a Gaussian model. -/
theorem applyBlocks_gaussian {C : Ty → VarClass ℝ} {N : Noise} {m : Nat} (hN : NoiseWF N m m) (hg : NoiseGaussian N) {r : List ℝ}
    (hr : r.length = m) (δ : Var → List ℝ) :
    ∀ (vs : List Var) (Js Rs : List (Arr ℝ)), List.Forall₂ (fun v J => IsMat J m (C v.ty).localDim) vs Js →
      Js.mapM (fun J => N.whitenJacobian J r) = .ok Rs →
      List.Forall₂ (fun v R => IsMat R m (C v.ty).localDim) vs Rs ∧
      applyBlocks C m vs Rs δ = noiseMat N m m *ᵥ
        (((vs.zip (Js.zip (vs.map δ))).map fun p =>
          arrMat p.2.1 m (C p.1.ty).localDim *ᵥ vec p.2.2 (C p.1.ty).localDim).sum) := by
  intro vs Js Rs h
  induction h generalizing Rs with
  | nil =>
    intro hm
    cases hm
    exact ⟨.nil, by simp [applyBlocks]⟩
  | @cons v J vs Js hJ _ ih =>
    intro hm
    obtain ⟨R, h1, h2, h3⟩ := whitenJacobian_gaussian hN hg hJ hr
    rw [List.mapM_cons, h1, py_bind_ok] at hm
    cases hm' : Js.mapM (fun J => N.whitenJacobian J r) with
    | error e => rw [hm'] at hm; cases hm
    | ok Rs' =>
      rw [hm'] at hm
      cases hm
      obtain ⟨i1, this⟩ := ih Rs' hm'
      refine ⟨.cons h2 i1, ?_⟩
      unfold applyBlocks at this ⊢
      simp only [List.zip_cons_cons, List.map_cons, List.sum_cons, this, h3, mulVec_add, mulVec_mulVec]

/-- Scaling all blocks scales the sum. -/
theorem applyBlocks_scaled {C : Ty → VarClass ℝ} {m : Nat} (c : ℝ) (δ : Var → List ℝ) (vs : List Var) (Rs : List (Arr ℝ)) :
    applyBlocks C m vs (Rs.map (Props.scaled c)) δ = c • applyBlocks C m vs Rs δ := by
  have hs : ∀ (J : Arr ℝ) (n : Nat), arrMat (Props.scaled c J) m n = c • arrMat J m n := by
    intro J n
    funext i j
    simp only [arrMat, Props.scaled, Matrix.smul_apply, smul_eq_mul, List.getD_eq_getElem?_getD, List.getElem?_map]
    cases J.data[i.1 * n + j.1]? <;> simp [mul_comm]
  unfold applyBlocks
  induction vs generalizing Rs with
  | nil => simp
  | cons v vs ih =>
    cases Rs with
    | nil => simp
    | cons R Rs =>
      simp only [List.map_cons, List.zip_cons_cons, List.sum_cons, ih Rs, hs, smul_add, smul_mulVec]

theorem hasDerivAt_sqNorm {u : ℝ → List ℝ} {n : Nat} (hn : ∀ t, (u t).length = n) {D : Fin n → ℝ}
    (h : HasDerivAt (fun t => vec (u t) n) D 0) : HasDerivAt (fun t => sqNorm (u t)) (2 * (vec (u 0) n ⬝ᵥ D)) 0 := by
  have hfun : (fun t => sqNorm (u t)) = fun t => ∑ i : Fin n, vec (u t) n i ^ 2 := by
    funext t; exact Props.sqNorm_eq_sum (hn t)
  rw [hfun]
  have hsum : HasDerivAt (fun t => ∑ i : Fin n, vec (u t) n i ^ 2) (∑ i : Fin n, 2 * vec (u 0) n i * D i) 0 := by
    apply HasDerivAt.fun_sum
    intro i _
    have := ((hasDerivAt_pi.1 h) i).fun_pow 2
    simpa using this
  refine hsum.congr_deriv ?_
  simp only [dotProduct, Finset.mul_sum, mul_assoc]

theorem hasDerivAt_listSum {β : Type _} (l : List β) (φ : β → ℝ → ℝ) (φ' : β → ℝ) (h : ∀ f ∈ l, HasDerivAt (φ f) (φ' f) 0) :
    HasDerivAt (fun t => (l.map fun f => φ f t).sum) ((l.map φ').sum) 0 := by
  induction l with
  | nil => simpa using hasDerivAt_const (0:ℝ) (0:ℝ)
  | cons f l ih =>
    simp only [List.map_cons, List.sum_cons]
    exact (h f (by simp)).add (ih fun f hf => h f (by simp [hf]))

/-- The vector `A.T @ r` of the solvers is half the gradient of the sum of losses `ρ`, if `ρ` has the right slope at the current
residuals. -/
theorem loss_gradient {F : Nat → FactorClass} {C : Ty → VarClass ℝ} (hC : GoodClasses C) (ρ : ℝ → ℝ → ℝ) {fs : List Factor}
    (hne : fs ≠ []) (hfs : ∀ f ∈ fs, FactorWF F C f) (hsimple : ∀ f ∈ fs, NoiseSimple f.noise) {g : Graph}
    (hg : Graph.make C fs = .ok g) {vars : List Var} {val : Var → Value ℝ} {a : Assign ℝ} (h : Holds C fs vars val a)
    (hlay : a.layout = g.layout) (hcorrect : ∀ f ∈ fs, JacobiansCorrect F C f (f.vars.map val))
    (hzero : ∀ v ∈ vars, (C v.ty).retract (val v) (List.replicate (C v.ty).localDim 0) = val v)
    (hρ : ∀ f ∈ fs, ∀ N δ u, f.noise = .huber N ⟨[], [δ]⟩ → N.whiten ((F f.cls).residual f.self (f.vars.map val)) = .ok u →
      HasDerivWithinAt (fun s => ρ δ (Real.sqrt s)) (slope δ (Real.sqrt (sqNorm u))) (Set.Ici 0) (sqNorm u)) :
    ∃ c r A y, g.computeCost F C a = .ok (c, r) ∧ g.computeWhitenedResidualJacobian F C a r = .ok A ∧
      A.T.matmul r = .ok y ∧ y.length = g.localLayout.dim ∧
      ∀ d : List ℝ, d.length = g.localLayout.dim → ∃ (b : ℝ → Assign ℝ) (vt : ℝ → Var → Value ℝ),
        (∀ t, a.manifoldRetract C ⟨d.map (t * ·), g.localLayout⟩ = .ok (b t) ∧ Holds C fs (Graph.variablesOf fs) (vt t) (b t) ∧
          vt t = fun v => (C v.ty).retract (val v) ((block C ⟨d, g.localLayout⟩ v).map (t * ·))) ∧
        HasDerivAt (fun t => (fs.map fun f => factorLoss ρ F (vt t) f).sum)
          (2 * (vec y g.localLayout.dim ⬝ᵥ vec d g.localLayout.dim)) 0 := by
  obtain ⟨g', hg', hG⟩ := graph_ok (F := F) hfs hne
  rw [hg] at hg'; cases hg'
  obtain ⟨w, hw⟩ := h.whitened hC hfs
  have hcost := Props.cost_ok F C hC hne hfs hG h fun f hf => (hw f hf).1
  obtain ⟨hr1, hr2⟩ := residual_ok hC hfs hne hG h fun f hf => (hw f hf).1
  obtain ⟨g', hg', hall⟩ := Props.C20_jacobian_product F C hC fs hne hfs
  rw [hg] at hg'; cases hg'
  obtain ⟨A, R, hA, hsh, hR, hprod⟩ := hall vars val a h w fun f hf => (hw f hf).2
  obtain ⟨g', hg', hall'⟩ := (Props.C19_coordinates F C hC fs hne hfs)
  rw [hg] at hg'; cases hg'
  obtain ⟨A', hA', -, _, hwf⟩ := hall'.2.2.2 vars val a h w fun f hf => (hw f hf).2
  rw [hA] at hA'; cases hA'
  set r := (evalOrder fs).flatMap w with hrdef
  obtain ⟨y, hy1, hy2, hy3⟩ := matmul_ok (Props.cooWF_T hwf) (x := r) (by rw [hr2]; simp [Coo.T, hsh])
  have hT : A.T.shape.1 = g.localLayout.dim := by simp [Coo.T, hsh]
  refine ⟨_, r, A, y, hcost, hA, hy1, by rw [hy2, hT], fun d hd => ?_⟩
  obtain ⟨u, hu, hud⟩ := hprod d hd
  have hretr := fun t : ℝ => Props.holds_retract hC hG h hlay (d := d.map (t * ·)) (by simpa using hd)
  choose b hb1 hb2 hb3 using hretr
  set vt : ℝ → Var → Value ℝ := fun t v => (C v.ty).retract (val v) (block C ⟨d.map (t * ·), g.localLayout⟩ v) with hvt
  refine ⟨b, vt, fun t => ⟨hb1 t, hb3 t, by funext v; rw [hvt]; simp only [Props.block_smul]⟩, ?_⟩
  -- values at `t = 0`
  have hlen : ∀ v, v ∈ Graph.variablesOf fs → (block C ⟨d, g.localLayout⟩ v).length = (C v.ty).localDim := by
    intro v hv
    have hs := variablesOf_spec fs
    have hδ : IsAssignmentOf C (Graph.variablesOf fs) ⟨d, g.localLayout⟩ := by
      refine ⟨hs.1, ?_, hd⟩
      simp only [hG.localLayout, make_localFlag]
    obtain ⟨q, hq⟩ := exists_rep hδ
    rw [hq.block_eq hv, hq.len v hv]
    simp [hG.localLayout, make_localFlag, dimOf]
  have h0 : ∀ f ∈ fs, f.vars.map (vt 0) = f.vars.map val := by
    intro f hf
    apply List.map_congr_left
    intro v hv
    have hm := mem_variablesOf hf hv
    have hvm : v ∈ vars := by rw [h.sameVars]; exact ⟨f, hf, hv⟩
    show (C v.ty).retract (val v) (block C ⟨d.map ((0:ℝ) * ·), g.localLayout⟩ v) = val v
    have e : block C ⟨d.map ((0:ℝ) * ·), g.localLayout⟩ v = List.replicate (C v.ty).localDim 0 := by
      rw [Props.block_smul, ← hlen v hm]
      simp
    rw [e, hzero v hvm]
  -- one factor
  have hfac : ∀ f ∈ fs, HasDerivAt (fun t => factorLoss ρ F (vt t) f) (2 * (vec (w f) (rdim f) ⬝ᵥ vec (u f) (rdim f))) 0 := by
    intro f hf
    have hδ : List.Forall₂ (fun v (x : List ℝ) => x.length = (C v.ty).localDim) f.vars
        (f.vars.map (block C ⟨d, g.localLayout⟩)) := by
      rw [List.forall₂_map_right_iff, List.forall₂_same]
      intro v hv
      exact hlen v (mem_variablesOf hf hv)
    have h1 := hcorrect f hf _ hδ
    have hm : ∀ t, movedValues C f.vars (f.vars.map val) (f.vars.map (block C ⟨d, g.localLayout⟩)) t = f.vars.map (vt t) := by
      intro t
      rw [Props.movedValues_map]
      simp only [Props.block_smul, hvt]
    simp only [hm] at h1
    have hJ := (hfs f hf).jacobians _ (h.valuesFor hC hf)
    have hvals : ∀ t, ValuesFor C f.vars (f.vars.map (vt t)) := fun t => (hb3 t).valuesFor hC hf
    -- whitening by a Gaussian model
    have gauss : ∀ N : Noise, NoiseWF N (rdim f) (rdim f) → NoiseGaussian N → ∃ uu : ℝ → List ℝ,
        (∀ t, N.whiten ((F f.cls).residual f.self (f.vars.map (vt t))) = .ok (uu t) ∧ (uu t).length = rdim f) ∧
        ∀ Rs, ((F f.cls).jacobians f.self (f.vars.map val)).mapM (fun J => N.whitenJacobian J (w f)) = .ok Rs →
          HasDerivAt (fun t => sqNorm (uu t))
            (2 * (vec (uu 0) (rdim f) ⬝ᵥ applyBlocks C (rdim f) f.vars Rs (block C ⟨d, g.localLayout⟩))) 0 := by
      intro N hN hNg
      have := fun t => whiten_gaussian hN hNg ((hfs f hf).residual _ (hvals t))
      choose uu e1 e2 e3 using this
      refine ⟨uu, fun t => ⟨e1 t, e2 t⟩, fun Rs hRs => hasDerivAt_sqNorm e2 ?_⟩
      rw [(applyBlocks_gaussian hN hNg (hw f hf).2 (block C ⟨d, g.localLayout⟩) f.vars _ Rs hJ hRs).2]
      refine (Props.hasDerivAt_mulVec (noiseMat N (rdim f) (rdim f)) h1).congr_of_eventuallyEq (Filter.Eventually.of_forall fun t => ?_)
      exact e3 t
    have hRf := (hR f hf).1
    unfold whitenedJacobiansAt at hRf
    have hwf1 := (hw f hf).1
    unfold whitenedAt at hwf1
    have hNwf := (hfs f hf).noise
    have plain : NoiseGaussian f.noise → HasDerivAt (fun t => match f.noise.whiten ((F f.cls).residual f.self (f.vars.map (vt t))) with
        | .ok u => sqNorm u
        | .error _ => 0) (2 * (vec (w f) (rdim f) ⬝ᵥ vec (u f) (rdim f))) 0 := by
      intro hgs
      obtain ⟨uu, hu1, hu2⟩ := gauss f.noise hNwf hgs
      have := hu2 _ hRf
      have e0 : uu 0 = w f := by
        have := (hu1 0).1
        rw [h0 f hf, hwf1] at this
        exact (Except.ok.inj this).symm
      rw [e0, ← (hud f hf).2] at this
      refine this.congr_of_eventuallyEq (Filter.Eventually.of_forall fun t => ?_)
      simp only [(hu1 t).1]
    cases hno : f.noise with
    | gaussian W =>
      rw [hno] at plain
      refine (plain trivial).congr_of_eventuallyEq (Filter.Eventually.of_forall fun t => ?_)
      simp only [factorLoss, hno]
      rfl
    | diagonal W =>
      rw [hno] at plain
      refine (plain trivial).congr_of_eventuallyEq (Filter.Eventually.of_forall fun t => ?_)
      simp only [factorLoss, hno]
      rfl
    | huber N δ' =>
      have hNwf' := hNwf
      rw [hno] at hNwf'
      obtain ⟨hN, δ, rfl, hδpos⟩ := hNwf'
      have hgs : NoiseGaussian N := by
        have := hsimple f hf
        rwa [hno] at this
      obtain ⟨uu, hu1, hu2⟩ := gauss N hN hgs
      obtain ⟨U, hU⟩ : ∃ U, ((F f.cls).jacobians f.self (f.vars.map val)).mapM (fun J => N.whitenJacobian J (w f)) = .ok U := by
        generalize (F f.cls).jacobians f.self (f.vars.map val) = Js at hJ
        generalize f.vars = vs at hJ
        induction hJ with
        | nil => exact ⟨[], rfl⟩
        | cons hJ _ ih =>
          obtain ⟨U, hU⟩ := ih
          obtain ⟨R, h1, _⟩ := whitenJacobian_ok hN hJ (hw f hf).2
          exact ⟨R :: U, by rw [List.mapM_cons, h1, py_bind_ok, hU]; rfl⟩
      have hD := hu2 U hU
      have hu0 := (hu1 0).1
      rw [h0 f hf] at hu0
      rw [hno, huber_whiten hu0] at hwf1
      have hwu := (Except.ok.inj hwf1).symm
      rw [hno, Props.mapM_huber hU] at hRf
      have hcpos := huberWeight_pos (n := norm2 (uu 0)) hδpos
      have hRU := (Except.ok.inj hRf).symm
      have hs := hρ f hf N δ (uu 0) hno hu0
      have hcomp := HasDerivWithinAt.comp_hasDerivAt (0:ℝ) (h₂ := fun s => ρ δ (Real.sqrt s)) (h := fun t => sqNorm (uu t)) hs hD
        (Filter.Eventually.of_forall fun t => sqNorm_nonneg (uu t))
      refine (hcomp.congr_of_eventuallyEq (Filter.Eventually.of_forall fun t => ?_)).congr_deriv ?_
      · simp only [factorLoss, hno, (hu1 t).1, List.getD_cons_zero, Function.comp]
      · have hn : Real.sqrt (sqNorm (uu 0)) = norm2 (uu 0) := rfl
        have hwn : norm2 (w f) = huberWeight δ (norm2 (uu 0)) * norm2 (uu 0) := by rw [hwu, Props.norm2_scale hcpos.le]
        have hwv : vec (w f) (rdim f) = huberWeight δ (norm2 (uu 0)) • vec (uu 0) (rdim f) := by
          funext i
          rw [hwu]
          simp only [Spec.vec, List.getD_eq_getElem?_getD, List.getElem?_map, Pi.smul_apply, smul_eq_mul]
          cases (uu 0)[i.1]? <;> simp [mul_comm]
        rw [hn, ← huberWeight_mul hδpos, (hud f hf).2, hRU, applyBlocks_scaled, hwn, hwv, smul_dotProduct, dotProduct_smul]
        simp only [smul_eq_mul]
        ring
  -- all factors
  refine (hasDerivAt_listSum fs (fun f t => factorLoss ρ F (vt t) f) _ hfac).congr_deriv ?_
  rw [List.sum_map_mul_left]
  congr 1
  have hz := matmul_ok hwf (x := d) (by rw [hd, hsh])
  obtain ⟨z', hz1, hz2, hz3⟩ := hz
  rw [hu] at hz1; cases hz1
  have h5 : vec ((evalOrder fs).flatMap u) g.residualDim = cooMatrix A g.residualDim g.localLayout.dim *ᵥ vec d g.localLayout.dim := by
    rw [hsh] at hz3; exact hz3
  have h6 : vec y g.localLayout.dim = (cooMatrix A g.residualDim g.localLayout.dim)ᵀ *ᵥ vec r g.residualDim := by
    have : A.T.shape = (g.localLayout.dim, g.residualDim) := by simp [Coo.T, hsh]
    rw [this, Props.cooMatrix_T] at hy3
    exact hy3
  have hmem : ∀ f, f ∈ evalOrder fs → f ∈ fs := fun f hf => mem_groupedBy.1 hf
  have hlu : ((evalOrder fs).flatMap u).length = g.residualDim := by
    rw [hG.residualDim]
    exact length_flatMap_blocks fun f hf => (hud f (hmem f hf)).1
  rw [h6, mulVec_transpose, ← dotProduct_mulVec, ← h5, ← zipWith_sum_eq hr2 hlu,
    dot_flatMap _ rdim w u (fun f hf => (hw f (hmem f hf)).2) (fun f hf => (hud f (hmem f hf)).1)]
  exact ((groupedBy_perm kind fs).map _).sum_eq.symm

theorem sqrt_lt_threshold {δ s : ℝ} (hδ : 0 < δ) (hs : 0 ≤ s) : Real.sqrt s < δ ↔ s < δ ^ 2 := Real.sqrt_lt hs hδ.le

/-- A loss that is quadratic below the threshold has slope 1 there. -/
theorem inlier_slope {ρ : ℝ → ℝ → ℝ} {δ s : ℝ} (hδ : 0 < δ) (hs : 0 ≤ s) (h : Real.sqrt s < δ) (hρ : ∀ n, n < δ → ρ δ n = n ^ 2) :
    HasDerivWithinAt (fun s => ρ δ (Real.sqrt s)) (slope δ (Real.sqrt s)) (Set.Ici 0) s := by
  rw [slope, if_pos h]
  rw [sqrt_lt_threshold hδ hs] at h
  refine (hasDerivAt_id s).hasDerivWithinAt.congr_of_eventuallyEq_of_mem ?_ hs
  filter_upwards [mem_nhdsWithin_of_mem_nhds (Iio_mem_nhds h), self_mem_nhdsWithin] with x hx hx0
  rw [hρ _ ((sqrt_lt_threshold hδ hx0).2 hx), Real.sq_sqrt hx0]
  rfl

theorem outer_deriv {δ s : ℝ} (hδ : 0 < δ) (hs : 0 < s) :
    HasDerivAt (fun s => 8 / 5 * δ ^ (3 / 4 : ℝ) * (Real.sqrt s) ^ (5 / 4 : ℝ) - 3 / 5 * δ ^ 2) ((δ / Real.sqrt s) ^ (3 / 4 : ℝ)) s := by
  have h1 := (Real.hasDerivAt_rpow_const (x := s) (p := 5 / 8) (Or.inl hs.ne')).const_mul (8 / 5 * δ ^ (3 / 4 : ℝ))
  refine ((h1.sub_const (3 / 5 * δ ^ 2)).congr_of_eventuallyEq ?_).congr_deriv ?_
  · filter_upwards [Ioi_mem_nhds hs] with x hx
    rw [Real.sqrt_eq_rpow, ← Real.rpow_mul (le_of_lt hx)]
    norm_num
  · rw [Real.div_rpow hδ.le (Real.sqrt_nonneg s), Real.sqrt_eq_rpow, ← Real.rpow_mul hs.le,
      show (5 / 8 - 1 : ℝ) = -(1 / 2 * (3 / 4)) by norm_num, Real.rpow_neg hs.le]
    ring

/-- The slope of the loss with exponent 5/4. -/
theorem fiveFourths_slope {δ s : ℝ} (hδ : 0 < δ) (hs : 0 ≤ s) :
    HasDerivWithinAt (fun s => fiveFourthsLoss δ (Real.sqrt s)) (slope δ (Real.sqrt s)) (Set.Ici 0) s := by
  rcases lt_trichotomy s (δ ^ 2) with h | h | h
  · exact inlier_slope hδ hs ((sqrt_lt_threshold hδ hs).2 h) fun n hn => if_pos hn
  · subst h
    have hsq : Real.sqrt (δ ^ 2) = δ := Real.sqrt_sq hδ.le
    have hval : 8 / 5 * δ ^ (3 / 4 : ℝ) * δ ^ (5 / 4 : ℝ) - 3 / 5 * δ ^ 2 = δ ^ 2 := by
      rw [mul_assoc, ← Real.rpow_add hδ]
      norm_num
      ring
    have hsl : slope δ (Real.sqrt (δ ^ 2)) = 1 := by rw [slope, hsq, if_neg (lt_irrefl δ), div_self hδ.ne', Real.one_rpow]
    rw [hsl]
    have h1 : HasDerivWithinAt (fun s => fiveFourthsLoss δ (Real.sqrt s)) 1 (Set.Icc 0 (δ ^ 2)) (δ ^ 2) := by
      refine (hasDerivAt_id (δ ^ 2)).hasDerivWithinAt.congr_of_mem ?_ ⟨hs, le_refl _⟩
      rintro x ⟨hx0, hx⟩
      rcases lt_or_eq_of_le hx with hx | rfl
      · show fiveFourthsLoss δ (Real.sqrt x) = x
        rw [fiveFourthsLoss, if_pos ((sqrt_lt_threshold hδ hx0).2 hx), Real.sq_sqrt hx0]
      · show fiveFourthsLoss δ (Real.sqrt (δ ^ 2)) = δ ^ 2
        rw [fiveFourthsLoss, hsq, if_neg (lt_irrefl δ), hval]
    have h2 : HasDerivWithinAt (fun s => fiveFourthsLoss δ (Real.sqrt s)) 1 (Set.Ici (δ ^ 2)) (δ ^ 2) := by
      have := outer_deriv hδ (s := δ ^ 2) (by positivity)
      rw [hsq, div_self hδ.ne', Real.one_rpow] at this
      refine this.hasDerivWithinAt.congr_of_mem ?_ (Set.mem_Ici.2 (le_refl _))
      intro x hx
      have hx' : δ ^ 2 ≤ x := hx
      rw [fiveFourthsLoss, if_neg (not_lt.2 (Real.le_sqrt_of_sq_le hx'))]
    have := h1.union h2
    rwa [Set.Icc_union_Ici_eq_Ici hs] at this
  · have hn : ¬ Real.sqrt s < δ := by rw [sqrt_lt_threshold hδ hs]; exact not_lt.2 h.le
    rw [slope, if_neg hn]
    refine ((outer_deriv hδ (lt_trans (by positivity) h)).congr_of_eventuallyEq ?_).hasDerivWithinAt
    filter_upwards [Ioi_mem_nhds h] with x hx
    rw [fiveFourthsLoss, if_neg (not_lt.2 (Real.le_sqrt_of_sq_le (le_of_lt hx)))]

end Jaxfg
