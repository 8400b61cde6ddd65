/-
Property C82: marginal covariances of whole graphs (jaxfg/experimental/_sparse_covariance.py together with the graph, the noise
models and the prior factors).
-/
import Verif.Props.Covariance
import Verif.Props.Graph
import Verif.Props.Noise
import Verif.Lemmas.Parts
import Verif.Lemmas.PoseGraphScript
import Verif.Props.Geometry

namespace Jaxfg.Props
open Matrix hiding vec
open Spec SparseCovariance

section
variable (lib : CholmodChoice) (F : Nat → FactorClass) (C : Ty → VarClass ℝ)

/-- The factor that `SparseCovariance.make` stores, for a Jacobian with `n` columns. -/
theorem covariance_factor {g : Graph} {a : Assign ℝ} {r : List ℝ} {A : Coo ℝ} (hr : g.computeWhitenedResidualVector F C a = .ok r)
    (hJ : g.computeWhitenedResidualJacobian F C a r = .ok A) (hA : CooWF A) {n : Nat} (hn : A.shape.2 = n) :
    ∃ σ : Equiv.Perm (Fin n), (∃ p, σ = lib.order p n) ∧
      let H := (cooMatrix A A.shape.1 n)ᵀ * cooMatrix A A.shape.1 n
      (H.PosDef → ∃ L, SparseCovariance.make lib F C g a = .ok (ofFactor L g.localLayout) ∧ IsTriangularFactor L n ∧
        (cscMatrix L n * (cscMatrix L n)ᵀ)⁻¹ = (H⁻¹).submatrix σ σ) ∧
      (¬ H.PosDef → SparseCovariance.make lib F C g a = .error .value) := by
  classical
  subst hn
  refine ⟨lib.order ((A.shape.2, A.shape.1), (A.cols.zip A.rows).toFinset) A.shape.2, ⟨_, rfl⟩, ?_⟩
  intro H
  obtain ⟨σ, hσ⟩ : ∃ σ, σ = lib.order ((A.shape.2, A.shape.1), (A.cols.zip A.rows).toFinset) A.shape.2 := ⟨_, rfl⟩
  rw [← hσ]
  have hmake : SparseCovariance.make lib F C g a = (cholmodAAtL lib ⟨A.T.values, A.T.rows, A.T.cols, A.T.shape⟩).map
      (fun L => ofFactor L g.localLayout) := by
    unfold SparseCovariance.make
    rw [hr, py_bind_ok, hJ, py_bind_ok, asScipy_ok (cooWF_T hA), py_bind_ok]
    cases cholmodAAtL lib ⟨A.T.values, A.T.rows, A.T.cols, A.T.shape⟩ <;> rfl
  have hm' : ScipyCoo.toMatrix ⟨A.T.values, A.T.rows, A.T.cols, A.T.shape⟩ * (ScipyCoo.toMatrix ⟨A.T.values, A.T.rows, A.T.cols, A.T.shape⟩)ᵀ =
      H := by
    have hm : ScipyCoo.toMatrix ⟨A.T.values, A.T.rows, A.T.cols, A.T.shape⟩ = (cooMatrix A A.shape.1 A.shape.2)ᵀ := by
      rw [toMatrix_eq]
      exact cooMatrix_T
    rw [hm]; rfl
  have hL : cholmodAAtL lib ⟨A.T.values, A.T.rows, A.T.cols, A.T.shape⟩ = if H.PosDef then
      .ok (Csc.ofLower A.shape.2 (cholesky (H.submatrix σ σ)) (lib.storesZero ((A.shape.2, A.shape.1), (A.cols.zip A.rows).toFinset)))
      else .error .value := by
    unfold cholmodAAtL
    simp only
    subst hσ
    change (if (ScipyCoo.toMatrix ⟨A.T.values, A.T.rows, A.T.cols, A.T.shape⟩ *
        (ScipyCoo.toMatrix ⟨A.T.values, A.T.rows, A.T.cols, A.T.shape⟩)ᵀ : Matrix (Fin A.shape.2) (Fin A.shape.2) ℝ).PosDef then
      Except.ok (Csc.ofLower A.shape.2 (cholesky ((ScipyCoo.toMatrix ⟨A.T.values, A.T.rows, A.T.cols, A.T.shape⟩ *
        (ScipyCoo.toMatrix ⟨A.T.values, A.T.rows, A.T.cols, A.T.shape⟩)ᵀ : Matrix (Fin A.shape.2) (Fin A.shape.2) ℝ).submatrix _ _)) _)
      else _) = _
    rw [hm']
    rfl
  rw [hmake, hL]
  constructor
  · intro hH
    rw [if_pos hH]
    have hS : (H.submatrix σ σ).PosDef := hH.submatrix σ.injective
    have hch := cholesky_spec hS
    refine ⟨_, rfl, ofLower_factor hch.lower hch.diag_pos _, ?_⟩
    rw [cscMatrix_ofLower hch.lower, hch.mul_self, inv_submatrix_equiv]
  · intro hH
    rw [if_neg hH]
    rfl

end

section
variable {F : Nat → FactorClass} {C : Ty → VarClass ℝ}

/-- The information matrix as a sum over the factors. -/
theorem information_sum {fs : List Factor} {A : Coo ℝ} (hA : CooWF A) {n : Nat} (hn : A.shape.2 = n) {l : Layout}
    {R : Factor → List (Arr ℝ)}
    (hmul : ∀ x : List ℝ, x.length = n → A.matmul x = .ok ((evalOrder fs).flatMap (facProd C (posIn l) R x)))
    {B : Factor → Matrix (Fin n) (Fin n) ℝ}
    (hB : ∀ f ∈ fs, ∀ z x : List ℝ, z.length = n → x.length = n →
      vdot (facProd C (posIn l) R z f) (facProd C (posIn l) R x f) = vec z n ⬝ᵥ B f *ᵥ vec x n) :
    (cooMatrix A A.shape.1 n)ᵀ * cooMatrix A A.shape.1 n = (fs.map B).sum := by
  subst hn
  have hperm : (evalOrder fs).Perm fs := by unfold evalOrder; exact groupedBy_perm kind fs
  ext i j
  have hz := hmul (ofVec (Pi.single i (1 : ℝ))) (length_ofVec _)
  have hx := hmul (ofVec (Pi.single j (1 : ℝ))) (length_ofVec _)
  obtain ⟨-, lz, ez⟩ := matmul_vec hA hz
  obtain ⟨-, lx, ex⟩ := matmul_vec hA hx
  have e1 := vdot_eq lz lx
  rw [ez, ex, vdot_flatMap (fun f _ => by simp [length_facProd]), vec_ofVec, vec_ofVec] at e1
  have e2 : ((evalOrder fs).map fun f => vdot (facProd C (posIn l) R (ofVec (Pi.single i (1 : ℝ))) f)
      (facProd C (posIn l) R (ofVec (Pi.single j (1 : ℝ))) f)).sum = (fs.map fun f => B f i j).sum := by
    rw [(hperm.map _).sum_eq]
    congr 1
    apply List.map_congr_left
    intro f hf
    rw [hB f hf _ _ (length_ofVec _) (length_ofVec _), vec_ofVec, vec_ofVec]
    simp
  rw [e2] at e1
  have e3 : (fs.map B).sum i j = (fs.map fun f => B f i j).sum := by
    clear hB e1 e2 hperm hz hx lz lx ez ex hmul
    induction fs with
    | nil => rfl
    | cons f fs ih => simp [Matrix.add_apply, ih]
  rw [e3, e1]
  simp [Matrix.mul_apply, dotProduct]

/-- A whitened Jacobian of a factor of a single variable, and its product with a vector. -/
theorem facProd_single {f : Factor} {v : Var} (hv : f.vars = [v]) {l : Layout} (hl : posIn l v = 0) {R : Factor → List (Arr ℝ)}
    {x : List ℝ} (hx : x.length = (C v.ty).localDim) :
    vec (facProd C (posIn l) R x f) (rdim f) =
      arrMat ((R f).getD 0 ⟨[], []⟩) (rdim f) (C v.ty).localDim *ᵥ vec x (C v.ty).localDim := by
  funext i
  rw [vec_eq length_facProd]
  unfold facProd
  rw [List.getElem_map, List.getElem_range, hv]
  simp only [List.length_cons, List.length_nil, Nat.zero_add, Finset.sum_range_one, List.getD_cons_zero]
  unfold blockProd
  rw [hl, Finset.sum_range]
  simp only [mulVec, dotProduct, Nat.zero_add, arrMat, Arr.at2]
  apply Finset.sum_congr rfl
  intro c _
  rw [vec_eq hx]
  congr 1
  rw [List.getD_eq_getElem?_getD, List.getElem?_eq_getElem (by rw [hx]; exact c.2)]
  rfl

/-- **C82, any factors on one variable.** For every graph all of whose factors are on one variable `v`, with Gaussian noise
models `W_f` and coded Jacobians `J_f` at the stored value: `SparseCovariance.make(graph, a).compute_marginal(v)` is, after any
history of queries, `(Σ_f (W_f J_f)ᵀ (W_f J_f))⁻¹`, with rows and columns permuted as CHOLMOD chose (not at all if it keeps the
order), and `make` raises if that sum is not positive definite. -/
theorem C82_one_variable (lib : CholmodChoice) (hC : GoodClasses C) (v : Var) (fs : List Factor) (hne : fs ≠ [])
    (hfs : ∀ f ∈ fs, FactorWF F C f) (hv : ∀ f ∈ fs, f.vars = [v]) (hgauss : ∀ f ∈ fs, NoiseGaussian f.noise)
    (vars : List Var) (val : Var → Value ℝ) (a : Assign ℝ) (h : Holds C fs vars val a) (n : Nat) (hn : (C v.ty).localDim = n) :
    let WJ : Factor → Matrix (Fin n) (Fin n) ℝ := fun f =>
      let M := noiseMat f.noise (rdim f) (rdim f) *
        arrMat (((F f.cls).jacobians f.self [val v]).getD 0 ⟨[], []⟩) (rdim f) n
      Mᵀ * M
    let H := (fs.map WJ).sum
    ∃ g, Graph.make C fs = .ok g ∧
      (H.PosDef → ∃ (c : SparseCovariance ℝ) (σ : Equiv.Perm (Fin n)), SparseCovariance.make lib F C g a = .ok c ∧ (∃ p, σ = lib.order p n) ∧
        ∀ cache, Reachable c cache → ∀ depth, 2 * n ≤ depth + 1 →
          (c.computeMarginal C depth [v] cache).1 = .ok (List.ofFn fun i => List.ofFn fun j => H⁻¹ (σ i) (σ j))) ∧
      (¬ H.PosDef → SparseCovariance.make lib F C g a = .error .value) := by
  subst hn
  intro WJ H
  obtain ⟨g, hg, hG⟩ := graph_ok (F := F) hfs hne
  refine ⟨g, hg, ?_⟩
  obtain ⟨f₀, hf₀⟩ := List.exists_mem_of_ne_nil _ hne
  have hvs : Graph.variablesOf fs = [v] := by
    obtain ⟨h1, h2⟩ := variablesOf_spec fs
    have hmem : ∀ w, w ∈ Graph.variablesOf fs ↔ w ∈ [v] := by
      intro w
      rw [h2 w, List.mem_singleton]
      constructor
      · rintro ⟨f, hf, hw⟩
        rw [hv f hf] at hw
        simpa using hw
      · rintro rfl
        exact ⟨f₀, hf₀, by rw [hv f₀ hf₀]; simp⟩
    exact List.perm_singleton.1 ((List.perm_ext_iff_of_nodup h1 (by simp)).2 hmem)
  have hlay : g.localLayout = Layout.make C [v] true := by rw [hG.localLayout, hvs]
  have hgrp : grouped [v] = [v] := by simp [grouped, firstTypes]
  have hdim : g.localLayout.dim = (C v.ty).localDim := by
    rw [hlay, make_dim C (by simp), hgrp]
    simp [total, dimOf]
  have hget : g.localLayout.indexFromVar.get? v = some 0 := by
    rw [hlay]
    exact make_index C (by simp) true (as := []) (bs := []) hgrp
  have hpos : posIn g.localLayout v = 0 := by unfold posIn; rw [hget]; rfl
  obtain ⟨w, hw⟩ := Holds.whitened hC hfs h
  have hval : ∀ f ∈ fs, f.vars.map val = [val v] := fun f hf => by rw [hv f hf]; rfl
  have hRex : ∀ f, ∃ R, f ∈ fs → ((F f.cls).jacobians f.self (f.vars.map val)).mapM (fun J => f.noise.whitenJacobian J (w f)) = .ok R ∧
      arrMat (R.getD 0 ⟨[], []⟩) (rdim f) (C v.ty).localDim = noiseMat f.noise (rdim f) (rdim f) *
        arrMat (((F f.cls).jacobians f.self [val v]).getD 0 ⟨[], []⟩) (rdim f) (C v.ty).localDim := by
    intro f
    by_cases hf : f ∈ fs
    · have hj := (hfs f hf).jacobians _ (h.valuesFor hC hf)
      rw [hval f hf, hv f hf] at hj
      rw [hval f hf]
      generalize (F f.cls).jacobians f.self [val v] = Js at hj
      cases hj with
      | cons hj hnil =>
        cases hnil
        obtain ⟨R, h1, h2, h3⟩ := whitenJacobian_gaussian (hfs f hf).noise (hgauss f hf) hj (hw f hf).2
        refine ⟨[R], fun _ => ⟨?_, h3⟩⟩
        simp [h1]
    · exact ⟨[], fun h => absurd h hf⟩
  choose R hR using hRex
  have hres := (residual_ok hC hfs hne hG h (fun f hf => (hw f hf).1)).1
  obtain ⟨A, hJ, hA, hshape, -, -, hmul⟩ := jacobian_ok hC hfs hne hG h (fun f hf => (hw f hf).2) (fun f hf => (hR f hf).1)
  have hn : A.shape.2 = (C v.ty).localDim := by rw [hshape]; exact hdim
  obtain ⟨σ, hσ, hcov⟩ := covariance_factor lib F C hres hJ hA hn
  have hH : (cooMatrix A A.shape.1 (C v.ty).localDim)ᵀ * cooMatrix A A.shape.1 (C v.ty).localDim = H := by
    refine information_sum (C := C) (l := g.localLayout) (R := R) hA hn (fun x hx => hmul x (hx.trans hdim.symm)) ?_
    intro f hf z x hz hx
    rw [vdot_eq (n := rdim f) length_facProd length_facProd, facProd_single (hv f hf) hpos hz, facProd_single (hv f hf) hpos hx,
      (hR f hf).2]
    simp only [WJ]
    generalize noiseMat f.noise (rdim f) (rdim f) *
      arrMat (((F f.cls).jacobians f.self [val v]).getD 0 ⟨[], []⟩) (rdim f) (C v.ty).localDim = M
    rw [← mulVec_mulVec, dotProduct_mulVec (vec z _) Mᵀ, vecMul_transpose]
  simp only [hH] at hcov
  refine ⟨fun hp => ?_, hcov.2⟩
  obtain ⟨L, h1, h2, h3⟩ := hcov.1 hp
  refine ⟨_, σ, h1, hσ, fun cache hc depth hd => ?_⟩
  have hidx : marginalIndices C g.localLayout [v] =
      .ok ((List.range (C v.ty).localDim).map fun (k : Nat) => (k : Int)) := by
    unfold marginalIndices
    simp only [List.foldlM_cons, List.foldlM_nil, PyDict.get_ok_of hget, py_bind_ok]
    simp
  unfold computeMarginal
  rw [show (ofFactor L g.localLayout).localLayout = g.localLayout from rfl, hidx]
  simp only
  rw [marginalIdx_eq h2 (reachable_good h2 hc) hd (by simp)]
  congr 1
  rw [← List.map_coe_finRange_eq_range, List.map_map, List.ofFn_eq_map]
  refine List.map_congr_left fun i _ => ?_
  simp only [Function.comp, List.map_map, List.ofFn_eq_map]
  refine List.map_congr_left fun j _ => ?_
  rw [show covarianceOf L (C v.ty).localDim = _ from h3]
  exact extend_of _ i j

/-- What one prior with covariance `S` adds to the information matrix: `S⁻¹`. -/
theorem prior_information {n m : Nat} (hm : m = n) {S : Arr ℝ} (hS : IsMat S n n) (hpos : (arrMat S n n).PosDef) {N : Noise}
    (hN : Noise.gaussianFromCovariance S = .ok N) :
    (noiseMat N m m * arrMat (negEye n) m n)ᵀ * (noiseMat N m m * arrMat (negEye n) m n) = (arrMat S n n)⁻¹ := by
  subst hm
  have hc := cholesky_spec hpos
  simp only [Noise.gaussianFromCovariance, hS.1, if_true] at hN
  obtain rfl : N = .gaussian (.ofMat (cholesky (arrMat S m m))⁻¹) := (Except.ok.inj hN).symm
  simp only [noiseMat]
  rw [arrMat_ofMat, arrMat_negEye, mul_neg, mul_one, transpose_neg, neg_mul_neg]
  conv_rhs => rw [← hc.mul_self, Matrix.mul_inv_rev]
  rw [Matrix.transpose_nonsing_inv]

/-- **C82, several priors on one pose.** For every Lie group of the library, every non-empty list of prior factors on one pose
variable made with `Gaussian.make_from_covariance(Sᵢ)` for positive definite `Sᵢ`, whatever the measurements and the stored pose:
`SparseCovariance.make(graph, a).compute_marginal(v)` is `(Σᵢ Sᵢ⁻¹)⁻¹` (rows and columns in the order that CHOLMOD chose). -/
theorem C82_priors (lib : CholmodChoice) (hC : GoodClasses C) (k : LieType) (v : Var) (hv : C v.ty = k.ops.varClass) (cls : Nat)
    (hF : F cls = priorFactorClass k.ops) (fs : List Factor) (S : Factor → Arr ℝ) (hne : fs ≠ [])
    (hS : ∀ f ∈ fs, IsMat (S f) k.ops.tangentDim k.ops.tangentDim ∧ (arrMat (S f) k.ops.tangentDim k.ops.tangentDim).PosDef)
    (hfs : ∀ f ∈ fs, ∃ mu N, mu.length = k.ops.parametersDim ∧ Noise.gaussianFromCovariance (S f) = .ok N ∧
      f = PriorFactor.make cls v (k.ops.value mu) N)
    (vars : List Var) (val : Var → Value ℝ) (a : Assign ℝ) (h : Holds C fs vars val a) :
    ∃ (g : Graph) (c : SparseCovariance ℝ) (σ : Equiv.Perm (Fin k.ops.tangentDim)), Graph.make C fs = .ok g ∧
      SparseCovariance.make lib F C g a = .ok c ∧ (∃ p, σ = lib.order p k.ops.tangentDim) ∧
      ∀ cache, Reachable c cache → ∀ depth, 2 * k.ops.tangentDim ≤ depth + 1 →
        (c.computeMarginal C depth [v] cache).1 = .ok (List.ofFn fun i => List.ofFn fun j =>
          ((fs.map fun f => (arrMat (S f) k.ops.tangentDim k.ops.tangentDim)⁻¹).sum)⁻¹ (σ i) (σ j)) := by
  have hnoise : ∀ f ∈ fs, NoiseWF f.noise k.ops.tangentDim k.ops.tangentDim ∧ NoiseGaussian f.noise := by
    intro f hf
    obtain ⟨mu, N, -, hN, he⟩ := hfs f hf
    simp only [Noise.gaussianFromCovariance, (hS _ hf).1.1, if_true] at hN
    have hNn : f.noise = N := by rw [he]; rfl
    rw [hNn, ← Except.ok.inj hN]
    exact ⟨isMat_ofMat _, trivial⟩
  have hwf : ∀ f ∈ fs, FactorWF F C f := by
    intro f hf
    have hn := (hnoise f hf).1
    obtain ⟨mu, N, hmu, hN, rfl⟩ := hfs f hf
    exact prior_wf k (a := v) rfl hF rfl hmu hn hv
  have hvars : ∀ f ∈ fs, f.vars = [v] := by
    intro f hf
    obtain ⟨mu, N, hmu, hN, rfl⟩ := hfs f hf
    rfl
  have hld : (C v.ty).localDim = k.ops.tangentDim := by rw [hv]; rfl
  obtain ⟨g, hg, h1, -⟩ := C82_one_variable lib hC v fs hne hwf hvars (fun f hf => (hnoise f hf).2) vars val a h _ hld
  have hsum : ∀ f ∈ fs, (noiseMat f.noise (rdim f) (rdim f) *
      arrMat (((F f.cls).jacobians f.self [val v]).getD 0 ⟨[], []⟩) (rdim f) k.ops.tangentDim)ᵀ *
      (noiseMat f.noise (rdim f) (rdim f) *
      arrMat (((F f.cls).jacobians f.self [val v]).getD 0 ⟨[], []⟩) (rdim f) k.ops.tangentDim) =
      (arrMat (S f) k.ops.tangentDim k.ops.tangentDim)⁻¹ := by
    intro f hf
    have hr : rdim f = k.ops.tangentDim := noiseDim_of_wf (hnoise f hf).1
    obtain ⟨mu, N, hmu, hN, he⟩ := hfs f hf
    have hcls : F f.cls = priorFactorClass k.ops := by rw [he]; exact hF
    have hJ : ((F f.cls).jacobians f.self [val v]).getD 0 ⟨[], []⟩ = negEye k.ops.tangentDim := by rw [hcls]; rfl
    have hNn : f.noise = N := by rw [he]; rfl
    rw [hJ, hNn]
    exact prior_information hr (hS f hf).1 (hS f hf).2 hN
  have hmap : (fs.map fun f => (noiseMat f.noise (rdim f) (rdim f) *
      arrMat (((F f.cls).jacobians f.self [val v]).getD 0 ⟨[], []⟩) (rdim f) k.ops.tangentDim)ᵀ *
      (noiseMat f.noise (rdim f) (rdim f) *
      arrMat (((F f.cls).jacobians f.self [val v]).getD 0 ⟨[], []⟩) (rdim f) k.ops.tangentDim)) =
      fs.map fun f => (arrMat (S f) k.ops.tangentDim k.ops.tangentDim)⁻¹ := List.map_congr_left hsum
  simp only [hmap] at h1
  have hpos : (fs.map fun f => (arrMat (S f) k.ops.tangentDim k.ops.tangentDim)⁻¹).sum.PosDef := by
    have aux : ∀ l : List Factor, l ≠ [] → (∀ f ∈ l, f ∈ fs) →
        (l.map fun f => (arrMat (S f) k.ops.tangentDim k.ops.tangentDim)⁻¹).sum.PosDef := by
      intro l
      induction l with
      | nil => intro h; exact absurd rfl h
      | cons f l ih =>
        intro _ hl
        rw [List.map_cons, List.sum_cons]
        have hf := (hS f (hl f (by simp))).2.inv
        by_cases hnil : l = []
        · subst hnil; simpa using hf
        · exact hf.add (ih hnil fun x hx => hl x (by simp [hx]))
    exact aux fs hne fun _ h => h
  obtain ⟨c, σ, h2, h3, h4⟩ := h1 hpos
  exact ⟨g, c, σ, hg, h2, h3, h4⟩

/-- **C82, equal priors.** With `m` priors of the same covariance `S` (the cases `m = 1` and `m = 2` are
tests/test_marginalization.py) the marginal covariance is `S / m`. -/
theorem C82_equal_priors (lib : CholmodChoice) (hC : GoodClasses C) (k : LieType) (v : Var) (hv : C v.ty = k.ops.varClass) (cls : Nat)
    (hF : F cls = priorFactorClass k.ops) (S : Arr ℝ) (hS : IsMat S k.ops.tangentDim k.ops.tangentDim)
    (hpos : (arrMat S k.ops.tangentDim k.ops.tangentDim).PosDef) (N : Noise) (hN : Noise.gaussianFromCovariance S = .ok N)
    (mus : List (List ℝ)) (hmu : ∀ mu ∈ mus, mu.length = k.ops.parametersDim) (hne : mus ≠ [])
    (vars : List Var) (val : Var → Value ℝ) (a : Assign ℝ)
    (h : Holds C (mus.map fun mu => PriorFactor.make cls v (k.ops.value mu) N) vars val a) :
    ∃ (g : Graph) (c : SparseCovariance ℝ) (σ : Equiv.Perm (Fin k.ops.tangentDim)),
      Graph.make C (mus.map fun mu => PriorFactor.make cls v (k.ops.value mu) N) = .ok g ∧
      SparseCovariance.make lib F C g a = .ok c ∧ (∃ p, σ = lib.order p k.ops.tangentDim) ∧
      ∀ cache, Reachable c cache → ∀ depth, 2 * k.ops.tangentDim ≤ depth + 1 →
        (c.computeMarginal C depth [v] cache).1 = .ok (List.ofFn fun i => List.ofFn fun j =>
          arrMat S k.ops.tangentDim k.ops.tangentDim (σ i) (σ j) / mus.length) := by
  obtain ⟨g, c, σ, h1, h2, h3, h4⟩ := C82_priors lib hC k v hv cls hF _ (fun _ => S) (by simpa using hne)
    (fun _ _ => ⟨hS, hpos⟩) (by
      intro f hf
      obtain ⟨mu, hm, rfl⟩ := List.mem_map.1 hf
      exact ⟨mu, N, hmu mu hm, hN, rfl⟩) vars val a h
  refine ⟨g, c, σ, h1, h2, h3, fun cache hc depth hd => ?_⟩
  rw [h4 cache hc depth hd]
  have hinv : (((mus.map fun mu => PriorFactor.make cls v (k.ops.value mu) N).map fun _ =>
      (arrMat S k.ops.tangentDim k.ops.tangentDim)⁻¹).sum)⁻¹ = (mus.length : ℝ)⁻¹ • arrMat S k.ops.tangentDim k.ops.tangentDim := by
    have hm0 : (mus.length : ℝ) ≠ 0 := by
      have : mus.length ≠ 0 := fun h => hne (List.length_eq_zero_iff.1 h)
      exact_mod_cast this
    have hu : IsUnit (arrMat S k.ops.tangentDim k.ops.tangentDim).det := hpos.det_pos.ne'.isUnit
    rw [List.map_const', List.sum_replicate, List.length_map]
    apply Matrix.inv_eq_right_inv
    rw [← Nat.cast_smul_eq_nsmul ℝ, smul_mul_smul_comm, mul_inv_cancel₀ hm0, one_smul, Matrix.nonsing_inv_mul _ hu]
  rw [hinv]
  congr 2
  funext i
  congr 1
  funext j
  rw [Matrix.smul_apply, smul_eq_mul, inv_mul_eq_div]

end

/-- Two priors on a planar pose with correlated covariances, with different measurements, at a pose that is at neither of them,
meet the hypotheses of C82. -/
example : IsMat ⟨[3, 3], [2, 1, 0, 1, 2, 0, 0, 0, 5]⟩ 3 3 ∧ (arrMat ⟨[3, 3], [2, 1, 0, 1, 2, 0, 0, 0, 5]⟩ 3 3).PosDef ∧
    PoseEx.C PoseEx.x.ty = LieType.se2.ops.varClass ∧ PoseEx.F 0 = priorFactorClass LieType.se2.ops ∧
    (∃ N, Noise.gaussianFromCovariance ⟨[3, 3], [2, 1, 0, 1, 2, 0, 0, 0, 5]⟩ = .ok N ∧
      ∃ a, Holds PoseEx.C ([[0, 1, 3, 4], [1, 0, 0, 0]].map fun mu => PriorFactor.make 0 PoseEx.x (LieType.se2.ops.value mu) N)
        [PoseEx.x] (fun _ => LieType.se2.ops.value [1, 0, 1, 2]) a) ∧
    ∀ mu ∈ ([[0, 1, 3, 4], [1, 0, 0, 0]] : List (List ℝ)), mu.length = LieType.se2.ops.parametersDim := by
  refine ⟨⟨rfl, rfl⟩, ?_, rfl, rfl, ⟨_, rfl, ?_⟩, by intro mu h; simp at h; rcases h with rfl | rfl <;> rfl⟩
  · have hM : arrMat ⟨[3, 3], [2, 1, 0, 1, 2, 0, 0, 0, 5]⟩ 3 3 = !![2, 1, 0; 1, 2, 0; 0, 0, 5] := by
      funext i j
      fin_cases i <;> fin_cases j <;> simp [arrMat]
    rw [hM]
    apply Matrix.PosDef.of_dotProduct_mulVec_pos
    · ext i j; fin_cases i <;> fin_cases j <;> simp
    · intro x hx
      have h : x 0 ≠ 0 ∨ x 1 ≠ 0 ∨ x 2 ≠ 0 := by
        by_contra hc
        push Not at hc
        exact hx (by funext i; fin_cases i <;> simp [hc.1, hc.2.1, hc.2.2])
      simp [Matrix.mulVec, dotProduct, Fin.sum_univ_three]
      rcases h with h | h | h <;> have := sq_pos_of_ne_zero h <;>
        nlinarith [sq_nonneg (x 0 + x 1), sq_nonneg (x 0), sq_nonneg (x 1), sq_nonneg (x 2)]
  · have hd : (⟨[(PoseEx.x, LieType.se2.ops.value [1, 0, 1, 2])]⟩ : PyDict Var (Value ℝ)).get? PoseEx.x =
        some (LieType.se2.ops.value [1, 0, 1, 2]) := rfl
    obtain ⟨⟨a, h1, h2, h3, h4, h5⟩, -⟩ := C07_partial_and_defaults PoseEx.C (fun t => lie_wellShaped _) [PoseEx.x] (by decide) (by decide)
      ⟨[(PoseEx.x, LieType.se2.ops.value [1, 0, 1, 2])]⟩ (fun v hv z hz => by
        obtain rfl := List.mem_singleton.1 hv
        rw [hd] at hz
        obtain rfl := Option.some.inj hz
        exact (isValueOf_lie _).2 ⟨_, rfl, rfl⟩)
    refine ⟨a, h2, h3, fun v => by simp [PriorFactor.make], fun v hv => ?_⟩
    obtain rfl := List.mem_singleton.1 hv
    exact h4 _ hv _ hd

end Jaxfg.Props
