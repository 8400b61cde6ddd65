/- Adjoints of poses, whitening of Jacobians by regular noise models, and directions in which no factor changes. -/
import Verif.Spec.Anchored
import Verif.Props.Marginal
import Verif.Lemmas.LieRetract

namespace Jaxfg
open Spec
open Matrix hiding vec

/-! ### Adjoints -/

theorem scale_scale (s t : ℝ) (d : List ℝ) : scale s (scale t d) = scale (s * t) d := by
  simp [scale, mul_assoc]

theorem scale_one (d : List ℝ) : scale 1 d = d := by simp [scale]

/-- The angle of a multiple. -/
theorem angle_scale (k : LieType) {d : List ℝ} (hd : d.length = k.ops.tangentDim) {t : ℝ} (ht : 0 ≤ t) :
    k.angle (scale t d) = t * k.angle d := by
  cases k
  · obtain ⟨a, rfl⟩ := List.length_eq_one_iff.1 hd
    show |t * a| = t * |a|
    rw [abs_mul, abs_of_nonneg ht]
  · obtain ⟨a, b, c, rfl⟩ := List.length_eq_three.1 hd
    show |t * c| = t * |c|
    rw [abs_mul, abs_of_nonneg ht]
  · obtain ⟨a, b, c, rfl⟩ := List.length_eq_three.1 hd
    show √((t * a) ^ 2 + (t * b) ^ 2 + (t * c) ^ 2) = t * √(a ^ 2 + b ^ 2 + c ^ 2)
    rw [show (t * a) ^ 2 + (t * b) ^ 2 + (t * c) ^ 2 = t ^ 2 * (a ^ 2 + b ^ 2 + c ^ 2) by ring, Real.sqrt_mul (by positivity),
      Real.sqrt_sq ht]
  · obtain ⟨x, y, z, a, b, c, rfl⟩ := LieGroup.length_eq_six hd
    show √((t * a) ^ 2 + (t * b) ^ 2 + (t * c) ^ 2) = t * √(a ^ 2 + b ^ 2 + c ^ 2)
    rw [show (t * a) ^ 2 + (t * b) ^ 2 + (t * c) ^ 2 = t ^ 2 * (a ^ 2 + b ^ 2 + c ^ 2) by ring, Real.sqrt_mul (by positivity),
      Real.sqrt_sq ht]

theorem angle_nonneg (k : LieType) {d : List ℝ} (hd : d.length = k.ops.tangentDim) : 0 ≤ k.angle d := by
  cases k
  · obtain ⟨a, rfl⟩ := List.length_eq_one_iff.1 hd
    exact abs_nonneg a
  · obtain ⟨a, b, c, rfl⟩ := List.length_eq_three.1 hd
    exact abs_nonneg c
  · obtain ⟨a, b, c, rfl⟩ := List.length_eq_three.1 hd
    exact Real.sqrt_nonneg _
  · obtain ⟨x, y, z, a, b, c, rfl⟩ := LieGroup.length_eq_six hd
    exact Real.sqrt_nonneg _

/-- Tangent vectors whose small multiples have the same exponentials are equal. -/
theorem tangent_eq (k : LieType) {u v : List ℝ} (hu : u.length = k.ops.tangentDim) (hv : v.length = k.ops.tangentDim)
    (h : ∀ t, k.ops.exp (scale t u) = k.ops.exp (scale t v)) : u = v := by
  obtain ⟨t, ht0, ht1, ht2⟩ : ∃ t : ℝ, 0 < t ∧ t * k.angle u < Real.pi ∧ t * k.angle v < Real.pi := by
    have h1 := angle_nonneg k hu
    have h2 := angle_nonneg k hv
    refine ⟨1 / (k.angle u + k.angle v + 1), by positivity, ?_, ?_⟩ <;>
    · rw [one_div, inv_mul_eq_div, div_lt_iff₀ (by positivity)]
      nlinarith [Real.two_le_pi, Real.pi_pos]
  have e : scale t u = scale t v := by
    rw [← log_exp k (d := scale t u) (by simpa [scale] using hu) (by rw [angle_scale k hu ht0.le]; exact ht1),
      ← log_exp k (d := scale t v) (by simpa [scale] using hv) (by rw [angle_scale k hv ht0.le]; exact ht2), h t]
  have := congrArg (scale t⁻¹) e
  rwa [scale_scale, scale_scale, inv_mul_cancel₀ ht0.ne', scale_one, scale_one] at this

/-- The adjoint of `x`, as a matrix. -/
noncomputable def adMat (k : LieType) (x : List ℝ) : Matrix (Fin k.ops.tangentDim) (Fin k.ops.tangentDim) ℝ :=
  arrMat (k.ops.adjoint x) k.ops.tangentDim k.ops.tangentDim

theorem adMat_mul (k : LieType) {x y : List ℝ} (hx : k.Valid x) (hy : k.Valid y) :
    adMat k (k.ops.multiply x y) = adMat k x * adMat k y := by
  have L := lieLaws k
  have key : ∀ d : List ℝ, d.length = k.ops.tangentDim → k.ops.Ad (k.ops.multiply x y) d = k.ops.Ad x (k.ops.Ad y d) := by
    intro d hd
    have l1 : ∀ z e, (k.ops.Ad z e).length = k.ops.tangentDim := fun z e => by simp [LieGroup.Ad]
    apply tangent_eq k (l1 _ _) (l1 _ _)
    intro t
    have hs : (scale t d).length = k.ops.tangentDim := by simpa [scale] using hd
    rw [← Ad_scale _ _ t hd, ← Ad_scale _ _ t (l1 _ _), ← Ad_scale _ _ t hd, ← L.conj _ _ (L.mul _ _ hx hy) hs,
      ← L.conj _ _ hx (l1 _ _), ← L.conj _ _ hy hs]
    have hi : k.ops.inverse (k.ops.multiply x y) = k.ops.multiply (k.ops.inverse y) (k.ops.inverse x) := by
      have hxy := L.mul _ _ hx hy
      have h1 : k.ops.multiply (k.ops.multiply x y) (k.ops.multiply (k.ops.inverse y) (k.ops.inverse x)) = k.ops.identity := by
        rw [L.mul_assoc _ _ _ hx hy (L.mul _ _ (L.inv _ hy) (L.inv _ hx)), ← L.mul_assoc _ _ _ hy (L.inv _ hy) (L.inv _ hx), L.mul_inv _ hy,
          L.one_mul _ (L.inv _ hx), L.mul_inv _ hx]
      have h2 := L.cancel hxy (L.mul _ _ (L.inv _ hy) (L.inv _ hx))
      rw [h1, L.mul_one _ (L.inv _ hxy)] at h2
      exact h2
    have hE := L.exp (scale t d)
    rw [hi, L.mul_assoc x y _ hx hy hE, L.mul_assoc x _ _ hx (L.mul _ _ hy hE) (L.mul _ _ (L.inv _ hy) (L.inv _ hx)),
      ← L.mul_assoc (k.ops.multiply y _) _ _ (L.mul _ _ hy hE) (L.inv _ hy) (L.inv _ hx),
      ← L.mul_assoc x _ _ hx (L.mul _ _ (L.mul _ _ hy hE) (L.inv _ hy)) (L.inv _ hx)]
  apply Matrix.toLin'.injective
  apply LinearMap.ext
  intro z
  have := key (List.ofFn z) (by simp)
  unfold LieGroup.Ad at this
  rw [vec_ofFn', vec_ofFn'] at this
  have := List.ofFn_injective this
  rw [Matrix.toLin'_apply, Matrix.toLin'_apply, ← Matrix.mulVec_mulVec]
  exact this

theorem adMat_one (k : LieType) : adMat k k.ops.identity = 1 := by
  have L := lieLaws k
  have key : ∀ d : List ℝ, d.length = k.ops.tangentDim → k.ops.Ad k.ops.identity d = d := by
    intro d hd
    have l1 : ∀ z e, (k.ops.Ad z e).length = k.ops.tangentDim := fun z e => by simp [LieGroup.Ad]
    apply tangent_eq k (l1 _ _) hd
    intro t
    have hs : (scale t d).length = k.ops.tangentDim := by simpa [scale] using hd
    have hi : k.ops.inverse k.ops.identity = k.ops.identity := by
      rw [← L.mul_one _ (L.inv _ L.one), L.inv_mul _ L.one]
    rw [← Ad_scale _ _ t hd, ← L.conj _ _ L.one hs, hi, L.one_mul _ (L.exp _), L.mul_one _ (L.exp _)]
  apply Matrix.toLin'.injective
  apply LinearMap.ext
  intro z
  have := key (List.ofFn z) (by simp)
  unfold LieGroup.Ad at this
  rw [vec_ofFn'] at this
  have := List.ofFn_injective this
  rw [Matrix.toLin'_apply, Matrix.toLin'_one]
  exact this

theorem adMat_inv_mul (k : LieType) {x : List ℝ} (hx : k.Valid x) : adMat k (k.ops.inverse x) * adMat k x = 1 := by
  have L := lieLaws k
  rw [← adMat_mul k (L.inv _ hx) hx, L.inv_mul _ hx, adMat_one]

/-- What the first Jacobian of a between factor does: it brings a motion of the world from the frame of one pose to that of another. -/
theorem adMat_between (k : LieType) {x y : List ℝ} (hx : k.Valid x) (hy : k.Valid y) :
    adMat k (k.ops.inverse (k.ops.multiply (k.ops.inverse x) y)) * adMat k (k.ops.inverse x) = adMat k (k.ops.inverse y) := by
  have L := lieLaws k
  have hX := L.mul _ _ (L.inv _ hx) hy
  rw [← adMat_mul k (L.inv _ hX) (L.inv _ hx)]
  congr 1
  have h := L.cancel hX (L.inv _ hy)
  rwa [L.mul_assoc _ _ _ (L.inv _ hx) hy (L.inv _ hy), L.mul_inv _ hy, L.mul_one _ (L.inv _ hx)] at h

/-! ### Whitening -/

/-- A regular noise model multiplies all Jacobians of one factor from the left by one invertible matrix. -/
theorem whitenJacobian_regular {N : Noise} {n : Nat} (hN : NoiseWF N n n) (hreg : NoiseRegular N n) {r : List ℝ} (hr : r.length = n) :
    ∃ W : Matrix (Fin n) (Fin n) ℝ, W.det ≠ 0 ∧ ∀ (m : Nat) (J : Arr ℝ), IsMat J n m →
      ∃ R, N.whitenJacobian J r = .ok R ∧ IsMat R n m ∧ arrMat R n m = W * arrMat J n m := by
  induction N with
  | gaussian W =>
    exact ⟨arrMat W n n, hreg, fun m J hJ => whitenJacobian_gaussian hN trivial hJ hr⟩
  | diagonal d =>
    refine ⟨noiseMat (.diagonal d) n n, ?_, fun m J hJ => whitenJacobian_gaussian hN trivial hJ hr⟩
    have : noiseMat (.diagonal d) n n = Matrix.diagonal (vec d.data n) := by
      funext i j
      simp only [noiseMat, Matrix.diagonal_apply, Spec.vec, Fin.ext_iff]
    rw [this, Matrix.det_diagonal, Finset.prod_ne_zero_iff]
    intro i _
    rw [vec_eq hN.1.2]
    exact hreg _ (List.getElem_mem _)
  | huber w δ ih =>
    obtain ⟨hw, d, rfl, hd⟩ := hN
    obtain ⟨W, h1, h2⟩ := ih hw hreg
    have hpos : 0 < huberWeight d (norm2 r) := huberWeight_pos hd
    refine ⟨huberWeight d (norm2 r) • W, by rw [det_smul]; exact mul_ne_zero (pow_ne_zero _ hpos.ne') h1, fun m J hJ => ?_⟩
    obtain ⟨R, h3, h4, h5⟩ := h2 m J hJ
    refine ⟨_, huber_whitenJacobian h3, ⟨h4.1, by simpa using h4.2⟩, ?_⟩
    rw [smul_mul, ← h5]
    funext i j
    simp only [Matrix.smul_apply, smul_eq_mul, arrMat, List.getD_eq_getElem?_getD, List.getElem?_map]
    cases R.data[i.val * m + j.val]? <;> simp [mul_comm]

/-! ### Directions in which no factor changes -/

section
variable {F : Nat → FactorClass} {C : Ty → VarClass ℝ}

/-- `SparseCovariance.make` succeeds if and only if every direction of motion changes some whitened residual, to first order. -/
theorem make_iff (lib : CholmodChoice) (hC : GoodClasses C) {fs : List Factor} (hne : fs ≠ []) (hfs : ∀ f ∈ fs, FactorWF F C f)
    {g : Graph} (hg : Graph.make C fs = .ok g) {vars : List Var} {val : Var → Value ℝ} {a : Assign ℝ} (h : Holds C fs vars val a)
    {w : Factor → List ℝ} (hw : ∀ f ∈ fs, whitenedAt F val f = .ok (w f) ∧ (w f).length = rdim f) {R : Factor → List (Arr ℝ)}
    (hR : ∀ f ∈ fs, whitenedJacobiansAt F val f (w f) = .ok (R f)) :
    ((∀ e : Var → List ℝ, (∀ v ∈ Graph.variablesOf fs, (e v).length = (C v.ty).localDim) →
        (∀ f ∈ fs, applyBlocks C (rdim f) f.vars (R f) e = 0) → ∀ v ∈ Graph.variablesOf fs, ∀ y ∈ e v, y = 0) →
      ∃ c, SparseCovariance.make lib F C g a = .ok c) ∧
    (∀ e : Var → List ℝ, (∀ v ∈ Graph.variablesOf fs, (e v).length = (C v.ty).localDim) →
        (∀ f ∈ fs, applyBlocks C (rdim f) f.vars (R f) e = 0) → (∃ v ∈ Graph.variablesOf fs, ∃ y ∈ e v, y ≠ 0) →
      SparseCovariance.make lib F C g a = .error .value) := by
  obtain ⟨g', hg', hG⟩ := graph_ok (F := F) hfs hne
  rw [hg] at hg'; cases hg'
  have hs := variablesOf_spec fs
  have hres := (residual_ok hC hfs hne hG h (fun f hf => (hw f hf).1)).1
  obtain ⟨A, hJ, hA, hshape, -, -, hmul⟩ := jacobian_ok hC hfs hne hG h (fun f hf => (hw f hf).2) hR
  have hn : A.shape.2 = g.localLayout.dim := by rw [hshape]
  obtain ⟨σ, -, hcov⟩ := Props.covariance_factor lib F C hres hJ hA (n := A.shape.2) rfl
  have hRl : ∀ f ∈ fs, (R f).length = f.vars.length := by
    intro f hf
    obtain ⟨R', h1, h2⟩ := whitenedJacobians_ok (hfs f hf) (h.valuesFor hC hf) (hw f hf).2
    rw [show R f = R' from Except.ok.inj ((hR f hf).symm.trans h1)]
    exact h2.length_eq.symm
  -- products with the Jacobian vanish when those of all factors do
  have hzero : ∀ (x : List ℝ), x.length = g.localLayout.dim → (cooMatrix A A.shape.1 A.shape.2 *ᵥ vec x A.shape.2 = 0 ↔
      ∀ f ∈ fs, applyBlocks C (rdim f) f.vars (R f) (block C ⟨x, g.localLayout⟩) = 0) := by
    intro x hx
    obtain ⟨-, m1, m2⟩ := matmul_vec hA (hmul x hx)
    have e1 : ∀ f ∈ fs, vec (facProd C (posIn g.localLayout) R x f) (rdim f) =
        applyBlocks C (rdim f) f.vars (R f) (block C ⟨x, g.localLayout⟩) := by
      intro f hf
      rw [hG.localLayout]
      exact Props.vec_facProd hf (hRl f hf)
    have hperm : (evalOrder fs).Perm fs := by unfold evalOrder; exact groupedBy_perm kind fs
    rw [← m2, vec_eq_zero_iff m1]
    constructor
    · intro hz f hf
      rw [← e1 f hf, vec_eq_zero_iff length_facProd]
      rw [List.eq_replicate_iff] at hz ⊢
      exact ⟨length_facProd, fun y hy => hz.2 y (List.mem_flatMap.2 ⟨f, hperm.mem_iff.2 hf, hy⟩)⟩
    · intro hz
      rw [List.eq_replicate_iff]
      refine ⟨m1, fun y hy => ?_⟩
      obtain ⟨f, hf, hy⟩ := List.mem_flatMap.1 hy
      have := hz f (hperm.mem_iff.1 hf)
      rw [← e1 f (hperm.mem_iff.1 hf), vec_eq_zero_iff length_facProd, List.eq_replicate_iff] at this
      exact this.2 y hy
  constructor
  · intro hinj
    obtain ⟨L, h1, -⟩ := hcov.1 (by
      have := PosDef.conjTranspose_mul_self (cooMatrix A A.shape.1 A.shape.2) (by
        rw [← Matrix.coe_mulVecLin, ← LinearMap.ker_eq_bot, LinearMap.ker_eq_bot']
        intro z hz
        rw [Matrix.mulVecLin_apply] at hz
        obtain ⟨x, hx⟩ : ∃ x, x = List.ofFn z := ⟨_, rfl⟩
        have hxl : x.length = g.localLayout.dim := by rw [hx, List.length_ofFn, hn]
        have hxv : vec x A.shape.2 = z := by rw [hx]; exact vec_ofFn' z
        rw [← hxv, hzero x hxl] at hz
        obtain ⟨e, he⟩ := exists_rep (C := C) (vars := Graph.variablesOf fs) (a := ⟨x, g.localLayout⟩)
          ⟨hs.1, by simp only [hG.localLayout, make_localFlag], hxl⟩
        have hb : ∀ v ∈ Graph.variablesOf fs, block C ⟨x, g.localLayout⟩ v = e v := fun v hv => he.block_eq hv
        have hall := hinj (block C ⟨x, g.localLayout⟩) (fun v hv => by
          rw [hb v hv, he.len v hv]
          simp only [hG.localLayout, make_localFlag, dimOf, if_true]) hz
        rw [← hxv, vec_eq_zero_iff (hxl.trans hn.symm), List.eq_replicate_iff]
        refine ⟨hxl.trans hn.symm, fun y hy => ?_⟩
        have hst := he.storage
        simp only at hst
        rw [hst] at hy
        obtain ⟨v, hv, hy⟩ := List.mem_flatMap.1 hy
        have hv := mem_grouped.1 hv
        exact hall v hv y (by rw [hb v hv]; exact hy))
      rwa [conjTranspose_eq_transpose_of_trivial] at this)
    exact ⟨_, h1⟩
  · rintro e hlen hf0 ⟨v, hv, y, hy, hy0⟩
    refine hcov.2 fun hpd => ?_
    obtain ⟨x, hx⟩ : ∃ x, x = (grouped (Graph.variablesOf fs)).flatMap e := ⟨_, rfl⟩
    have hrep : Rep C (Graph.variablesOf fs) true e ⟨x, g.localLayout⟩ := ⟨hs.1, hG.localLayout, hlen, hx⟩
    have hxl : x.length = g.localLayout.dim := hrep.storage_length'
    have hz := (hzero x hxl).2 (fun f hf => by
      rw [← hf0 f hf]
      unfold applyBlocks
      congr 1
      apply List.map_congr_left
      intro p hp
      have : p.1 ∈ f.vars := (List.of_mem_zip hp).1
      rw [hrep.block_eq (mem_variablesOf hf this)])
    have hne0 : vec x A.shape.2 ≠ 0 := by
      intro h0
      rw [vec_eq_zero_iff (hxl.trans hn.symm), List.eq_replicate_iff] at h0
      exact hy0 (h0.2 y (by rw [hx]; exact List.mem_flatMap.2 ⟨v, mem_grouped.2 hv, hy⟩))
    have := hpd.dotProduct_mulVec_pos hne0
    rw [← mulVec_mulVec, hz, mulVec_zero, dotProduct_zero] at this
    exact lt_irrefl _ this

/-! ### Pose factors -/

/-- What a prior factor does to a direction. -/
theorem prior_blocks (k : LieType) {f : Factor} {v : Var} (hv : f.vars = [v]) (hF : F f.cls = priorFactorClass k.ops)
    (hva : (C v.ty).localDim = k.ops.tangentDim) (hN : NoiseWF f.noise k.ops.tangentDim k.ops.tangentDim)
    (hreg : NoiseRegular f.noise k.ops.tangentDim) {val : Var → Value ℝ} {r : List ℝ} (hr : r.length = k.ops.tangentDim)
    {R : List (Arr ℝ)} (hR : whitenedJacobiansAt F val f r = .ok R) :
    ∃ W : Matrix (Fin k.ops.tangentDim) (Fin k.ops.tangentDim) ℝ, W.det ≠ 0 ∧ ∀ e : Var → List ℝ,
      applyBlocks C k.ops.tangentDim f.vars R e = W *ᵥ -vec (e v) k.ops.tangentDim := by
  obtain ⟨W, hW, h⟩ := whitenJacobian_regular hN hreg hr
  refine ⟨W, hW, fun e => ?_⟩
  obtain ⟨R0, h0, -, h2⟩ := h _ (negEye k.ops.tangentDim) (negEye_isMat _)
  have e0 : R = [R0] := by
    unfold whitenedJacobiansAt at hR
    rw [hF] at hR
    have : [negEye k.ops.tangentDim].mapM (fun J => f.noise.whitenJacobian J r) = .ok R := hR
    simp only [List.mapM_cons, h0, List.mapM_nil, py_bind_ok, py_pure] at this
    exact (Except.ok.inj this).symm
  rw [e0, hv]
  simp only [applyBlocks, List.zip_cons_cons, List.zip_nil_right, List.map_cons, List.map_nil, List.sum_cons, List.sum_nil, add_zero]
  rw [hva, h2, arrMat_negEye, ← mulVec_mulVec, neg_mulVec, one_mulVec]

/-- What a between factor does to directions of its two poses. -/
theorem between_blocks (k : LieType) {f : Factor} {a b : Var} (hv : f.vars = [a, b]) (hF : F f.cls = betweenFactorClass k.ops)
    (hva : (C a.ty).localDim = k.ops.tangentDim) (hvb : (C b.ty).localDim = k.ops.tangentDim)
    (hN : NoiseWF f.noise k.ops.tangentDim k.ops.tangentDim) (hreg : NoiseRegular f.noise k.ops.tangentDim) {val : Var → Value ℝ}
    {x y : List ℝ} (hx : val a = k.ops.value x) (hy : val b = k.ops.value y) {r : List ℝ} (hr : r.length = k.ops.tangentDim)
    {R : List (Arr ℝ)} (hR : whitenedJacobiansAt F val f r = .ok R) :
    ∃ W : Matrix (Fin k.ops.tangentDim) (Fin k.ops.tangentDim) ℝ, W.det ≠ 0 ∧ ∀ e : Var → List ℝ,
      applyBlocks C k.ops.tangentDim f.vars R e = W *ᵥ (adMat k (k.ops.inverse (k.ops.multiply (k.ops.inverse x) y)) *ᵥ
        vec (e a) k.ops.tangentDim - vec (e b) k.ops.tangentDim) := by
  obtain ⟨W, hW, h⟩ := whitenJacobian_regular hN hreg hr
  refine ⟨W, hW, fun e => ?_⟩
  obtain ⟨R0, h0, -, h2⟩ := h _ _ ((lieLaws k).adjoint (k.ops.inverse (k.ops.multiply (k.ops.inverse x) y)))
  obtain ⟨R1, h1, -, h3⟩ := h _ (negEye k.ops.tangentDim) (negEye_isMat _)
  have e0 : R = [R0, R1] := by
    unfold whitenedJacobiansAt at hR
    rw [hF, hv] at hR
    have : [k.ops.adjoint (k.ops.inverse (k.ops.multiply (k.ops.inverse (val a).flatten) (val b).flatten)),
        negEye k.ops.tangentDim].mapM (fun J => f.noise.whitenJacobian J r) = .ok R := hR
    rw [hx, hy, value_flatten, value_flatten] at this
    simp only [List.mapM_cons, h0, h1, List.mapM_nil, py_bind_ok, py_pure] at this
    exact (Except.ok.inj this).symm
  rw [e0, hv]
  simp only [applyBlocks, List.zip_cons_cons, List.zip_nil_right, List.map_cons, List.map_nil, List.sum_cons, List.sum_nil, add_zero]
  rw [hva, hvb, h2, h3, arrMat_negEye, ← mulVec_mulVec, ← mulVec_mulVec, neg_mulVec, one_mulVec, mulVec_sub, mulVec_neg, sub_eq_add_neg]
  rfl

end

end Jaxfg
