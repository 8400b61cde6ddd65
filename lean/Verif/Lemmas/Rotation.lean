/- Graphs of rotations of the plane, in angles: residuals, Jacobians and steps. -/
import Verif.Spec.Rotation
import Verif.Lemmas.LieSO2
import Verif.Lemmas.LinearRate
import Verif.Lemmas.RobustStep
import Verif.Props.Geometry

namespace Jaxfg
open Spec
open Matrix hiding vec
variable {F : Nat → FactorClass} {C : Ty → VarClass ℝ} {fs : List Factor}

/-! ### One factor -/

theorem turnBy_retract (t : ℝ) {d : List ℝ} {e : ℝ} (hd : d = [e]) : SO2Variable.retract (turnBy t) d = turnBy (t + e) := by
  subst hd
  show LieGroup.so2.value (LieGroup.so2.rplus (LieGroup.so2.value _).flatten [e]) = _
  rw [value_flatten]
  simp only [turnBy, LieGroup.rplus, LieGroup.so2, LieGroup.so2Mul, List.getD_cons_zero, List.getD_cons_succ, Real.cos_add, Real.sin_add]

theorem turnBy_flatten (t : ℝ) : (turnBy t).flatten = [Real.cos t, Real.sin t] := value_flatten _ _

theorem weighs_wf {w : ℝ} {N : Noise} (h : Weighs w N) : NoiseWF N 1 1 ∧ NoiseGaussian N ∧ noiseDim N = 1 := by
  cases N with
  | gaussian W => cases h; exact ⟨⟨rfl, rfl⟩, trivial, rfl⟩
  | diagonal W => cases h; exact ⟨⟨⟨rfl, rfl⟩, rfl⟩, trivial, rfl⟩
  | huber _ _ => cases h

theorem weighs_whiten {w : ℝ} {N : Noise} (h : Weighs w N) (x : ℝ) : N.whiten [x] = .ok [w * x] := by
  cases N with
  | gaussian W => cases h; simp [Noise.whiten, einsumMatVec, Arr.at2]
  | diagonal W => cases h; simp [Noise.whiten, pyAssert, py_bind_ok]
  | huber _ _ => cases h

theorem weighs_jacobian {w : ℝ} {N : Noise} (h : Weighs w N) (x y : ℝ) : N.whitenJacobian ⟨[1, 1], [x]⟩ [y] = .ok ⟨[1, 1], [w * x]⟩ := by
  cases N with
  | gaussian W => cases h; simp [Noise.whitenJacobian, einsumMatMat, Arr.at2, Arr.of2]
  | diagonal W => cases h; simp [Noise.whitenJacobian, pyAssert, py_bind_ok, Arr.at2, Arr.of2]
  | huber _ _ => cases h

/-- The two kinds of factors. -/
theorem measuresAngle_cases {m w : ℝ} {f : Factor} (h : MeasuresAngle F m w f) : Weighs w f.noise ∧ f.self.params = (turnBy m).leaves ∧
    ((F f.cls = priorFactorClass .so2 ∧ ∃ v, f.vars = [v]) ∨ (F f.cls = betweenFactorClass .so2 ∧ ∃ a b, f.vars = [a, b])) := by
  cases h with
  | prior cls v noise hF hw => exact ⟨hw, rfl, .inl ⟨hF, v, rfl⟩⟩
  | between cls a b noise f hF hw hf =>
    unfold BetweenFactor.make at hf
    simp only [py_bind_eq_ok, py_return_eq_ok] at hf
    obtain ⟨-, -, -, -, rfl⟩ := hf
    exact ⟨hw, rfl, .inr ⟨hF, a, b, rfl⟩⟩

theorem measuresAngle_measures {m w : ℝ} {f : Factor} (h : MeasuresAngle F m w f) : ∃ P, Measures F (fun _ => .so2) f P := by
  have hv : LieType.Valid .so2 [Real.cos m, Real.sin m] := ⟨_, _, rfl, Real.cos_sq_add_sin_sq m⟩
  cases h with
  | prior cls v noise hF hw => exact ⟨_, .prior cls v _ noise hF hv⟩
  | between cls a b noise f hF hw hf => exact ⟨_, .between cls a b _ noise f hF hv hf⟩

theorem measuresAngle_wf {m w : ℝ} {f : Factor} (h : MeasuresAngle F m w f) (hK : ∀ v ∈ f.vars, C v.ty = SO2Variable) :
    FactorWF F C f ∧ rdim f = 1 := by
  obtain ⟨P, hP⟩ := measuresAngle_measures h
  obtain ⟨hw, -⟩ := measuresAngle_cases h
  exact ⟨(Props.C54_wellformed F C (fun _ => .so2) f P hP fun v hv => ⟨hK v hv, (weighs_wf hw).1⟩).1, (weighs_wf hw).2.2⟩

/-- The residual is the misfit, up to whole turns. -/
theorem measuresAngle_residual {m w : ℝ} {f : Factor} (h : MeasuresAngle F m w f) (θ : Var → ℝ) :
    whitenedAt F (fun v => turnBy (θ v)) f =
      .ok [w * LieGroup.arctan2 (Real.sin (misfit m θ f)) (Real.cos (misfit m θ f))] := by
  obtain ⟨hw, hp, h⟩ := measuresAngle_cases h
  unfold whitenedAt
  have key : (F f.cls).residual f.self (f.vars.map fun v => turnBy (θ v)) =
      [LieGroup.arctan2 (Real.sin (misfit m θ f)) (Real.cos (misfit m θ f))] := by
    rcases h with ⟨hF, v, hv⟩ | ⟨hF, a, b, hv⟩
    · rw [hF, hv]
      show LieGroup.so2.rminus (turnBy (θ v)).flatten ((f.self.params.getD 0 ⟨[], []⟩).data) = _
      rw [hp, turnBy_flatten]
      simp only [turnBy, LieGroup.value, LieGroup.rminus, LieGroup.so2, LieGroup.so2Mul, LieGroup.so2Inv, List.getD_cons_zero,
        List.getD_cons_succ, misfit, hv, Real.sin_sub, Real.cos_sub]
      congr 2 <;> ring
    · rw [hF, hv]
      show LieGroup.so2.rminus (LieGroup.so2.multiply (LieGroup.so2.inverse (turnBy (θ a)).flatten) (turnBy (θ b)).flatten)
        ((f.self.params.getD 0 ⟨[], []⟩).data) = _
      rw [hp, turnBy_flatten, turnBy_flatten]
      simp only [turnBy, LieGroup.value, LieGroup.rminus, LieGroup.so2, LieGroup.so2Mul, LieGroup.so2Inv, List.getD_cons_zero,
        List.getD_cons_succ, misfit, hv, Real.sin_sub, Real.cos_sub]
      congr 2 <;> ring
  rw [key, weighs_whiten hw]

theorem arctan2_misfit {x : ℝ} (h : |x| < Real.pi) : LieGroup.arctan2 (Real.sin x) (Real.cos x) = x :=
  LieGroup.arctan2_cos_sin (abs_lt.1 h).1 (abs_lt.1 h).2.le

/-- The angle of a rotation is the smallest. -/
theorem arctan2_le (x : ℝ) : |LieGroup.arctan2 (Real.sin x) (Real.cos x)| ≤ |x| := by
  rcases lt_or_ge |x| Real.pi with h | h
  · rw [arctan2_misfit h]
  · refine le_trans ?_ h
    have := LieGroup.arctan2_mem (Real.sin x) (Real.cos x)
    exact abs_le.2 ⟨this.1.le, this.2⟩

theorem one_entry {n : Nat} (hn : n = 1) (x y : ℝ) (i : Fin 1) : (arrMat ⟨[1, 1], [x]⟩ 1 n *ᵥ Spec.vec [y] n) i = x * y := by
  subst hn
  fin_cases i
  simp [arrMat, mulVec, dotProduct, Spec.vec]

/-- What the Jacobian of a factor maps a change of the angles to. -/
theorem measuresAngle_jacobian {m w : ℝ} {f : Factor} (h : MeasuresAngle F m w f) (hK : ∀ v ∈ f.vars, C v.ty = SO2Variable) (θ : Var → ℝ)
    (y : ℝ) {R : List (Arr ℝ)} (hR : whitenedJacobiansAt F (fun v => turnBy (θ v)) f [y] = .ok R) (δ : Var → List ℝ) (e : Var → ℝ)
    (hδ : ∀ v ∈ f.vars, δ v = [e v]) (i : Fin (rdim f)) :
    applyBlocks C (rdim f) f.vars R δ i = w * (misfit m (fun v => θ v + e v) f - misfit m θ f) := by
  have hr := (measuresAngle_wf h hK).2
  obtain ⟨hw, hp, h⟩ := measuresAngle_cases h
  have hneg : negEye LieGroup.so2.tangentDim = ⟨[1, 1], [-1]⟩ := by simp [negEye, LieGroup.so2]
  revert i
  rw [hr]
  intro i
  obtain rfl : i = 0 := Subsingleton.elim _ _
  unfold whitenedJacobiansAt at hR
  rcases h with ⟨hF, v, hv⟩ | ⟨hF, a, b, hv⟩
  · have hJ : (F f.cls).jacobians f.self (f.vars.map fun v => turnBy (θ v)) = [⟨[1, 1], [-1]⟩] := by
      rw [hF]
      show [negEye _] = _
      rw [hneg]
    rw [hJ, List.mapM_cons, weighs_jacobian hw, py_bind_ok] at hR
    cases Except.ok.inj hR
    have hC := hK v (by simp [hv])
    simp only [applyBlocks, hv, List.zip_cons_cons, List.zip_nil_left, List.map_cons, List.map_nil, List.sum_cons, List.sum_nil, misfit,
      hδ v (by simp [hv]), add_zero]
    rw [one_entry (by rw [hC]; rfl)]
    ring
  · have hJ : (F f.cls).jacobians f.self (f.vars.map fun v => turnBy (θ v)) = [⟨[1, 1], [1]⟩, ⟨[1, 1], [-1]⟩] := by
      rw [hF]
      show [_, negEye _] = _
      rw [hneg]
      rfl
    rw [hJ, List.mapM_cons, List.mapM_cons, weighs_jacobian hw, weighs_jacobian hw, py_bind_ok] at hR
    cases Except.ok.inj hR
    have hCa := hK a (by simp [hv])
    have hCb := hK b (by simp [hv])
    simp only [applyBlocks, hv, List.zip_cons_cons, List.zip_nil_left, List.map_cons, List.map_nil, List.sum_cons, List.sum_nil, misfit,
      hδ a (by simp [hv]), hδ b (by simp [hv]), add_zero, Pi.add_apply]
    rw [one_entry (by rw [hCa]; rfl), one_entry (by rw [hCb]; rfl)]
    ring

/-! ### Costs in angles -/

theorem measuresAngle_vars {m w : ℝ} {f : Factor} (h : MeasuresAngle F m w f) : (∃ v, f.vars = [v]) ∨ ∃ a b, f.vars = [a, b] := by
  obtain ⟨-, -, ⟨-, h⟩ | ⟨-, h⟩⟩ := measuresAngle_cases h
  · exact .inl h
  · exact .inr h

theorem misfit_congr {θ θ' : Var → ℝ} {f : Factor} (h : ∀ v ∈ f.vars, θ v = θ' v) (m : ℝ) : misfit m θ f = misfit m θ' f := by
  unfold misfit
  split
  · rename_i v hv
    rw [h v (by simp [hv])]
  · rename_i a b hv
    rw [h a (by simp [hv]), h b (by simp [hv])]
  · rfl

theorem angleCost_congr {m w : Factor → ℝ} {θ θ' : Var → ℝ} (h : ∀ f ∈ fs, ∀ v ∈ f.vars, θ v = θ' v) :
    angleCost fs m w θ = angleCost fs m w θ' := by
  unfold angleCost
  congr 1
  exact List.map_congr_left fun f hf => by rw [misfit_congr (h f hf)]

theorem misfit_zero {m w : ℝ} {f : Factor} (h : MeasuresAngle F m w f) (θ : Var → ℝ) : misfit m θ f = m + misfit 0 θ f := by
  rcases measuresAngle_vars h with ⟨v, hv⟩ | ⟨a, b, hv⟩ <;> simp only [misfit, hv] <;> ring

theorem angleCost_nonneg (m w : Factor → ℝ) (θ : Var → ℝ) : 0 ≤ angleCost fs m w θ := by
  apply List.sum_nonneg
  intro x hx
  obtain ⟨f, -, rfl⟩ := List.mem_map.1 hx
  positivity

theorem dot_one {n : Nat} (hn : n = 1) (x y : Fin n → ℝ) : x ⬝ᵥ y = x ⟨0, by omega⟩ * y ⟨0, by omega⟩ := by
  subst hn
  simp [dotProduct]

/-- Costs along a line are a parabola. -/
theorem angleCost_line (m w : Factor → ℝ) (y z : Var → ℝ) (t : ℝ) :
    angleCost fs m w (fun v => y v + t * (z v - y v)) = (1 - t) * angleCost fs m w y + t * angleCost fs m w z -
      t * (1 - t) * (fs.map fun f => (w f * (misfit 0 z f - misfit 0 y f)) ^ 2).sum := by
  unfold angleCost
  rw [← List.sum_map_mul_left, ← List.sum_map_mul_left, ← List.sum_map_mul_left, ← List.sum_map_add, ← sub_eq_zero]
  induction fs with
  | nil => simp
  | cons f fs ih =>
    simp only [List.map_cons, List.sum_cons]
    have hf : (w f * misfit (m f) (fun v => y v + t * (z v - y v)) f) ^ 2 = (1 - t) * (w f * misfit (m f) y f) ^ 2 + t * (w f * misfit (m f) z f) ^ 2 -
        t * (1 - t) * (w f * (misfit 0 z f - misfit 0 y f)) ^ 2 := by
      unfold misfit
      split <;> ring
    linarith

theorem misfit_split (m : ℝ) (θ : Var → ℝ) (f : Factor) : misfit m θ f = misfit m (fun _ => 0) f + misfit 0 θ f := by
  rcases h : f.vars with _ | ⟨a, _ | ⟨b, _ | ⟨c, l⟩⟩⟩ <;> simp only [misfit, h] <;> ring

/-- The least cost is attained. -/
theorem angleCost_least (m w : Factor → ℝ) : ∃ y, ∀ z, angleCost fs m w y ≤ angleCost fs m w z := by
  let L : (Var → ℝ) →ₗ[ℝ] EuclideanSpace ℝ (Fin fs.length) :=
    { toFun := fun θ => WithLp.toLp 2 fun i => -(w fs[i] * misfit 0 θ fs[i])
      map_add' := fun θ θ' => by
        ext i
        simp only [PiLp.add_apply]
        unfold misfit
        split <;> simp <;> ring
      map_smul' := fun t θ => by
        ext i
        simp only [PiLp.smul_apply, smul_eq_mul, RingHom.id_apply]
        unfold misfit
        split <;> simp <;> ring }
  let u : EuclideanSpace ℝ (Fin fs.length) := WithLp.toLp 2 fun i => w fs[i] * misfit (m fs[i]) (fun _ => 0) fs[i]
  have hcost : ∀ θ, angleCost fs m w θ = ‖u - L θ‖ ^ 2 := by
    intro θ
    rw [EuclideanSpace.norm_sq_eq]
    unfold angleCost
    rw [← Fin.sum_univ_fun_getElem]
    refine Finset.sum_congr rfl fun i _ => ?_
    simp only [PiLp.sub_apply, u, L, LinearMap.coe_mk, AddHom.coe_mk, Real.norm_eq_abs, sq_abs]
    rw [misfit_split]
    simp only [Fin.getElem_fin]
    ring
  obtain ⟨v, ⟨y, rfl⟩, hv⟩ := Submodule.exists_norm_eq_iInf_of_complete_subspace (LinearMap.range L) (Submodule.complete_of_finiteDimensional _) u
  refine ⟨y, fun z => ?_⟩
  rw [hcost, hcost, hv]
  have hle : (⨅ x : ((LinearMap.range L : Submodule ℝ _) : Set (EuclideanSpace ℝ (Fin fs.length))), ‖u - x‖) ≤ ‖u - L z‖ :=
    ciInf_le ⟨0, by rintro _ ⟨x, rfl⟩; exact norm_nonneg _⟩ (⟨L z, z, rfl⟩ : ((LinearMap.range L : Submodule ℝ _) : Set (EuclideanSpace ℝ (Fin fs.length))))
  exact pow_le_pow_left₀ (by rw [← hv]; exact norm_nonneg _) hle 2

/-- The cost grows with the distance from the optimum. -/
theorem angleCost_growth {m w : Factor → ℝ} {vars : List Var} {σ : ℝ} (hD : DeterminesAngles fs w vars σ) {y : Var → ℝ}
    (hy : ∀ z, angleCost fs m w y ≤ angleCost fs m w z) (z : Var → ℝ) :
    σ * angleDist vars z y ≤ angleCost fs m w z - angleCost fs m w y := by
  refine (hD z y).trans ?_
  by_contra hc
  push Not at hc
  generalize hQ : (fs.map fun f => (w f * (misfit 0 z f - misfit 0 y f)) ^ 2).sum = Q at hc
  have h0 := hy z
  have hQp : 0 < Q := by linarith
  have key := hy fun v => y v + (Q - (angleCost fs m w z - angleCost fs m w y)) / (2 * Q) * (z v - y v)
  rw [angleCost_line, hQ] at key
  generalize angleCost fs m w z = a at *
  generalize angleCost fs m w y = b at *
  have ht : 0 < (Q - (a - b)) / (2 * Q) := div_pos (by linarith) (by linarith)
  have ht' : (Q - (a - b)) / (2 * Q) * (2 * Q) = Q - (a - b) := by field_simp
  generalize (Q - (a - b)) / (2 * Q) = t at *
  nlinarith

section
variable {m w : Factor → ℝ} (hC : GoodClasses C) (hne : fs ≠ []) (hT : ∀ f ∈ fs, MeasuresAngle F (m f) (w f) f)
  (hK : ∀ f ∈ fs, ∀ v ∈ f.vars, C v.ty = SO2Variable) {g : Graph} (hg : Graph.make C fs = .ok g)
include hC hne hT hK hg

/-- Residuals and Jacobian in angles. -/
theorem rotation_view {θ : Var → ℝ} {a : Assign ℝ} (h : Holds C fs (Graph.variablesOf fs) (fun v => turnBy (θ v)) a)
    (hlay : a.layout = g.layout) (hsmall : ∀ f ∈ fs, |misfit (m f) θ f| < Real.pi) {c : ℝ} {r : List ℝ} {A : Coo ℝ}
    (hcost : g.computeCost F C a = .ok (c, r)) (hA : g.computeWhitenedResidualJacobian F C a r = .ok A) :
    CooWF A ∧ A.shape = (r.length, g.localLayout.dim) ∧ c = angleCost fs m w θ ∧
      (∀ d : List ℝ, d.length = g.localLayout.dim → ∃ θ' : Var → ℝ,
        (∀ b, a.manifoldRetract C ⟨d, g.localLayout⟩ = .ok b → Holds C fs (Graph.variablesOf fs) (fun v => turnBy (θ' v)) b) ∧
        modelCost (cooMatrix A A.shape.1 A.shape.2) (Spec.vec r A.shape.1) (Spec.vec d A.shape.2) = angleCost fs m w θ' ∧
        (cooMatrix A A.shape.1 A.shape.2 *ᵥ Spec.vec d A.shape.2) ⬝ᵥ (cooMatrix A A.shape.1 A.shape.2 *ᵥ Spec.vec d A.shape.2) =
          (fs.map fun f => (w f * (misfit 0 θ' f - misfit 0 θ f)) ^ 2).sum ∧
        Spec.vec d A.shape.2 ⬝ᵥ Spec.vec d A.shape.2 = angleDist (Graph.variablesOf fs) θ' θ) ∧
      ∀ y : Var → ℝ, ∃ d : List ℝ, d.length = g.localLayout.dim ∧
        modelCost (cooMatrix A A.shape.1 A.shape.2) (Spec.vec r A.shape.1) (Spec.vec d A.shape.2) = angleCost fs m w y := by
  have hfs : ∀ f ∈ fs, FactorWF F C f := fun f hf => (measuresAngle_wf (hT f hf) (hK f hf)).1
  have hrd : ∀ f ∈ fs, rdim f = 1 := fun f hf => (measuresAngle_wf (hT f hf) (hK f hf)).2
  obtain ⟨g', hg', hG⟩ := graph_ok (F := F) hfs hne
  rw [hg] at hg'; cases hg'
  have hs := variablesOf_spec fs
  have hKv : ∀ v ∈ Graph.variablesOf fs, C v.ty = SO2Variable := fun v hv => by
    obtain ⟨f, hf, hv⟩ := (hs.2 v).1 hv
    exact hK f hf v hv
  obtain ⟨ρ, hρ⟩ : ∃ ρ : Factor → List ℝ, ρ = fun f => [w f * misfit (m f) θ f] := ⟨_, rfl⟩
  have hw : ∀ f ∈ fs, whitenedAt F (fun v => turnBy (θ v)) f = .ok (ρ f) := fun f hf => by
    rw [measuresAngle_residual (hT f hf), arctan2_misfit (hsmall f hf), hρ]
  have hρl : ∀ f ∈ fs, (ρ f).length = rdim f := fun f hf => by rw [hρ, hrd f hf]; rfl
  have hcost' := Props.cost_ok F C hC hne hfs hG h hw
  rw [hcost'] at hcost
  obtain ⟨hc, hr⟩ := Prod.mk.inj (Except.ok.inj hcost)
  subst hr
  have hc' : c = angleCost fs m w θ := by
    rw [← hc, hρ]
    unfold angleCost
    congr 1
    exact List.map_congr_left fun f _ => by simp [sqNorm, sq]
  obtain ⟨g', hg', hall⟩ := Props.C20_jacobian_product F C hC fs hne hfs
  rw [hg] at hg'; cases hg'
  obtain ⟨A', R, hA', hsh, hR, hprod⟩ := hall _ _ a h ρ hρl
  rw [hA] at hA'; cases hA'
  obtain ⟨g', hg', hall'⟩ := (Props.C19_coordinates F C hC fs hne hfs)
  rw [hg] at hg'; cases hg'
  obtain ⟨A', hA', -, _, hwf⟩ := hall'.2.2.2 _ _ a h ρ hρl
  rw [hA] at hA'; cases hA'
  have hr2 := (residual_ok hC hfs hne hG h hw).2
  have hsh' : A.shape = (((evalOrder fs).flatMap ρ).length, g.localLayout.dim) := by rw [hsh, hr2]
  -- a step whose blocks are known
  have step : ∀ (d : List ℝ) (e : Var → ℝ), d.length = g.localLayout.dim →
      (∀ v ∈ Graph.variablesOf fs, block C ⟨d, g.localLayout⟩ v = [e v]) →
      modelCost (cooMatrix A A.shape.1 A.shape.2) (Spec.vec ((evalOrder fs).flatMap ρ) A.shape.1) (Spec.vec d A.shape.2) =
        angleCost fs m w (fun v => θ v + e v) ∧
      (cooMatrix A A.shape.1 A.shape.2 *ᵥ Spec.vec d A.shape.2) ⬝ᵥ (cooMatrix A A.shape.1 A.shape.2 *ᵥ Spec.vec d A.shape.2) =
        (fs.map fun f => (w f * (misfit 0 (fun v => θ v + e v) f - misfit 0 θ f)) ^ 2).sum := by
    intro d e hd he
    obtain ⟨u, hu, hud⟩ := hprod d hd
    obtain ⟨-, k1, k2⟩ := matmul_vec hwf hu
    have hul : ∀ f ∈ fs, (u f).length = rdim f := fun f hf => (hud f hf).1
    have hval : ∀ f (hf : f ∈ fs), vec (u f) (rdim f) ⟨0, by rw [hrd f hf]; omega⟩ =
        w f * (misfit (m f) (fun v => θ v + e v) f - misfit (m f) θ f) := by
      intro f hf
      rw [(hud f hf).2]
      have hRf := (hR f hf).1
      rw [hρ] at hRf
      exact measuresAngle_jacobian (hT f hf) (hK f hf) θ _ hRf _ e (fun v hv => he v (mem_variablesOf hf hv)) _
    have hres : ∀ f (hf : f ∈ fs), vec (ρ f) (rdim f) ⟨0, by rw [hrd f hf]; omega⟩ = w f * misfit (m f) θ f := by
      intro f hf
      rw [hρ]; rfl
    have e0 : ((evalOrder fs).flatMap ρ).length = A.shape.1 := by rw [hsh']
    have b1 := dot_blocks hul hul k1
    have b2 := dot_blocks hul hρl k1
    have b3 := dot_blocks hρl hρl e0
    constructor
    · unfold modelCost
      rw [← k2, add_dotProduct, dotProduct_add, dotProduct_add, dotProduct_comm (Spec.vec ((evalOrder fs).flatMap ρ) A.shape.1), b1, b2, b3]
      unfold angleCost
      rw [← List.sum_map_add, ← List.sum_map_add, ← List.sum_map_add]
      congr 1
      refine List.map_congr_left fun f hf => ?_
      rw [dot_one (hrd f hf), dot_one (hrd f hf), dot_one (hrd f hf), hval f hf, hres f hf]
      ring
    · rw [← k2, b1]
      congr 1
      refine List.map_congr_left fun f hf => ?_
      rw [dot_one (hrd f hf), hval f hf, misfit_zero (hT f hf), misfit_zero (hT f hf) θ]
      ring
  have asg : ∀ d : List ℝ, d.length = g.localLayout.dim → IsAssignmentOf C (Graph.variablesOf fs) ⟨d, g.localLayout⟩ := fun d hd => by
    refine ⟨hs.1, ?_, hd⟩
    simp only [hG.localLayout, make_localFlag]
  refine ⟨hwf, hsh', hc', fun d hd => ?_, fun y => ?_⟩
  · obtain ⟨q, hq⟩ := exists_rep (asg d hd)
    have hq1 : ∀ v ∈ Graph.variablesOf fs, q v = [(q v).getD 0 0] := by
      intro v hv
      have := hq.len v hv
      simp only [hG.localLayout, make_localFlag, dimOf, hKv v hv] at this
      obtain ⟨x, hx⟩ := List.length_eq_one_iff.1 this
      rw [hx]; rfl
    have hb : ∀ v ∈ Graph.variablesOf fs, block C ⟨d, g.localLayout⟩ v = [(q v).getD 0 0] := fun v hv => by
      rw [hq.block_eq hv]; exact hq1 v hv
    obtain ⟨s1, s2⟩ := step d (fun v => (q v).getD 0 0) hd hb
    refine ⟨fun v => θ v + (q v).getD 0 0, fun b hbr => ?_, s1, s2, ?_⟩
    · obtain ⟨b', hb', -, hh⟩ := Props.holds_retract hC hG h hlay hd
      rw [hbr] at hb'; cases hb'
      refine ⟨hh.assignment, hh.isGlobal, hh.sameVars, fun v hv => ?_⟩
      rw [hh.values v hv]
      simp only [hKv v hv]
      rw [turnBy_retract _ (hb v hv)]
    · rw [← sqNorm_eq (by rw [hsh', hd]), show d = (grouped (Graph.variablesOf fs)).flatMap q from hq.storage, Props.sqNorm_flatMap]
      unfold angleDist
      rw [((grouped_perm (Graph.variablesOf fs)).map fun v => sqNorm (q v)).sum_eq]
      congr 1
      refine List.map_congr_left fun v hv => ?_
      rw [hq1 v hv]
      simp [sqNorm, sq]
  · have hrep : Rep C (Graph.variablesOf fs) true (fun v => [y v - θ v]) ⟨(grouped (Graph.variablesOf fs)).flatMap fun v => [y v - θ v], g.localLayout⟩ :=
      ⟨hs.1, hG.localLayout, fun v hv => by simp [dimOf, hKv v hv]; rfl, rfl⟩
    have hlen := hrep.storage_length'
    refine ⟨_, hlen, (step _ (fun v => y v - θ v) hlen fun v hv => hrep.block_eq hv).1.trans ?_⟩
    congr 1
    funext v
    ring

/-- A damped Gauss-Newton step. -/
theorem rotation_step {σ μ : ℝ} (hσ : 0 < σ) (hμ : 0 ≤ μ) (hD : DeterminesAngles fs w (Graph.variablesOf fs) σ) {θ : Var → ℝ}
    {a b : Assign ℝ} (h : Holds C fs (Graph.variablesOf fs) (fun v => turnBy (θ v)) a) (hlay : a.layout = g.layout)
    (hsmall : ∀ f ∈ fs, |misfit (m f) θ f| < Real.pi) {c : ℝ} {r : List ℝ} {A : Coo ℝ} (hcost : g.computeCost F C a = .ok (c, r))
    (hA : g.computeWhitenedResidualJacobian F C a r = .ok A) {y x : List ℝ} (hy : A.T.matmul (r.map fun z => -z) = .ok y)
    (hx : x.length = A.shape.2) {D : Matrix (Fin A.shape.2) (Fin A.shape.2) ℝ} (hDp : D.PosSemidef)
    (hDμ : ∀ v, v ⬝ᵥ D *ᵥ v ≤ μ * (v ⬝ᵥ v))
    (heq : ((cooMatrix A A.shape.1 A.shape.2)ᵀ * cooMatrix A A.shape.1 A.shape.2 + D) *ᵥ Spec.vec x A.shape.2 = Spec.vec y A.shape.2)
    (hb : a.manifoldRetract C ⟨x, g.localLayout⟩ = .ok b) :
    ∃ θ' : Var → ℝ, Holds C fs (Graph.variablesOf fs) (fun v => turnBy (θ' v)) b ∧
      ∀ z, angleCost fs m w θ' - angleCost fs m w z ≤ (μ / (σ + μ)) ^ 2 * (angleCost fs m w θ - angleCost fs m w z) := by
  obtain ⟨hwf, hsh, hc, hstep, hreach⟩ := rotation_view hC hne hT hK hg h hlay hsmall hcost hA
  have h2 : A.shape.2 = g.localLayout.dim := by rw [hsh]
  obtain ⟨-, -, hyv⟩ := descent_ok hwf hy
  obtain ⟨θ', k1, k2, -, -⟩ := hstep x (hx.trans h2)
  refine ⟨θ', k1 b hb, fun z => ?_⟩
  obtain ⟨d, hd, hdz⟩ := hreach z
  obtain ⟨d0, hd0, hd0z⟩ := hreach θ
  have hstiff : ∀ v, σ * (v ⬝ᵥ v) ≤ (cooMatrix A A.shape.1 A.shape.2 *ᵥ v) ⬝ᵥ (cooMatrix A A.shape.1 A.shape.2 *ᵥ v) := by
    intro v
    obtain ⟨θ₁, -, -, k3, k4⟩ := hstep (List.ofFn v) (by rw [List.length_ofFn, h2])
    have hv : Spec.vec (List.ofFn v) A.shape.2 = v := by
      funext i
      rw [vec_eq (by simp)]
      simp
    rw [hv] at k3 k4
    rw [k3, k4]
    exact hD _ _
  have key := damped_contracts hDp hσ hμ (stiff_seen hstiff) hDμ (heq.trans hyv) (Spec.vec d A.shape.2)
  have h0 : modelCost (cooMatrix A A.shape.1 A.shape.2) (Spec.vec r A.shape.1) 0 = angleCost fs m w θ := by
    have hsum : modelCost (cooMatrix A A.shape.1 A.shape.2) (Spec.vec r A.shape.1) 0 = sqNorm r := by
      unfold modelCost
      rw [mulVec_zero, zero_add, ← sqNorm_eq (by rw [hsh])]
    rw [hsum, ← hc]
    unfold Graph.computeCost at hcost
    simp only [py_bind_eq_ok, py_return_eq_ok] at hcost
    obtain ⟨r', -, e⟩ := hcost
    obtain ⟨rfl, rfl⟩ := Prod.mk.inj e
    rfl
  rw [k2, hdz, h0] at key
  exact key

end

end Jaxfg
