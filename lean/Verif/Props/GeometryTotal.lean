/-
Properties C56 and C126: the Jacobians of pose factors as total derivatives, and pose graphs that fit exactly
(jaxfg/geometry/_factors.py, jaxfg/core/_stacked_factor_graph.py).
-/
import Verif.Lemmas.LieFrechet
import Verif.Props.Geometry
import Verif.Props.FrechetDefault
import Verif.Props.Anchored
import Verif.Props.LocalMin

namespace Jaxfg.Props
open Spec Filter LieGroup
open Matrix hiding vec

section
variable (F : Nat → FactorClass) (C : Ty → VarClass ℝ) (K : Ty → LieType)

/-- The parameters of a retracted pose are differentiable functions of the deltas. -/
theorem smooth_moved {C : Ty → VarClass ℝ} {vars : List Var} (i : Fin vars.length) {k : LieType} (hC : C (vars.get i).ty = k.ops.varClass)
    {T : List ℝ} (hT : k.Valid T) : Smooth (fun x : Deltas C vars => k.ops.rplus T (List.ofFn (x i))) 0 := by
  have hn : (C (vars.get i).ty).localDim = k.ops.tangentDim := by rw [hC]; rfl
  intro j
  have h2 : DifferentiableAt ℝ (fun x : Deltas C vars => x i) 0 :=
    (ContinuousLinearMap.proj (R := ℝ) (φ := fun i : Fin vars.length => Fin (C (vars.get i).ty).localDim → ℝ) i).differentiableAt
  exact (smooth_rplus k hT hn j).comp (0 : Deltas C vars) h2

theorem rplus_zero {k : LieType} {T : List ℝ} (hT : k.Valid T) {n : Nat} (hn : n = k.ops.tangentDim) :
    k.ops.rplus T (List.ofFn (0 : Fin n → ℝ)) = T := by
  subst hn
  have L := lieLaws k
  have e : List.ofFn (0 : Fin k.ops.tangentDim → ℝ) = List.replicate k.ops.tangentDim 0 := by
    rw [show (0 : Fin k.ops.tangentDim → ℝ) = fun _ => 0 from rfl, List.ofFn_const]
  rw [e, LieGroup.rplus, L.exp_zero]
  let _ := L.group
  exact congrArg Subtype.val (mul_one (⟨T, hT⟩ : {x // k.Valid x}))

/-- The Jacobian of a prior factor is a total derivative if its directional derivatives are right and the logarithm is differentiable. -/
theorem prior_total {F : Nat → FactorClass} {C : Ty → VarClass ℝ} {k : LieType} {cls : Nat} {v : Var} {mu T : List ℝ} {noise : Noise}
    (hF : F cls = priorFactorClass k.ops) (hv : C v.ty = k.ops.varClass) (hT : k.Valid T)
    (hcorr : JacobiansCorrect F C (PriorFactor.make cls v (k.ops.value mu) noise) [k.ops.value T])
    (hlog : ∀ p : Deltas C [v] → List ℝ, Smooth p 0 → p 0 = k.ops.multiply (k.ops.inverse T) mu → Smooth (fun x => k.ops.log (p x)) 0) :
    JacobiansTotal F C (PriorFactor.make cls v (k.ops.value mu) noise) [k.ops.value T] := by
  have hn : (C v.ty).localDim = k.ops.tangentDim := by rw [hv]; rfl
  have L := lieLaws k
  refine jacobiansTotal_of_correct rfl ?_ hcorr ?_
  · show ((F cls).jacobians _ _).length = 1
    rw [hF]
    rfl
  · have e : ∀ x : Deltas C [v], (F cls).residual (PriorFactor.make cls v (k.ops.value mu) noise).self (movedBy C [v] [k.ops.value T] x) =
        k.ops.log (k.ops.multiply (k.ops.inverse (k.ops.rplus T (List.ofFn (x 0)))) mu) := by
      intro x
      show (F cls).residual _ [(C v.ty).retract (k.ops.value T) (List.ofFn (x 0))] = _
      rw [hF, hv]
      show k.ops.rminus (k.ops.value (k.ops.rplus (k.ops.value T).flatten (List.ofFn (x 0)))).flatten mu = _
      rw [value_flatten, value_flatten]
      rfl
    have h0 : k.ops.rplus T (List.ofFn ((0 : Deltas C [v]) 0)) = T := rplus_zero hT hn
    have h1 := hlog (fun x : Deltas C [v] => k.ops.multiply (k.ops.inverse (k.ops.rplus T (List.ofFn (x 0)))) mu)
      (smooth_multiply k (smooth_inverse k (smooth_moved (0 : Fin [v].length) hv hT)) (Smooth.const mu) fun x =>
        L.len _ (L.inv _ (L.mul _ _ hT (L.exp _)))) (by simp only [h0])
    refine (h1.vec _).congr_of_eventuallyEq (Eventually.of_forall fun x => ?_)
    exact congrArg (fun l => Spec.vec l _) (e x)

/-- The Jacobians of a between factor are a total derivative if their directional derivatives are right and the logarithm is
differentiable. -/
theorem between_total {F : Nat → FactorClass} {C : Ty → VarClass ℝ} {k : LieType} {cls : Nat} {a b : Var} {M Ta Tb : List ℝ} {noise : Noise}
    (hF : F cls = betweenFactorClass k.ops) (hCa : C a.ty = k.ops.varClass) (hCb : C b.ty = k.ops.varClass) (hTa : k.Valid Ta)
    (hTb : k.Valid Tb)
    (hcorr : JacobiansCorrect F C ⟨cls, [a, b], noise, (k.ops.value M).leaves⟩ [k.ops.value Ta, k.ops.value Tb])
    (hlog : ∀ p : Deltas C [a, b] → List ℝ, Smooth p 0 →
      p 0 = k.ops.multiply (k.ops.inverse (k.ops.multiply (k.ops.inverse Ta) Tb)) M → Smooth (fun x => k.ops.log (p x)) 0) :
    JacobiansTotal F C ⟨cls, [a, b], noise, (k.ops.value M).leaves⟩ [k.ops.value Ta, k.ops.value Tb] := by
  have hna : (C a.ty).localDim = k.ops.tangentDim := by rw [hCa]; rfl
  have hnb : (C b.ty).localDim = k.ops.tangentDim := by rw [hCb]; rfl
  have L := lieLaws k
  refine jacobiansTotal_of_correct rfl ?_ hcorr ?_
  · show ((F cls).jacobians _ _).length = 2
    rw [hF]
    rfl
  · have e : ∀ x : Deltas C [a, b], (F cls).residual (Factor.self ⟨cls, [a, b], noise, (k.ops.value M).leaves⟩)
        (movedBy C [a, b] [k.ops.value Ta, k.ops.value Tb] x) =
        k.ops.log (k.ops.multiply (k.ops.inverse (k.ops.multiply
          (k.ops.inverse (k.ops.rplus Ta (List.ofFn (x 0)))) (k.ops.rplus Tb (List.ofFn (x 1))))) M) := by
      intro x
      show (F cls).residual _ [(C a.ty).retract (k.ops.value Ta) (List.ofFn (x 0)), (C b.ty).retract (k.ops.value Tb) (List.ofFn (x 1))] = _
      rw [hF, hCa, hCb]
      show k.ops.rminus (k.ops.multiply (k.ops.inverse (k.ops.value (k.ops.rplus (k.ops.value Ta).flatten (List.ofFn (x 0)))).flatten)
        (k.ops.value (k.ops.rplus (k.ops.value Tb).flatten (List.ofFn (x 1)))).flatten) M = _
      rw [value_flatten, value_flatten, value_flatten, value_flatten]
      rfl
    have h0a : k.ops.rplus Ta (List.ofFn ((0 : Deltas C [a, b]) 0)) = Ta := rplus_zero hTa hna
    have h0b : k.ops.rplus Tb (List.ofFn ((0 : Deltas C [a, b]) 1)) = Tb := rplus_zero hTb hnb
    have h1 := hlog (fun x : Deltas C [a, b] => k.ops.multiply (k.ops.inverse (k.ops.multiply
          (k.ops.inverse (k.ops.rplus Ta (List.ofFn (x 0)))) (k.ops.rplus Tb (List.ofFn (x 1))))) M)
      (smooth_multiply k (smooth_inverse k (smooth_multiply k (smooth_inverse k (smooth_moved (0 : Fin [a, b].length) hCa hTa))
        (smooth_moved (1 : Fin [a, b].length) hCb hTb) fun x => L.len _ (L.inv _ (L.mul _ _ hTa (L.exp _))))) (Smooth.const M) fun x =>
        L.len _ (L.inv _ (L.mul _ _ (L.inv _ (L.mul _ _ hTa (L.exp _))) (L.mul _ _ hTb (L.exp _))))) (by simp only [h0a, h0b])
    refine (h1.vec _).congr_of_eventuallyEq (Eventually.of_forall fun x => ?_)
    exact congrArg (fun l => Spec.vec l _) (e x)

/-- **C56, total derivatives** (partial). If the poses satisfy the measurement of a prior or between factor, the Jacobians that the
factor returns are together the total (Fréchet) derivative of its residual. The full statement, for all poses, is false:
`C56_false_for_se2`. -/
theorem C56_total_at_measurement_partial (f : Factor) (P : (Var → List ℝ) → Prop) (hf : Measures F K f P)
    (hC : ∀ v ∈ f.vars, C v.ty = (K v.ty).ops.varClass) (hr : ∀ v ∈ f.vars, rdim f = (K v.ty).ops.tangentDim)
    (pose : Var → List ℝ) (hpose : ∀ v ∈ f.vars, (K v.ty).Valid (pose v)) (hP : P pose) :
    JacobiansTotal F C f (f.vars.map (poseValue K pose)) := by
  have hcorr := C56_jacobians_at_measurement_partial F C K f P hf hC hr pose hpose hP
  cases hf with
  | prior cls v mu noise hF hmu =>
    have hT : (K v.ty).Valid (pose v) := hpose v (by simp [PriorFactor.make])
    have L := lieLaws (K v.ty)
    refine prior_total hF (hC v (by simp [PriorFactor.make])) hT hcorr fun p hp h0 => smooth_log _ hp ?_ ?_
    · rw [h0]; exact L.mul _ _ (L.inv _ hT) hmu
    · rw [h0]; exact (rminus_eq_zero_iff _ hT hmu).2 hP
  | between cls a b M noise f hF hM hf =>
    obtain ⟨hab, -, rfl⟩ := between_make_ok hf
    have hTa : (K a.ty).Valid (pose a) := hpose a (by simp)
    have hTb : (K a.ty).Valid (pose b) := by rw [hab]; exact hpose b (by simp)
    have hCb : C b.ty = (K a.ty).ops.varClass := by rw [hab]; exact hC b (by simp)
    have L := lieLaws (K a.ty)
    have hX := L.mul _ _ (L.inv _ hTa) hTb
    have e : [a, b].map (poseValue K pose) = [(K a.ty).ops.value (pose a), (K a.ty).ops.value (pose b)] := by
      simp only [List.map_cons, List.map_nil, poseValue]
      rw [hab]
    change JacobiansCorrect F C _ ([a, b].map (poseValue K pose)) at hcorr
    show JacobiansTotal F C _ ([a, b].map (poseValue K pose))
    rw [e] at hcorr ⊢
    refine between_total hF (hC a (by simp)) hCb hTa hTb hcorr fun p hp h0 => smooth_log _ hp ?_ ?_
    · rw [h0]; exact L.mul _ _ (L.inv _ hX) hM
    · rw [h0]
      exact (rminus_eq_zero_iff (K a.ty) hX hM).2 (by
        rw [motion_mul _ (L.inv _ hTa) hTb, hP, ← mul_assoc, motion_inv_mul _ hTa, one_mul])

/-- The logarithm of a plane rotation is differentiable except at half a turn. -/
theorem smooth_so2_log {E : Type} [NormedAddCommGroup E] [NormedSpace ℝ E] {p : E} {l : E → List ℝ} (hl : Smooth l p)
    (hv : LieType.so2.Valid (l p)) (h : so2.log (l p) ≠ [Real.pi]) : Smooth (fun x => so2.log (l x)) p := by
  refine smooth_so2Log hl ?_
  obtain ⟨c, s, e, hcs⟩ := hv
  rw [e] at h ⊢
  show 0 < c ∨ s ≠ 0
  by_contra hn
  push Not at hn
  obtain ⟨hc, rfl⟩ := hn
  have hc' : c < 0 := lt_of_le_of_ne hc (by rintro rfl; norm_num at hcs)
  exact h (congrArg (fun t => [t]) (show Complex.arg ⟨c, 0⟩ = Real.pi from Complex.arg_eq_pi_iff.2 ⟨hc', rfl⟩))

/-- **C56, plane rotations, total derivatives** (partial). For SO(2) the Jacobians of prior and between factors are total derivatives at
all poses except where the residual is exactly half a turn. -/
theorem C56_so2_total_partial (cls : Nat) (noise : Noise) (hdim : noiseDim noise = 1) :
    (∀ (v : Var) (mu T : List ℝ), F cls = priorFactorClass so2 → C v.ty = SO2Variable → LieType.so2.Valid mu →
      LieType.so2.Valid T →
      (F cls).residual (PriorFactor.make cls v (so2.value mu) noise).self [so2.value T] ≠ [Real.pi] →
      JacobiansTotal F C (PriorFactor.make cls v (so2.value mu) noise) [so2.value T]) ∧
    (∀ (a b : Var) (M Ta Tb : List ℝ) (g : Ty → Nat) (f : Factor), F cls = betweenFactorClass so2 → C a.ty = SO2Variable →
      BetweenFactor.make cls g a b (so2.value M) noise = .ok f →
      LieType.so2.Valid M → LieType.so2.Valid Ta → LieType.so2.Valid Tb →
      (F cls).residual f.self [so2.value Ta, so2.value Tb] ≠ [Real.pi] →
      JacobiansTotal F C f [so2.value Ta, so2.value Tb]) := by
  have L := so2_laws
  obtain ⟨hp, hb⟩ := C56_so2_partial F C cls noise hdim
  constructor
  · intro v mu T hF hv hmu hT hres
    refine prior_total (k := .so2) hF hv hT (hp v mu T hF hv hmu hT hres) fun p hp h0 => smooth_so2_log hp ?_ ?_
    · rw [h0]; exact L.mul _ _ (L.inv _ hT) hmu
    · rw [h0]
      rw [hF] at hres
      have : (priorFactorClass so2).residual (PriorFactor.make cls v (so2.value mu) noise).self [so2.value T] =
        so2.rminus (so2.value T).flatten mu := rfl
      rw [this, value_flatten] at hres
      exact hres
  · intro a b M Ta Tb g f hF ha hf hM hTa hTb hres
    have hcorr := hb a b M Ta Tb g f hF ha hf hM hTa hTb hres
    obtain ⟨hab, -, rfl⟩ := between_make_ok hf
    have hX := L.mul _ _ (L.inv _ hTa) hTb
    refine between_total (k := .so2) hF ha (hab ▸ ha) hTa hTb hcorr fun p hp h0 => smooth_so2_log hp ?_ ?_
    · rw [h0]; exact L.mul _ _ (L.inv _ hX) hM
    · rw [h0]
      rw [hF] at hres
      have : (betweenFactorClass so2).residual (Factor.self ⟨cls, [a, b], noise, (so2.value M).leaves⟩) [so2.value Ta, so2.value Tb] =
        so2.rminus (so2.multiply (so2.inverse (so2.value Ta).flatten) (so2.value Tb).flatten) M := rfl
      rw [this, value_flatten, value_flatten] at hres
      exact hres

/-! ### C126: pose graphs that fit exactly -/

/-- The Jacobian of a pose graph in which every pose is tied to the world has linearly independent columns. -/
theorem anchored_injective {F : Nat → FactorClass} {C : Ty → VarClass ℝ} {K : Ty → LieType} (hC : ∀ t, C t = (K t).ops.varClass)
    {fs : List Factor} (hne : fs ≠ []) (hfs : ∀ f ∈ fs, ∃ P, Measures F K f P)
    (hnoise : ∀ f ∈ fs, ∀ v ∈ f.vars, NoiseWF f.noise (K v.ty).ops.tangentDim (K v.ty).ops.tangentDim ∧
      NoiseRegular f.noise (K v.ty).ops.tangentDim)
    {vars : List Var} {pose : Var → List ℝ} (hpose : ∀ v ∈ vars, (K v.ty).Valid (pose v)) {a : Assign ℝ}
    (h : Holds C fs vars (poseValue K pose) a) (hanch : ∀ v ∈ vars, Anchored fs v) {g : Graph} (hg : Graph.make C fs = .ok g)
    {r : List ℝ} {A : Coo ℝ} (hr : g.computeWhitenedResidualVector F C a = .ok r)
    (hJ : g.computeWhitenedResidualJacobian F C a r = .ok A) (hA : CooWF A) (x : Fin A.shape.2 → ℝ)
    (hx : cooMatrix A A.shape.1 A.shape.2 *ᵥ x = 0) : x = 0 := by
  let lib : CholmodChoice := ⟨fun _ _ => Equiv.refl _, fun _ _ _ => false⟩
  obtain ⟨g', hg', h1, -⟩ := C104_anchored lib F C K hC fs hne hfs hnoise vars pose hpose a h
  rw [hg] at hg'; cases hg'
  obtain ⟨c, hc⟩ := h1 hanch
  obtain ⟨σ, -, -, hno⟩ := covariance_factor lib F C hr hJ hA (n := A.shape.2) rfl
  have hpd : ((cooMatrix A A.shape.1 A.shape.2)ᵀ * cooMatrix A A.shape.1 A.shape.2).PosDef := by
    by_contra hn
    rw [hno hn] at hc
    cases hc
  by_contra hx0
  have := hpd.dotProduct_mulVec_pos hx0
  rw [← mulVec_mulVec, hx, mulVec_zero] at this
  simp at this

/-- **C126.** A pose graph of prior and between factors over the four groups, with Gaussian noise models that are blind in no direction,
whose poses satisfy all measurements, and in which every pose is tied to the world by a chain of measurements that ends in a prior:
`compute_cost` of the retracted assignments grows at least quadratically with every component of the delta, so that no other assignments
nearby have the cost zero; and it is `|A @ d|²` up to an error that is small compared with `|d|²`, where `A` is the Jacobian that the
graph computes at these poses. -/
theorem C126_exact_fit (hC : ∀ t, C t = (K t).ops.varClass) (fs : List Factor) (hne : fs ≠ [])
    (P : Factor → (Var → List ℝ) → Prop) (hfs : ∀ f ∈ fs, Measures F K f (P f))
    (hnoise : ∀ f ∈ fs, ∀ v ∈ f.vars, NoiseWF f.noise (K v.ty).ops.tangentDim (K v.ty).ops.tangentDim ∧
      NoiseRegular f.noise (K v.ty).ops.tangentDim) (hgauss : ∀ f ∈ fs, NoiseGaussian f.noise) :
    ∃ g, Graph.make C fs = .ok g ∧
      ∀ vars pose a, (∀ v ∈ vars, (K v.ty).Valid (pose v)) → Holds C fs vars (poseValue K pose) a → a.layout = g.layout →
        (∀ f ∈ fs, P f pose) →
        ((∀ v ∈ vars, Anchored fs v) → ∃ κ ε : ℝ, 0 < κ ∧ 0 < ε ∧
          ∀ d : List ℝ, d.length = g.localLayout.dim → (∀ x ∈ d, |x| < ε) →
            ∃ b c r', a.manifoldRetract C ⟨d, g.localLayout⟩ = .ok b ∧ g.computeCost F C b = .ok (c, r') ∧ ∀ x ∈ d, κ * x ^ 2 ≤ c) ∧
        ∃ r A, g.computeCost F C a = .ok (0, r) ∧ g.computeWhitenedResidualJacobian F C a r = .ok A ∧
          ∀ η > 0, ∃ ε > 0, ∀ d : List ℝ, d.length = g.localLayout.dim → (∀ x ∈ d, |x| < ε) →
            ∃ b c r' z, a.manifoldRetract C ⟨d, g.localLayout⟩ = .ok b ∧ g.computeCost F C b = .ok (c, r') ∧ A.matmul d = .ok z ∧
              |c - sqNorm z| ≤ η * sqNorm d := by
  have hG := lie_goodClasses hC
  have hwf : ∀ f ∈ fs, FactorWF F C f ∧ ∀ v ∈ f.vars, rdim f = (K v.ty).ops.tangentDim := fun f hf =>
    C54_wellformed F C K f (P f) (hfs f hf) fun v hv => ⟨hC _, (hnoise f hf v hv).1⟩
  obtain ⟨g, hg, hiso⟩ := C125_isolated F C hG fs hne (fun f hf => (hwf f hf).1) hgauss
  obtain ⟨g', hg', hhes⟩ := C125_hessian F C hG fs hne (fun f hf => (hwf f hf).1) hgauss
  rw [hg] at hg'; cases hg'
  obtain ⟨g', hg', hzc⟩ := C54_cost_zero_iff F C K hC fs hne P hfs hnoise
  rw [hg] at hg'; cases hg'
  obtain ⟨g', hg', hGO⟩ := graph_ok (F := F) (fun f hf => (hwf f hf).1) hne
  rw [hg] at hg'; cases hg'
  refine ⟨g, hg, fun vars pose a hpose h hlay hP => ?_⟩
  have htot : ∀ f ∈ fs, JacobiansTotal F C f (f.vars.map (poseValue K pose)) := fun f hf =>
    C56_total_at_measurement_partial F C K f (P f) (hfs f hf) (fun v _ => hC _) (hwf f hf).2 pose
      (fun v hv => hpose v ((h.sameVars v).2 ⟨f, hf, hv⟩)) (hP f hf)
  have hzero : ∀ v ∈ vars, (C v.ty).retract (poseValue K pose v) (List.replicate (C v.ty).localDim 0) = poseValue K pose v := by
    intro v hv
    have e : (C v.ty).localDim = (K v.ty).ops.tangentDim := by rw [hC]; rfl
    rw [e, hC]
    show (K v.ty).ops.value ((K v.ty).ops.rplus ((K v.ty).ops.value (pose v)).flatten (List.replicate _ 0)) = _
    have e0 := rplus_zero (hpose v hv) rfl
    rw [show (0 : Fin (K v.ty).ops.tangentDim → ℝ) = fun _ => 0 from rfl, List.ofFn_const] at e0
    rw [value_flatten, e0]
    rfl
  obtain ⟨c, r, hcost, hiff⟩ := hzc vars pose a hpose h
  rw [hiff.2 hP] at hcost
  obtain ⟨w, hw⟩ := h.whitened hG fun f hf => (hwf f hf).1
  have hcost' := cost_ok F C hG hne (fun f hf => (hwf f hf).1) hGO h fun f hf => (hw f hf).1
  have : ∀ f, ∃ R, f ∈ fs → whitenedJacobiansAt F (poseValue K pose) f (w f) = .ok R := by
    intro f
    by_cases hf : f ∈ fs
    · obtain ⟨R, h1, _⟩ := whitenedJacobians_ok (hwf f hf).1 (h.valuesFor hG hf) (hw f hf).2
      exact ⟨R, fun _ => h1⟩
    · exact ⟨[], fun h => absurd h hf⟩
  choose R hR using this
  have hres := (residual_ok hG (fun f hf => (hwf f hf).1) hne hGO h (fun f hf => (hw f hf).1)).1
  obtain ⟨A, hJ, hA, hshape, -, -, hmul⟩ := jacobian_ok hG (fun f hf => (hwf f hf).1) hne hGO h (fun f hf => (hw f hf).2) hR
  rw [hcost] at hcost'
  have hr := congrArg Prod.snd (Except.ok.inj hcost')
  simp only at hr
  rw [← hr] at hJ hres
  refine ⟨fun hanch => ?_, r, A, hcost, hJ, hhes vars _ a h hlay htot hzero r A hcost hJ⟩
  refine hiso vars _ a h hlay htot hzero r A hcost hJ ?_
  have hinj := anchored_injective hC hne (fun f hf => ⟨P f, hfs f hf⟩) hnoise hpose h hanch hg hres hJ hA
  rw [hshape] at hinj
  exact hinj

/-- Moving a pose along the adjoint of a tangent vector is moving it from the left. -/
theorem rplus_Ad {k : LieType} {T d : List ℝ} (hT : k.Valid T) (hd : d.length = k.ops.tangentDim) :
    k.ops.rplus T (k.ops.Ad (k.ops.inverse T) d) = k.ops.multiply (k.ops.exp d) T := by
  have L := lieLaws k
  rw [LieGroup.rplus, ← L.conj _ _ (L.inv _ hT) hd]
  let _ := L.group
  have h : ∀ T E : {x // k.Valid x}, T * (T⁻¹ * E * T⁻¹⁻¹) = E * T := by intro T E; group
  exact congrArg Subtype.val (h ⟨T, hT⟩ ⟨k.ops.exp d, L.exp _⟩)

theorem Ad_ne_zero {k : LieType} {T : List ℝ} (hT : k.Valid T) :
    ∃ y ∈ k.ops.Ad (k.ops.inverse T) (List.replicate k.ops.tangentDim 1), y ≠ 0 := by
  by_contra hall
  push Not at hall
  have h0 : vec (k.ops.Ad (k.ops.inverse T) (List.replicate k.ops.tangentDim 1)) k.ops.tangentDim = 0 := by
    rw [vec_eq_zero_iff (by simp [LieGroup.Ad]), List.eq_replicate_iff]
    exact ⟨by simp [LieGroup.Ad], hall⟩
  have hdet : (adMat k (k.ops.inverse T)).det ≠ 0 := by
    have h1 := congrArg Matrix.det (adMat_inv_mul k hT)
    rw [det_mul, det_one] at h1
    exact left_ne_zero_of_mul_eq_one h1
  have h1 : vec (k.ops.Ad (k.ops.inverse T) (List.replicate k.ops.tangentDim 1)) k.ops.tangentDim =
      adMat k (k.ops.inverse T) *ᵥ vec (List.replicate k.ops.tangentDim 1) k.ops.tangentDim := vec_ofFn' _
  rw [h1] at h0
  have := congrFun (Matrix.eq_zero_of_mulVec_eq_zero hdet h0) ⟨0, lie_tangent_pos _⟩
  simp [Spec.vec, lie_tangent_pos] at this

/-- **C126, loose poses.** If the poses satisfy all measurements but one of them is not tied to the world, then arbitrarily close to the
assignments there are others that also have the cost zero. -/
theorem C126_loose (hC : ∀ t, C t = (K t).ops.varClass) (fs : List Factor) (hne : fs ≠ [])
    (P : Factor → (Var → List ℝ) → Prop) (hfs : ∀ f ∈ fs, Measures F K f (P f))
    (hnoise : ∀ f ∈ fs, ∀ v ∈ f.vars, NoiseWF f.noise (K v.ty).ops.tangentDim (K v.ty).ops.tangentDim ∧
      NoiseRegular f.noise (K v.ty).ops.tangentDim) :
    ∃ g, Graph.make C fs = .ok g ∧
      ∀ vars pose a, (∀ v ∈ vars, (K v.ty).Valid (pose v)) → Holds C fs vars (poseValue K pose) a → a.layout = g.layout →
        (∀ f ∈ fs, P f pose) → (∃ v ∈ vars, ¬ Anchored fs v) → ∀ ε > 0,
          ∃ d b r, d.length = g.localLayout.dim ∧ (∀ x ∈ d, |x| < ε) ∧ (∃ x ∈ d, x ≠ 0) ∧
            a.manifoldRetract C ⟨d, g.localLayout⟩ = .ok b ∧ g.computeCost F C b = .ok (0, r) := by
  classical
  have hG := lie_goodClasses hC
  have hwf : ∀ f ∈ fs, FactorWF F C f ∧ ∀ v ∈ f.vars, rdim f = (K v.ty).ops.tangentDim := fun f hf =>
    C54_wellformed F C K f (P f) (hfs f hf) fun v hv => ⟨hC _, (hnoise f hf v hv).1⟩
  have hld : ∀ v : Var, (C v.ty).localDim = (K v.ty).ops.tangentDim := fun v => by rw [hC]; rfl
  obtain ⟨g, hg, hzc⟩ := C54_cost_zero_iff F C K hC fs hne P hfs hnoise
  obtain ⟨g', hg', hGO⟩ := graph_ok (F := F) (fun f hf => (hwf f hf).1) hne
  rw [hg] at hg'; cases hg'
  have hs := variablesOf_spec fs
  refine ⟨g, hg, fun vars pose a hpose h hlay hP ⟨u, hu, hna⟩ ε hε => ?_⟩
  have hmem : ∀ v, v ∈ Graph.variablesOf fs ↔ v ∈ vars := fun v => by rw [hs.2, ← h.sameVars v]
  have hval : ∀ {f v}, f ∈ fs → v ∈ f.vars → (K v.ty).Valid (pose v) := fun hf hv => hpose _ ((hmem _).1 (mem_variablesOf hf hv))
  -- the direction: move the loose poses from the left
  obtain ⟨e, he⟩ : ∃ e : Var → List ℝ, e = fun v => if Anchored fs v then List.replicate (K v.ty).ops.tangentDim 0
      else (K v.ty).ops.Ad ((K v.ty).ops.inverse (pose v)) (List.replicate (K v.ty).ops.tangentDim 1) := ⟨_, rfl⟩
  have hel : ∀ v, (e v).length = (K v.ty).ops.tangentDim := by
    intro v
    rw [he]
    by_cases hv : Anchored fs v
    · simp [hv]
    · simp [hv, LieGroup.Ad]
  obtain ⟨x, hx⟩ : ∃ x, x = (grouped (Graph.variablesOf fs)).flatMap e := ⟨_, rfl⟩
  obtain ⟨B, hB0, hB⟩ : ∃ B : ℝ, 0 < B ∧ ∀ y ∈ x, |y| ≤ B := by
    refine ⟨(x.map fun y => |y|).sum + 1, ?_, fun y hy => ?_⟩
    · have : 0 ≤ (x.map fun y => |y|).sum := List.sum_nonneg (by simp)
      linarith
    · have : |y| ≤ (x.map fun y => |y|).sum :=
        List.single_le_sum (by simp) _ (List.mem_map.2 ⟨y, hy, rfl⟩)
      linarith
  obtain ⟨t, ht, htB⟩ : ∃ t : ℝ, 0 < t ∧ t * B < ε := ⟨ε / (2 * B), by positivity, by
    rw [show ε / (2 * B) * B = ε / 2 by field_simp]; linarith⟩
  have hsc : ∀ v, (scale t (e v)).length = (C v.ty).localDim := fun v => by rw [hld, scale, List.length_map, hel]
  have hrep : Rep C (Graph.variablesOf fs) true (fun v => scale t (e v))
      ⟨(grouped (Graph.variablesOf fs)).flatMap fun v => scale t (e v), g.localLayout⟩ := ⟨hs.1, hGO.localLayout, fun v _ => hsc v, rfl⟩
  have hdx : ((grouped (Graph.variablesOf fs)).flatMap fun v => scale t (e v)) = scale t x := by
    rw [hx, scale, List.map_flatMap]
    rfl
  have hdl : (scale t x).length = g.localLayout.dim := by rw [← hdx]; exact hrep.storage_length'
  rw [hdx] at hrep
  obtain ⟨b, hb1, hb2, hb3⟩ := holds_retract hG hGO h hlay hdl
  -- the poses after the retraction
  obtain ⟨pose', hp'⟩ : ∃ pose' : Var → List ℝ, pose' = fun v => if Anchored fs v then pose v
      else (K v.ty).ops.multiply ((K v.ty).ops.exp (List.replicate (K v.ty).ops.tangentDim t)) (pose v) := ⟨_, rfl⟩
  have hones : ∀ n : Nat, scale t (List.replicate n 1) = List.replicate n t := fun n => by simp [scale]
  have hmoved : ∀ v ∈ Graph.variablesOf fs, (C v.ty).retract (poseValue K pose v) (block C ⟨scale t x, g.localLayout⟩ v) = poseValue K pose' v := by
    intro v hv
    have hT := hpose v ((hmem v).1 hv)
    rw [hrep.block_eq hv, hC]
    show (K v.ty).ops.value ((K v.ty).ops.rplus ((K v.ty).ops.value (pose v)).flatten (scale t (e v))) = (K v.ty).ops.value (pose' v)
    rw [value_flatten, he, hp']
    by_cases ha : Anchored fs v
    · simp only [ha, if_true]
      have e0 := rplus_zero hT rfl
      rw [show (0 : Fin (K v.ty).ops.tangentDim → ℝ) = fun _ => 0 from rfl, List.ofFn_const] at e0
      rw [show scale t (List.replicate (K v.ty).ops.tangentDim 0) = List.replicate (K v.ty).ops.tangentDim 0 by simp [scale], e0]
    · simp only [ha, if_false]
      rw [← Ad_scale _ _ _ (by simp), hones, rplus_Ad hT (by simp)]
  have hvalid' : ∀ v ∈ Graph.variablesOf fs, (K v.ty).Valid (pose' v) := by
    intro v hv
    have hT := hpose v ((hmem v).1 hv)
    have L := lieLaws (K v.ty)
    rw [hp']
    by_cases ha : Anchored fs v
    · simp only [ha, if_true]; exact hT
    · simp only [ha, if_false]; exact L.mul _ _ (L.exp _) hT
  have hholds : Holds C fs (Graph.variablesOf fs) (poseValue K pose') b :=
    ⟨hb3.assignment, hb3.isGlobal, hb3.sameVars, fun v hv => by rw [← hmoved v hv]; exact hb3.values v hv⟩
  obtain ⟨c, r, hc, hiff⟩ := hzc _ pose' b hvalid' hholds
  have hP' : ∀ f ∈ fs, P f pose' := by
    intro f hf
    have hM := hfs f hf
    have hPf := hP f hf
    generalize P f = Q at hM hPf
    cases hM with
    | prior cls v mu noise hF hmu =>
      have ha : Anchored fs v := .prior hf rfl
      simp only [hp', ha, if_true]
      exact hPf
    | between cls a b M noise f hF hM hmk =>
      obtain ⟨hab, -, rfl⟩ := between_make_ok hmk
      by_cases ha : Anchored fs a
      · have hb : Anchored fs b := .forward hf rfl ha
        simp only [hp', ha, hb, if_true]
        exact hPf
      · have hb : ¬ Anchored fs b := fun hb => ha (.backward hf rfl hb)
        simp only [hp', ha, hb, if_false]
        have L := lieLaws (K a.ty)
        have hTa : (K a.ty).Valid (pose a) := hval hf (by simp)
        have hTb : (K a.ty).Valid (pose b) := by rw [hab]; exact hval hf (by simp)
        rw [← hab, motion_mul _ (L.exp _) hTb, motion_mul _ (L.exp _) hTa, hPf, mul_assoc]
  rw [hiff.2 hP'] at hc
  refine ⟨scale t x, b, r, hdl, fun y hy => ?_, ?_, hb1, hc⟩
  · obtain ⟨z, hz, rfl⟩ := List.mem_map.1 hy
    show |t * z| < ε
    rw [abs_mul, abs_of_pos ht]
    exact lt_of_le_of_lt (mul_le_mul_of_nonneg_left (hB z hz) ht.le) htB
  · obtain ⟨y, hy, hy0⟩ := Ad_ne_zero (hpose u hu)
    refine ⟨t * y, List.mem_map.2 ⟨y, ?_, rfl⟩, mul_ne_zero ht.ne' hy0⟩
    rw [hx]
    refine List.mem_flatMap.2 ⟨u, mem_grouped.2 ((hmem u).2 hu), ?_⟩
    rw [he]
    simp only [hna, if_false]
    exact hy

end

namespace PoseEx

/-- `y` is one unit ahead of `x`, turned left, as in `step` but without the Huber wrapper. -/
noncomputable def plain : Factor := ⟨1, [x, y], .diagonal ⟨[3], [1, 1, 2]⟩, (se2.value [0, 1, 1, 0]).leaves⟩

theorem plain_holds {gs : List Factor} (hgs : Graph.variablesOf gs = [x, y]) :
    ∃ a, Holds C gs [x, y] (poseValue K (pose true)) a ∧ a.layout = Layout.make C [x, y] false := by
  have hsub : ∀ v ∈ [x, y], v ∈ [x, y, r, s] := fun v hv => by simp at hv ⊢; tauto
  have hget : ∀ v ∈ [x, y], (⟨[x, y].map fun v => (v, poseValue K (pose true) v)⟩ : PyDict Var (Value ℝ)).get? v =
      some (poseValue K (pose true) v) := by
    intro v hv
    simp only [List.mem_cons, List.not_mem_nil, or_false] at hv
    rcases hv with rfl | rfl <;> rfl
  obtain ⟨⟨a, h1, h2, h3, h4, h5⟩, -⟩ := C07_partial_and_defaults C (fun t => lie_wellShaped _) [x, y]
    (by decide) (by decide) ⟨[x, y].map fun v => (v, poseValue K (pose true) v)⟩ (fun v hv z hz => by
      rw [hget v hv] at hz
      obtain rfl := Option.some.inj hz
      exact (isValueOf_lie _).2 ⟨_, rfl, (lieLaws _).len _ (pose_valid true v (hsub v hv))⟩)
  refine ⟨a, ⟨h2, h3, fun v => ?_, fun v hv => h4 v hv _ (hget v hv)⟩, ?_⟩
  · rw [← hgs, (variablesOf_spec gs).2]
  · rw [h2.2.1, h3]

theorem plain_measures : Measures F K plain
    (fun pose => LieType.se2.motion (pose y) = LieType.se2.motion (pose x) * LieType.se2.motion [0, 1, 1, 0]) :=
  Measures.between 1 x y [0, 1, 1, 0] _ _ rfl ⟨0, 1, 1, 0, rfl, by norm_num⟩ rfl

theorem plain_noise : ∀ v ∈ plain.vars, NoiseWF plain.noise (K v.ty).ops.tangentDim (K v.ty).ops.tangentDim ∧
    NoiseRegular plain.noise (K v.ty).ops.tangentDim := by
  intro v hv
  rcases (by simpa [plain] using hv : v = x ∨ v = y) with rfl | rfl <;> exact ⟨⟨⟨rfl, rfl⟩, rfl⟩, by simp [NoiseRegular, plain]⟩

theorem plain_fits : LieType.se2.motion (pose true y) = LieType.se2.motion (pose true x) * LieType.se2.motion [0, 1, 1, 0] := by
  have h := motion_mul LieType.se2 (x := [1, 0, 1, 2]) (y := [0, 1, 1, 0]) ⟨1, 0, 1, 2, rfl, by norm_num⟩ ⟨0, 1, 1, 0, rfl, by norm_num⟩
  have e1 : pose true x = [1, 0, 1, 2] := by simp [pose]
  have e2 : pose true y = [0, 1, 2, 2] := by simp [pose, x, y]
  rw [e1, e2, ← h]
  congr 1
  show _ = se2Mul _ _
  simp [se2Mul]
  norm_num

theorem prior_noise : ∀ v ∈ prior.vars, NoiseWF prior.noise (K v.ty).ops.tangentDim (K v.ty).ops.tangentDim ∧
    NoiseRegular prior.noise (K v.ty).ops.tangentDim := AnchoredEx.noise prior (by simp [fs])

/-- C56: at the poses that satisfy the measurements, the Jacobians of the between factor of the planar poses are total derivatives. -/
example : JacobiansTotal F C step (step.vars.map (poseValue K (pose true))) := by
  refine C56_total_at_measurement_partial F C K step _ measures.2.1 (fun _ _ => rfl) (fun v hv => ?_) (pose true) (fun v hv => ?_) plain_fits
  · rcases (by simpa [step] using hv : v = x ∨ v = y) with rfl | rfl <;> rfl
  · exact pose_valid true v (by rcases (by simpa [step] using hv : v = x ∨ v = y) with rfl | rfl <;> simp)

/-- C56 for plane rotations: a prior on the identity, at a quarter turn (where the measurement does not hold). -/
example : JacobiansTotal (fun _ => priorFactorClass so2) (fun _ => SO2Variable)
    (PriorFactor.make 0 ⟨0, 0⟩ (so2.value [1, 0]) (.diagonal ⟨[1], [2]⟩)) [so2.value [0, 1]] := by
  refine (C56_so2_total_partial (fun _ => priorFactorClass so2) (fun _ => SO2Variable) 0 (.diagonal ⟨[1], [2]⟩) rfl).1 ⟨0, 0⟩ [1, 0] [0, 1]
    rfl rfl ⟨1, 0, rfl, by norm_num⟩ ⟨0, 1, rfl, by norm_num⟩ fun h => ?_
  have h' : so2.log (so2.multiply (so2.inverse [0, 1]) [1, 0]) = [Real.pi] := h
  have e : so2.log (so2.multiply (so2.inverse [0, 1]) [1, 0]) = [arctan2 (-1) 0] := by simp [so2, so2Mul, so2Inv]
  rw [e] at h'
  have h2 : Complex.arg ⟨0, -1⟩ = Real.pi := (List.cons.inj h').1
  have h3 := Complex.arg_eq_pi_iff.1 h2
  simp at h3

/-- The concrete cases: two planar poses, the first with a prior and the second measured from the first, where all measurements hold; and
the same without the prior. -/
example : ∃ g a, Graph.make C [prior, plain] = .ok g ∧ Holds C [prior, plain] [x, y] (poseValue K (pose true)) a ∧
    ∃ κ ε : ℝ, 0 < κ ∧ 0 < ε ∧ ∀ d : List ℝ, d.length = g.localLayout.dim → (∀ x ∈ d, |x| < ε) →
      ∃ b c r', a.manifoldRetract C ⟨d, g.localLayout⟩ = .ok b ∧ g.computeCost F C b = .ok (c, r') ∧ ∀ x ∈ d, κ * x ^ 2 ≤ c := by
  have hfs : ∀ f ∈ [prior, plain], ∃ Q, Measures F K f Q ∧ Q (pose true) := by
    intro f hf
    simp only [List.mem_cons, List.not_mem_nil, or_false] at hf
    rcases hf with rfl | rfl
    · exact ⟨_, measures.1, by simp [pose]⟩
    · exact ⟨_, plain_measures, plain_fits⟩
  have : ∀ f, ∃ Q, f ∈ [prior, plain] → Measures F K f Q ∧ Q (pose true) := fun f => by
    by_cases hf : f ∈ [prior, plain]
    · obtain ⟨Q, h⟩ := hfs f hf
      exact ⟨Q, fun _ => h⟩
    · exact ⟨fun _ => True, fun h => absurd h hf⟩
  choose P hP using this
  have hvars : Graph.variablesOf [prior, plain] = [x, y] := rfl
  obtain ⟨a, ha, hlay⟩ := plain_holds hvars
  obtain ⟨g, hg, h⟩ := C126_exact_fit F C K (fun _ => rfl) [prior, plain] (by simp) P (fun f hf => (hP f hf).1) (by
    intro f hf
    simp only [List.mem_cons, List.not_mem_nil, or_false] at hf
    rcases hf with rfl | rfl
    · exact prior_noise
    · exact plain_noise) (by
    intro f hf
    simp only [List.mem_cons, List.not_mem_nil, or_false] at hf
    rcases hf with rfl | rfl <;> trivial)
  have hgl : g.layout = Layout.make C [x, y] false := by
    have hwf : ∀ f ∈ [prior, plain], FactorWF F C f := by
      intro f hf
      refine (C54_wellformed F C K f (P f) (hP f hf).1 fun v hv => ⟨rfl, ?_⟩).1
      simp only [List.mem_cons, List.not_mem_nil, or_false] at hf
      rcases hf with rfl | rfl
      · exact (prior_noise v hv).1
      · exact (plain_noise v hv).1
    obtain ⟨g', hg', hG⟩ := graph_ok (F := F) hwf (by simp)
    rw [hg] at hg'; cases hg'
    rw [hG.layout, hvars]
  refine ⟨g, a, hg, ha, (h _ _ a (fun v hv => pose_valid true v (by simp at hv ⊢; tauto)) ha (hlay.trans hgl.symm) fun f hf =>
    (hP f hf).2).1 fun v hv => ?_⟩
  have hx : Anchored [prior, plain] x := .prior (f := prior) (by simp) rfl
  simp only [List.mem_cons, List.not_mem_nil, or_false] at hv
  rcases hv with rfl | rfl
  · exact hx
  · exact .forward (f := plain) (by simp) rfl hx

example : ∃ g a, Graph.make C [plain] = .ok g ∧ Holds C [plain] [x, y] (poseValue K (pose true)) a ∧ ∀ ε > 0,
    ∃ d b r, d.length = g.localLayout.dim ∧ (∀ x ∈ d, |x| < ε) ∧ (∃ x ∈ d, x ≠ 0) ∧
      a.manifoldRetract C ⟨d, g.localLayout⟩ = .ok b ∧ g.computeCost F C b = .ok (0, r) := by
  have hvars : Graph.variablesOf [plain] = [x, y] := rfl
  obtain ⟨a, ha, hlay⟩ := plain_holds hvars
  obtain ⟨g, hg, h⟩ := C126_loose F C K (fun _ => rfl) [plain] (by simp) (fun _ => _) (fun f hf => by
    rw [List.mem_singleton.1 hf]; exact plain_measures) (fun f hf => by rw [List.mem_singleton.1 hf]; exact plain_noise)
  have hgl : g.layout = Layout.make C [x, y] false := by
    obtain ⟨g', hg', hG⟩ := graph_ok (F := F) (C := C) (fs := [plain]) (fun f hf => by
      rw [List.mem_singleton.1 hf]
      exact (C54_wellformed F C K _ _ plain_measures fun v hv => ⟨rfl, (plain_noise v hv).1⟩).1) (by simp)
    rw [hg] at hg'; cases hg'
    rw [hG.layout, hvars]
  refine ⟨g, a, hg, ha, h _ _ a (fun v hv => pose_valid true v (by simp at hv ⊢; tauto)) ha (hlay.trans hgl.symm) (fun f hf => plain_fits)
    ⟨x, by simp, fun hx => ?_⟩⟩
  have key : ∀ v, ¬ Anchored [plain] v := by
    intro v hv
    induction hv with
    | prior hf hv =>
      rw [List.mem_singleton.1 hf] at hv
      simp [plain] at hv
    | forward _ _ _ ih => exact ih
    | backward _ _ _ ih => exact ih
  exact key _ hx

end PoseEx

end Jaxfg.Props
