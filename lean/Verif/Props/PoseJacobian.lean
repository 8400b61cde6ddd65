/-
Property C56, continued: what the analytic Jacobians of pose factors mean away from the measurement
(jaxfg/geometry/_factors.py).
-/
import Verif.Lemmas.LieRetract
import Verif.Lemmas.DefaultJacobian
import Verif.Props.Geometry

namespace Jaxfg.Props
open Spec Filter Topology LieGroup
open Matrix hiding vec

/-- **C56, exactness in coordinates of the group** (partial). At all poses and for steps of any size, the motion that the
residual stands for changes by exactly the motions whose tangent vectors are Jacobian times step, applied on the left. So the
Jacobians are those of the residual taken as a group element, in the chart around its current value; they are not those of its
coordinates (`C56_false_for_se2`), for which the derivative of the logarithm would be needed. -/
theorem C56_left_tangent_partial (F : Nat → FactorClass) (C : Ty → VarClass ℝ) (k : LieType) (f : Factor)
    (P : (Var → List ℝ) → Prop) (hf : Measures F (fun _ => k) f P) (hC : ∀ v ∈ f.vars, C v.ty = k.ops.varClass)
    (pose : Var → List ℝ) (hpose : ∀ v ∈ f.vars, k.Valid (pose v)) (δs : List (List ℝ))
    (hδ : List.Forall₂ (fun _ d => d.length = k.ops.tangentDim) f.vars δs) :
    k.motion (k.ops.exp ((F f.cls).residual f.self (movedValues C f.vars (f.vars.map (poseValue (fun _ => k) pose)) δs 1))) =
      ((((F f.cls).jacobians f.self (f.vars.map (poseValue (fun _ => k) pose))).zip δs).map fun p =>
          k.motion (k.ops.exp (List.ofFn (arrMat p.1 k.ops.tangentDim k.ops.tangentDim *ᵥ vec p.2 k.ops.tangentDim)))).reverse.prod *
        k.motion (k.ops.exp ((F f.cls).residual f.self (f.vars.map (poseValue (fun _ => k) pose)))) := by
  have L := lieLaws k
  have hone : ∀ d : List ℝ, d.map ((1:ℝ) * ·) = d := by intro d; simp
  have hneg : ∀ d : List ℝ, d.length = k.ops.tangentDim →
      List.ofFn (arrMat (negEye k.ops.tangentDim) k.ops.tangentDim k.ops.tangentDim *ᵥ vec d k.ops.tangentDim) = scale (-1) d := by
    intro d hd
    rw [arrMat_negEye, neg_mulVec, one_mulVec, ← vec_scale_neg hd]
    have := ofFn_smul_vec (d := scale (-1) d) (by simpa [scale] using hd) 1
    rwa [one_smul, hone] at this
  cases hf with
  | prior cls v mu noise hF hmu =>
    have hv := hC v (by simp [PriorFactor.make])
    have hT := hpose v (by simp [PriorFactor.make])
    change List.Forall₂ _ [v] δs at hδ
    rw [List.forall₂_cons_left_iff] at hδ
    obtain ⟨d, l, hd, hnil, rfl⟩ := hδ
    rw [List.forall₂_nil_left_iff] at hnil
    subst hnil
    have e0 : (F cls).residual (PriorFactor.make cls v (k.ops.value mu) noise).self [k.ops.value (pose v)] =
        k.ops.rminus (pose v) mu := by
      rw [hF]
      show k.ops.rminus (k.ops.value (pose v)).flatten mu = _
      rw [value_flatten]
    have e1 : (F cls).residual (PriorFactor.make cls v (k.ops.value mu) noise).self
        [(C v.ty).retract (k.ops.value (pose v)) (d.map ((1:ℝ) * ·))] = k.ops.rminus (k.ops.rplus (pose v) (scale 1 d)) mu := by
      rw [hF, hv]
      show k.ops.rminus (k.ops.value (k.ops.rplus (k.ops.value (pose v)).flatten (scale 1 d))).flatten mu = _
      rw [value_flatten, value_flatten]
    have e2 : (F cls).jacobians (PriorFactor.make cls v (k.ops.value mu) noise).self [k.ops.value (pose v)] =
        [negEye k.ops.tangentDim] := by
      rw [hF]; rfl
    show k.motion (k.ops.exp ((F cls).residual (PriorFactor.make cls v (k.ops.value mu) noise).self
        [(C v.ty).retract (k.ops.value (pose v)) (d.map ((1:ℝ) * ·))])) =
      ((((F cls).jacobians (PriorFactor.make cls v (k.ops.value mu) noise).self [k.ops.value (pose v)]).zip [d]).map fun p =>
          k.motion (k.ops.exp (List.ofFn (arrMat p.1 k.ops.tangentDim k.ops.tangentDim *ᵥ vec p.2 k.ops.tangentDim)))).reverse.prod *
        k.motion (k.ops.exp ((F cls).residual (PriorFactor.make cls v (k.ops.value mu) noise).self [k.ops.value (pose v)]))
    rw [e0, e1, e2, L.prior_moved hT hmu hd 1]
    have hc := L.mul _ _ (L.inv _ hT) hmu
    rw [motion_exp_log k (L.mul _ _ (L.mul _ _ (L.exp _) (L.exp _)) hc), LieGroup.rminus, motion_exp_log k hc,
      motion_mul k (L.mul _ _ (L.exp _) (L.exp _)) hc]
    simp only [List.zip_cons_cons, List.zip_nil_right, List.map_cons, List.map_nil, List.reverse_singleton, List.prod_singleton]
    rw [hneg d hd]
    have h0 : scale 1 (List.replicate k.ops.tangentDim 0) = List.replicate k.ops.tangentDim 0 := by simp [scale]
    rw [h0, L.exp_zero, L.mul_one _ (L.exp _)]
    simp only [scale, hone]
  | between cls a b M noise f hF hM hf =>
    obtain ⟨hab, -, rfl⟩ := between_make_ok hf
    have hva := hC a (by simp)
    have hvb := hC b (by simp)
    have hTa := hpose a (by simp)
    have hTb := hpose b (by simp)
    change List.Forall₂ _ [a, b] δs at hδ
    rw [List.forall₂_cons_left_iff] at hδ
    obtain ⟨da, l, hda, hδ, rfl⟩ := hδ
    rw [List.forall₂_cons_left_iff] at hδ
    obtain ⟨db, l, hdb, hnil, rfl⟩ := hδ
    rw [List.forall₂_nil_left_iff] at hnil
    subst hnil
    set self := Factor.self ⟨cls, [a, b], noise, (k.ops.value M).leaves⟩ with hself
    set X := k.ops.multiply (k.ops.inverse (pose a)) (pose b) with hX
    have e0 : (F cls).residual self [k.ops.value (pose a), k.ops.value (pose b)] = k.ops.rminus X M := by
      rw [hF]
      show k.ops.rminus (k.ops.multiply (k.ops.inverse (k.ops.value (pose a)).flatten) (k.ops.value (pose b)).flatten) M = _
      rw [value_flatten, value_flatten]
    have e1 : (F cls).residual self
        [(C a.ty).retract (k.ops.value (pose a)) (da.map ((1:ℝ) * ·)), (C b.ty).retract (k.ops.value (pose b)) (db.map ((1:ℝ) * ·))] =
        k.ops.rminus (k.ops.multiply (k.ops.inverse (k.ops.rplus (pose a) (scale 1 da))) (k.ops.rplus (pose b) (scale 1 db))) M := by
      rw [hF, hva, hvb]
      show k.ops.rminus (k.ops.multiply (k.ops.inverse (k.ops.value (k.ops.rplus (k.ops.value (pose a)).flatten (scale 1 da))).flatten)
        (k.ops.value (k.ops.rplus (k.ops.value (pose b)).flatten (scale 1 db))).flatten) M = _
      rw [value_flatten, value_flatten, value_flatten, value_flatten]
    have e2 : (F cls).jacobians self [k.ops.value (pose a), k.ops.value (pose b)] =
        [k.ops.adjoint (k.ops.inverse X), negEye k.ops.tangentDim] := by
      rw [hF]
      show [k.ops.adjoint (k.ops.inverse (k.ops.multiply (k.ops.inverse (k.ops.value (pose a)).flatten) (k.ops.value (pose b)).flatten)), _] = _
      rw [value_flatten, value_flatten]
    show k.motion (k.ops.exp ((F cls).residual self
        [(C a.ty).retract (k.ops.value (pose a)) (da.map ((1:ℝ) * ·)), (C b.ty).retract (k.ops.value (pose b)) (db.map ((1:ℝ) * ·))])) =
      ((((F cls).jacobians self [k.ops.value (pose a), k.ops.value (pose b)]).zip [da, db]).map fun p =>
          k.motion (k.ops.exp (List.ofFn (arrMat p.1 k.ops.tangentDim k.ops.tangentDim *ᵥ vec p.2 k.ops.tangentDim)))).reverse.prod *
        k.motion (k.ops.exp ((F cls).residual self [k.ops.value (pose a), k.ops.value (pose b)]))
    rw [e0, e1, e2, L.between_moved hTa hTb hM hda hdb 1]
    have hXv : k.Valid X := L.mul _ _ (L.inv _ hTa) hTb
    have hc := L.mul _ _ (L.inv _ hXv) hM
    rw [motion_exp_log k (L.mul _ _ (L.mul _ _ (L.exp _) (L.exp _)) hc), LieGroup.rminus, motion_exp_log k hc,
      motion_mul k (L.mul _ _ (L.exp _) (L.exp _)) hc, motion_mul k (L.exp _) (L.exp _)]
    simp only [List.zip_cons_cons, List.zip_nil_right, List.map_cons, List.map_nil, List.reverse_cons, List.reverse_nil, List.nil_append,
      List.cons_append, List.prod_cons, List.prod_nil, mul_one]
    rw [hneg db hdb]
    simp only [scale, hone]
    rfl

/-- A case: the between factor of the planar poses of the example graph, at the poses that do not satisfy its measurement, and
steps of both poses. -/
example : ∃ P δs, Measures PoseEx.F (fun _ => .se2) PoseEx.step P ∧ (∀ v ∈ PoseEx.step.vars, PoseEx.C v.ty = LieType.se2.ops.varClass) ∧
    (∀ v ∈ PoseEx.step.vars, LieType.se2.Valid (PoseEx.pose false v)) ∧ ¬ P (PoseEx.pose false) ∧
    List.Forall₂ (fun _ d => d.length = LieType.se2.ops.tangentDim) PoseEx.step.vars δs ∧ δs = [[1, 0, 1], [0, 2, -1]] := by
  refine ⟨_, _, Measures.between 1 PoseEx.x PoseEx.y [0, 1, 1, 0] _ _ rfl ⟨0, 1, 1, 0, rfl, by norm_num⟩ rfl, ?_, ?_, ?_, ?_, rfl⟩
  · intro v hv
    rcases (by simpa [PoseEx.step] using hv : v = PoseEx.x ∨ v = PoseEx.y) with rfl | rfl <;> rfl
  · intro v hv
    rcases (by simpa [PoseEx.step] using hv : v = PoseEx.x ∨ v = PoseEx.y) with rfl | rfl
    · exact PoseEx.pose_valid false PoseEx.x (by simp)
    · exact PoseEx.pose_valid false PoseEx.y (by simp)
  · intro h
    have h' : (!![0, -1, 5; 1, 0, 2; 0, 0, 1] : Matrix (Fin 3) (Fin 3) ℝ) =
      !![1, -0, 1; 0, 1, 2; 0, 0, 1] * !![0, -1, 1; 1, 0, 0; 0, 0, 1] := h
    have := congrFun (congrFun h' 0) 2
    simp [Matrix.mul_apply, Fin.sum_univ_three] at this
    norm_num at this
  · exact .cons rfl (.cons rfl .nil)

end Jaxfg.Props
