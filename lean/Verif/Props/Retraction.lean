/-
Properties C67, C68: retractions of pose variables (jaxfg/geometry/_lie_variables.py), and further cases for C55 and C56.
-/
import Verif.Lemmas.LieRetract
import Verif.Props.DefaultJacobian
import Verif.Props.Geometry

namespace Jaxfg.Props
open Spec Filter Topology LieGroup
open Matrix hiding vec

/-! ### C67: retractions -/

/-- **C67, one variable.** Retracting a pose gives a pose (unit rotation part). The zero step does not move it. The difference
of two poses, as the residuals compute it, is a step from the first to the second (as motions: opposite quaternions are the
same rotation). A step that turns by less than half a turn is recovered from its result. -/
theorem C67_retraction (k : LieType) (x : List ℝ) (hx : k.Valid x) :
    (∀ d, ∃ y, k.Valid y ∧ k.ops.varClass.retract (k.ops.value x) d = k.ops.value y) ∧
    k.ops.varClass.retract (k.ops.value x) (List.replicate k.ops.tangentDim 0) = k.ops.value x ∧
    (∀ y, k.Valid y → (k.ops.rminus x y).length = k.ops.varClass.localDim ∧
      ∃ z, k.ops.varClass.retract (k.ops.value x) (k.ops.rminus x y) = k.ops.value z ∧ k.motion z = k.motion y) ∧
    (∀ d, d.length = k.ops.tangentDim → k.angle d < Real.pi →
      k.ops.rminus x (k.ops.varClass.retract (k.ops.value x) d).flatten = d) := by
  have L := lieLaws k
  have e (d : List ℝ) : k.ops.varClass.retract (k.ops.value x) d = k.ops.value (k.ops.rplus x d) := by
    show k.ops.value (k.ops.rplus (k.ops.value x).flatten d) = _
    rw [value_flatten]
  refine ⟨fun d => ⟨_, L.mul _ _ hx (L.exp d), e d⟩, ?_, fun y hy => ⟨L.log_len _, _, e _, ?_⟩, fun d hd h => ?_⟩
  · rw [e, LieGroup.rplus, L.exp_zero, L.mul_one _ hx]
  · have hv := L.mul _ _ (L.inv _ hx) hy
    unfold LieGroup.rplus LieGroup.rminus
    rw [motion_mul k hx (L.exp _), motion_exp_log k hv, ← motion_mul k hx hv, L.cancel' hx hy]
  · rw [e, value_flatten, LieGroup.rminus, LieGroup.rplus, L.cancel hx (L.exp d), log_exp k hd h]

/-- **C67, assignments.** If all values are poses, they are poses after any number of updates by arbitrary steps. -/
theorem C67_stays_valid {C : Ty → VarClass ℝ} {K : Ty → LieType} (hC : ∀ t, C t = (K t).ops.varClass) (vars : List Var)
    (a : Assign ℝ) (ha : IsAssignmentOf C vars a) (hl : a.layout.localFlag = false)
    (hpose : ∀ v ∈ vars, ∃ x, (K v.ty).Valid x ∧ a.getValue C v = .ok ((K v.ty).ops.value x))
    (δs : List (Assign ℝ)) (hδ : ∀ δ ∈ δs, IsAssignmentOf C vars δ ∧ δ.layout.localFlag = true) :
    ∃ b, δs.foldlM (fun a δ => a.manifoldRetract C δ) a = .ok b ∧ b.layout = a.layout ∧
      ∀ v ∈ vars, ∃ x, (K v.ty).Valid x ∧ b.getValue C v = .ok ((K v.ty).ops.value x) := by
  have hG := lie_goodClasses hC
  induction δs generalizing a with
  | nil => exact ⟨a, rfl, rfl, hpose⟩
  | cons δ δs ih =>
    have h := hδ δ (by simp)
    obtain ⟨b, h1, h2, h3, h4⟩ := C11_retract_per_variable C hG vars a δ ha hl h.1 h.2
    obtain ⟨c, h5, h6, h7⟩ := ih b h3 (by rw [h2]; exact hl) (fun v hv => by
      obtain ⟨x, hx, hget⟩ := hpose v hv
      obtain ⟨x', hget', -, hb⟩ := h4 v hv
      rw [hget] at hget'
      obtain rfl := Except.ok.inj hget'
      obtain ⟨y, hy, e⟩ := (C67_retraction (K v.ty) x hx).1 (block C δ v)
      refine ⟨y, hy, ?_⟩
      rw [hb, hC, e]) (fun δ' hδ' => hδ δ' (by simp [hδ']))
    refine ⟨c, ?_, h6.trans h2, h7⟩
    rw [List.foldlM_cons, h1]
    exact h5

/-- The bound on the angle is needed: a full turn is recovered as no turn. -/
theorem C67_full_turn : so2.rminus [1, 0] (so2.rplus [1, 0] [2 * Real.pi]) = [0] := by
  simp [LieGroup.rminus, LieGroup.rplus, so2, so2Mul, so2Inv, arctan2]
  have : (⟨1, 0⟩ : ℂ) = 1 := rfl
  rw [this, Complex.arg_one]

/-- A case: the pose at (1, 2) facing up, moved by one unit ahead and a quarter turn. -/
example : ∃ x d, LieType.se2.Valid x ∧ d.length = 3 ∧ LieType.se2.angle d < Real.pi ∧
    se2.rplus x d ≠ x ∧ se2.rminus x (se2.rplus x d) = d := by
  have hx : LieType.se2.Valid [0, 1, 1, 2] := ⟨0, 1, 1, 2, rfl, by norm_num⟩
  have ha : LieType.se2.angle [1, 0, Real.pi / 2] < Real.pi := by
    show |Real.pi / 2| < _
    rw [abs_of_pos (by positivity)]
    linarith [Real.pi_pos]
  have h := (C67_retraction .se2 [0, 1, 1, 2] hx).2.2.2 [1, 0, Real.pi / 2] rfl ha
  have e : (LieType.se2.ops.varClass.retract (LieType.se2.ops.value [0, 1, 1, 2]) [1, 0, Real.pi / 2]).flatten =
      se2.rplus [0, 1, 1, 2] [1, 0, Real.pi / 2] := by
    refine (value_flatten .se2 _).trans ?_
    rw [value_flatten]
    rfl
  rw [e] at h
  refine ⟨_, _, hx, rfl, ha, fun h' => ?_, h⟩
  have h0 := congrArg (fun l => l.getD 0 0) h'
  simp [LieGroup.rplus, se2, se2Mul, se2Exp] at h0

/-! ### C68: retraction Jacobians -/

/-- **C68.** What `manifold_retract_jacobian` returns for a pose is the derivative of the parameters of the retracted pose with
respect to the step, at step zero. -/
theorem C68_retract_jacobian (k : LieType) (x : List ℝ) (hx : k.Valid x) :
    RetractDerivatives k.ops.varClass (k.ops.value x) (k.ops.retractJacobian (k.ops.value x)) := by
  have h := lie_retractDerivatives k hx
  rw [LieGroup.retractJacobian, value_flatten]
  exact h

/-- **C68, with default Jacobians.** A factor over pose variables that does not define Jacobians gets correct ones from the
derivatives of its residual with respect to the parameters and from the retraction Jacobians of its variables. -/
theorem C68_default_jacobians {F : Nat → FactorClass} {C : Ty → VarClass ℝ} {K : Ty → LieType}
    (hC : ∀ t, C t = (K t).ops.varClass) {f : Factor} (hrd : 0 < rdim f) (pose : Var → List ℝ)
    (hpose : ∀ v ∈ f.vars, (K v.ty).Valid (pose v)) {resJac : List (List (Arr ℝ))}
    (hres : ResidualDerivatives ((F f.cls).residual f.self) C f.vars (f.vars.map (poseValue K pose)) (rdim f) resJac)
    (hdef : defaultJacobians (rdim f) (f.vars.map fun v => (C v.ty).localDim) resJac
      (f.vars.map fun v => (K v.ty).ops.retractJacobian (poseValue K pose v)) =
        .ok ((F f.cls).jacobians f.self (f.vars.map (poseValue K pose)))) :
    JacobiansCorrect F C f (f.vars.map (poseValue K pose)) := by
  refine C57_jacobiansCorrect (lie_goodClasses hC) hrd ?_ hres ?_ hdef
  · rw [List.forall₂_map_right_iff, List.forall₂_same]
    intro v hv
    have hx := hpose v hv
    rw [hC]
    refine ⟨(isValueOf_lie _).2 ⟨_, rfl, (lieLaws _).len _ hx⟩, by simp [poseValue, LieGroup.value], lie_tangent_pos _, ?_⟩
    exact (C67_retraction (K v.ty) _ hx).2.1
  · have hz : ∀ l : List Var, l.zip (l.map (poseValue K pose)) = l.map fun v => (v, poseValue K pose v) := fun l => by
      induction l with
      | nil => rfl
      | cons v l ih => simp [ih]
    rw [hz, List.forall₂_map_left_iff, List.forall₂_map_right_iff, List.forall₂_same]
    intro v hv
    rw [hC]
    exact C68_retract_jacobian (K v.ty) _ (hpose v hv)

/-! A case: the residual is the cosine of a plane rotation, taken at a quarter turn. Its Jacobian is -1. -/

/-- The class of the factor. -/
noncomputable def exCosine : FactorClass where
  hint := none
  residual := fun _ vals => [(vals.flatMap Value.flatten).getD 0 0]
  jacobians := fun _ _ => [⟨[1, 1], [-1]⟩]

theorem exCosine_correct : JacobiansCorrect (fun _ => exCosine) (fun _ => SO2Variable) ⟨0, [⟨0, 0⟩], .diagonal ⟨[1], [1]⟩, []⟩
    [so2.value [0, 1]] := by
  have hp : paramTotal (fun _ => SO2Variable) [⟨0, 0⟩] = 2 := by
    simp [paramTotal, SO2Variable, VarClass.paramDim, LieGroup.varClass, LieGroup.value, so2, Value.flatten]
  refine C68_default_jacobians (K := fun _ => .so2) (fun _ => rfl) (by simp [rdim, noiseDim]) (fun _ => [0, 1])
    (fun _ _ => ⟨0, 1, rfl, by norm_num⟩) (resJac := [[⟨[1, 2], [1, 0]⟩]]) ?_ ?_
  · refine ⟨?_, ?_⟩
    · refine List.Forall₂.cons (List.Forall₂.cons ⟨rfl, rfl⟩ .nil) .nil
    · change HasFDerivAt (fun x : Fin (paramTotal (fun _ => SO2Variable) [⟨0, 0⟩]) → ℝ => Spec.vec (exCosine.residual _
        (unpackValues (fun _ => SO2Variable) [⟨0, 0⟩] (List.ofFn x))) 1) (mulVecL (gradientMatrix 1 (paramTotal (fun _ => SO2Variable) [⟨0, 0⟩]) _))
        (Spec.vec _ (paramTotal (fun _ => SO2Variable) [⟨0, 0⟩]))
      rw [hp, hasFDerivAt_pi']
      intro r
      obtain rfl : r = 0 := Subsingleton.elim _ _
      refine ((hasFDerivAt_apply (𝕜 := ℝ) (F' := fun _ : Fin 2 => ℝ) 0 _).congr_fderiv ?_).congr_of_eventuallyEq
        (Eventually.of_forall fun x => ?_)
      · ext y
        simp [mulVecL, gradientMatrix, Matrix.mulVec, dotProduct, slice]
      · simp [Spec.vec, exCosine, unpackValues, SO2Variable, VarClass.paramDim, LieGroup.varClass, LieGroup.value, so2,
          Value.flatten, unravel, splitLeaves]
  · simp [defaultJacobians, exCosine, rdim, noiseDim, LieGroup.varClass, so2, LieGroup.retractJacobian, poseValue,
      LieType.ops, LieGroup.value, Value.flatten, residualBlock, retractBlock, einsumMatMat, reshapeRows, concatCols, reshapeCols, concatRows,
      Arr.numCols, slice, Arr.of2, Arr.at2, Finset.sum_range_succ]

/-! ### Cases for C55 and C56 -/

namespace PoseEx

/-- C55: the graph of the two between factors, at the poses that do not satisfy the measurements, and the same poses moved by a
rotation and translation of the plane and a rotation of space. Both assignments exist, the costs are equal. -/
theorem moved : ∃ gr a a' c w, Graph.make C [step, turn] = .ok gr ∧
    Holds C [step, turn] [x, y, r, s] (poseValue K (pose false)) a ∧
    Holds C [step, turn] [x, y, r, s] (poseValue K fun v => (K v.ty).ops.multiply (motionOf (K v.ty)) (pose false v)) a' ∧
    gr.computeCost F C a = .ok (c, w) ∧ gr.computeCost F C a' = .ok (c, w) ∧
    (K x.ty).ops.multiply (motionOf (K x.ty)) (pose false x) ≠ pose false x := by
  have hv : ∀ v ∈ [x, y, r, s], (K v.ty).Valid ((K v.ty).ops.multiply (motionOf (K v.ty)) (pose false v)) := fun v hv =>
    (lieLaws _).mul _ _ (motionOf_valid _) (pose_valid false v hv)
  have hs : ∀ v, v ∈ [x, y, r, s] ↔ ∃ f ∈ [step, turn], v ∈ f.vars := by
    intro v
    simp [step, turn]
    tauto
  obtain ⟨a, ha⟩ := holds_of [step, turn] hs (pose false) (pose_valid false)
  obtain ⟨a', ha'⟩ := holds_of [step, turn] hs _ hv
  obtain ⟨-, m2, m3⟩ := measures
  have hwf : ∀ f ∈ [step, turn], FactorWF F C f := by
    intro f hf
    simp only [List.mem_cons, List.not_mem_nil, or_false] at hf
    rcases hf with rfl | rfl
    · refine (C54_wellformed F C K _ _ m2 fun v hv => ?_).1
      rcases (by simpa [step] using hv : v = x ∨ v = y) with rfl | rfl <;> exact ⟨rfl, ⟨⟨⟨rfl, rfl⟩, rfl⟩, 1, rfl, one_pos⟩⟩
    · refine (C54_wellformed F C K _ _ m3 fun v hv => ?_).1
      rcases (by simpa [turn] using hv : v = r ∨ v = s) with rfl | rfl <;> exact ⟨rfl, ⟨⟨rfl, rfl⟩, rfl⟩⟩
  obtain ⟨gr, hgr, h⟩ := C55_cost_invariant F C K (lie_goodClasses fun _ => rfl) [step, turn] (by simp) hwf (by
    intro f hf
    simp only [List.mem_cons, List.not_mem_nil, or_false] at hf
    rcases hf with rfl | rfl
    · exact ⟨x, y, rfl, rfl, rfl⟩
    · exact ⟨r, s, rfl, rfl, rfl⟩) motionOf motionOf_valid
  obtain ⟨c, w, h1, h2⟩ := h _ _ _ a a' (pose_valid false) ha ha'
  refine ⟨gr, a, a', c, w, hgr, ha, ha', h1, h2, fun h => ?_⟩
  have h0 : se2Mul [0, 1, 3, 4] [1, 0, 1, 2] = [1, 0, 1, 2] := h
  simp [se2Mul] at h0

/-- C56: at the poses that satisfy the measurements, the Jacobians of the between factor of the planar poses are correct. -/
theorem jacobians_correct : JacobiansCorrect F C step (step.vars.map (poseValue K (pose true))) := by
  obtain ⟨-, m2, -⟩ := measures
  refine C56_jacobians_at_measurement_partial F C K step _ m2 (fun _ _ => rfl) (fun v hv => ?_) (pose true) (fun v hv => ?_) ?_
  · rcases (by simpa [step] using hv : v = x ∨ v = y) with rfl | rfl <;> rfl
  · exact pose_valid true v (by rcases (by simpa [step] using hv : v = x ∨ v = y) with rfl | rfl <;> simp)
  · have h := motion_mul .se2 (x := [1, 0, 1, 2]) (y := [0, 1, 1, 0]) ⟨1, 0, 1, 2, rfl, by norm_num⟩ ⟨0, 1, 1, 0, rfl, by norm_num⟩
    have e : LieType.se2.ops.multiply [1, 0, 1, 2] [0, 1, 1, 0] = [0, 1, 2, 2] := by
      simp [LieType.ops, se2, se2Mul]; norm_num
    rw [e] at h
    exact h

/-- C56 for plane rotations: a prior on the identity, at a quarter turn (where the measurement does not hold). -/
theorem so2_correct : JacobiansCorrect (fun _ => priorFactorClass so2) (fun _ => SO2Variable)
    (PriorFactor.make 0 ⟨0, 0⟩ (so2.value [1, 0]) (.diagonal ⟨[1], [2]⟩)) [so2.value [0, 1]] := by
  refine (C56_so2_partial (fun _ => priorFactorClass so2) (fun _ => SO2Variable) 0 (.diagonal ⟨[1], [2]⟩) rfl).1 ⟨0, 0⟩ [1, 0] [0, 1]
    rfl rfl ⟨1, 0, rfl, by norm_num⟩ ⟨0, 1, rfl, by norm_num⟩ fun h => ?_
  have h' : so2.log (so2.multiply (so2.inverse [0, 1]) [1, 0]) = [Real.pi] := h
  have e : so2.log (so2.multiply (so2.inverse [0, 1]) [1, 0]) = [arctan2 (-1) 0] := by simp [so2, so2Mul, so2Inv]
  rw [e] at h'
  have h2 : Complex.arg ⟨0, -1⟩ = Real.pi := (List.cons.inj h').1
  have h3 := Complex.arg_eq_pi_iff.1 h2
  simp at h3

/-- C56 for rotations of space: a prior on the identity, at a rotation by two thirds of half a turn. -/
example : LieType.so3.angle ((priorFactorClass so3).residual (PriorFactor.make 0 ⟨0, 0⟩ (so3.value [1, 0, 0, 0]) (.diagonal ⟨[3], [1, 1, 1]⟩)).self
    [so3.value [1 / 2, 1 / 2, 1 / 2, 1 / 2]]) < Real.pi := by
  have e : (priorFactorClass so3).residual (PriorFactor.make 0 ⟨0, 0⟩ (so3.value [1, 0, 0, 0]) (.diagonal ⟨[3], [1, 1, 1]⟩)).self
      [so3.value [1 / 2, 1 / 2, 1 / 2, 1 / 2]] = so3Log [1 / 2, -1 / 2, -1 / 2, -1 / 2] := by
    show so3Log (so3Mul (so3Inv (so3.value _).flatten) [1, 0, 0, 0]) = _
    have := value_flatten .so3 [1 / 2, 1 / 2, 1 / 2, 1 / 2]
    rw [show (so3.value [1 / 2, 1 / 2, 1 / 2, 1 / 2]).flatten = [1 / 2, 1 / 2, 1 / 2, 1 / 2] from this]
    congr 1
    simp [so3Mul, so3Inv]
    norm_num
  rw [e]
  set t : ℝ := 2 * Real.pi / 3 / √3 with ht
  have h3 : √3 ^ 2 = 3 := Real.sq_sqrt (by norm_num)
  have h3p : 0 < √(3:ℝ) := by positivity
  have hn : norm3 (-t) (-t) (-t) = 2 * Real.pi / 3 := by
    refine norm3_eq_of_sq (by positivity) ?_
    rw [ht]
    field_simp
    rw [h3]
    ring
  have hlt : 2 * Real.pi / 3 < Real.pi := by linarith [Real.pi_pos]
  have hexp : so3Exp [-t, -t, -t] = [1 / 2, -1 / 2, -1 / 2, -1 / 2] := by
    have hc : Real.cos (2 * Real.pi / 3 / 2) = 1 / 2 := by
      rw [show 2 * Real.pi / 3 / 2 = Real.pi / 3 by ring, Real.cos_pi_div_three]
    have hs : Real.sin (2 * Real.pi / 3 / 2) = √3 / 2 := by
      rw [show 2 * Real.pi / 3 / 2 = Real.pi / 3 by ring, Real.sin_pi_div_three]
    have hk : sinHalfOver (2 * Real.pi / 3) * -t = -1 / 2 := by
      rw [sinHalfOver, if_neg (by positivity), hs, ht]
      field_simp
    show [Real.cos (norm3 (-t) (-t) (-t) / 2), sinHalfOver (norm3 (-t) (-t) (-t)) * -t, sinHalfOver (norm3 (-t) (-t) (-t)) * -t,
      sinHalfOver (norm3 (-t) (-t) (-t)) * -t] = _
    rw [hn, hc, hk]
  rw [← hexp, so3_log_exp rfl (by show norm3 (-t) (-t) (-t) < _; rw [hn]; exact hlt)]
  have := norm3_sq (-t) (-t) (-t)
  show √((-t) ^ 2 + (-t) ^ 2 + (-t) ^ 2) < _
  rw [← this, hn, Real.sqrt_sq (by positivity)]
  exact hlt

end PoseEx

end Jaxfg.Props
