/- C57: the default Jacobians are derivatives of the residual along the retractions. -/
import Verif.Lemmas.DefaultJacobian
import Verif.Props.Assign
import Mathlib.Analysis.Calculus.FDeriv.Mul

namespace Jaxfg.Props
open Matrix Jaxfg Spec

variable {C : Ty → VarClass ℝ}

/-- **C57.** Given the exact partial derivatives of the residual with respect to the leaves of its arguments (one array for
every leaf) and of the retractions at zero, the default `compute_residual_jacobians` returns one `(residual_dim, local_dim)`
matrix for every variable, and these are the derivatives of the residual along the retractions: in every direction, given
position by position. Any number of variables, any pytree structures with at least one leaf, any retractions that leave the
value unchanged for a zero delta. -/
theorem C57_default_jacobians (hC : GoodClasses C) {rd : Nat} (hrd : 0 < rd) {residual : List (Value ℝ) → List ℝ}
    {vars : List Var} {vals : List (Value ℝ)} {resJac retJac : List (List (Arr ℝ))}
    (hvals : List.Forall₂ (fun v x => IsValueOf (C v.ty) x ∧ x.leaves ≠ [] ∧ 0 < (C v.ty).localDim ∧
      (C v.ty).retract x (List.replicate (C v.ty).localDim 0) = x) vars vals)
    (hres : ResidualDerivatives residual C vars vals rd resJac)
    (hret : List.Forall₂ (fun p E => RetractDerivatives (C p.1.ty) p.2 E) (vars.zip vals) retJac) :
    ∃ Js, defaultJacobians rd (vars.map fun v => (C v.ty).localDim) resJac retJac = .ok Js ∧
      List.Forall₂ (fun v J => IsMat J rd (C v.ty).localDim) vars Js ∧
      ∀ δs : List (List ℝ), List.Forall₂ (fun v d => d.length = (C v.ty).localDim) vars δs →
        HasDerivAt (fun t : ℝ => Spec.vec (residual (movedValues C vars vals δs t)) rd)
          (((vars.zip (Js.zip δs)).map fun p =>
            arrMat p.2.1 rd (C p.1.ty).localDim *ᵥ Spec.vec p.2.2 (C p.1.ty).localDim).sum) 0 := by
  obtain ⟨L, rfl, rfl, rfl, rfl, hL⟩ := exists_positions hvals hres.1 hret
  obtain ⟨Ms, Ns, Js, h1, h2, h3, h4, h5⟩ := positions_ok hC hrd hL
  refine ⟨Js, ?_, h4, fun δs hδ => ?_⟩
  · unfold defaultJacobians
    rw [h1, List.map_map]
    simp only [List.length_map, decide_true, pyAssert_true, py_bind_ok]
    have h2' : List.mapM (fun p => retractBlock p.1 p.2) ((L.map ((fun v => (C v.ty).localDim) ∘ fun x => x.v)).zip (L.map (·.E))) = .ok Ns := h2
    rw [h2', py_bind_ok, h3]
  · obtain ⟨g1, g2, g3, g4, g5⟩ := moved_ok hC hL hδ
    set P := paramTotal C (L.map (·.v)) with hP
    have hcurve : HasDerivAt (fun t => Spec.vec ((movedValues C (L.map (·.v)) (L.map (·.x)) δs t).flatMap Value.flatten) P)
        (Spec.vec (velocities C L δs) P) 0 := by
      rw [hasDerivAt_pi]
      exact fun k => g5 k k.2
    have hd := hres.2
    rw [← hP] at hd
    have h0 : Spec.vec ((L.map (·.x)).flatMap Value.flatten) P =
        (fun t => Spec.vec ((movedValues C (L.map (·.v)) (L.map (·.x)) δs t).flatMap Value.flatten) P) 0 := by
      show _ = Spec.vec ((movedValues C (L.map (·.v)) (L.map (·.x)) δs 0).flatMap Value.flatten) P
      rw [g3]
    rw [h0] at hd
    have hcomp := hd.comp_hasDerivAt (0 : ℝ) hcurve
    have hf : (fun t : ℝ => Spec.vec (residual (movedValues C (L.map (·.v)) (L.map (·.x)) δs t)) rd) =
        (fun x => Spec.vec (residual (unpackValues C (L.map (·.v)) (List.ofFn x))) rd) ∘
          fun t => Spec.vec ((movedValues C (L.map (·.v)) (L.map (·.x)) δs t).flatMap Value.flatten) P := by
      funext t
      show _ = Spec.vec (residual (unpackValues C (L.map (·.v)) (ofVec (Spec.vec _ P)))) rd
      rw [ofVec_vec (g1 t), g2]
    rw [hf]
    refine hcomp.congr_deriv ?_
    funext r
    rw [← (h5 r).2 δs hδ, dotL_eq (h5 r).1 g4]
    simp only [mulVecL, LinearMap.coe_toContinuousLinearMap', Matrix.mulVecLin_apply, Matrix.mulVec, dotProduct]
    refine Finset.sum_congr rfl fun k _ => ?_
    congr 1
    simp only [gradientMatrix, leafRow, List.flatMap_map]

/-- A factor class that uses the default satisfies the hypothesis of C21: its Jacobians are correct. -/
theorem C57_jacobiansCorrect (hC : GoodClasses C) {F : Nat → FactorClass} {f : Factor} (hrd : 0 < rdim f) {vals : List (Value ℝ)}
    {resJac retJac : List (List (Arr ℝ))}
    (hvals : List.Forall₂ (fun v x => IsValueOf (C v.ty) x ∧ x.leaves ≠ [] ∧ 0 < (C v.ty).localDim ∧
      (C v.ty).retract x (List.replicate (C v.ty).localDim 0) = x) f.vars vals)
    (hres : ResidualDerivatives ((F f.cls).residual f.self) C f.vars vals (rdim f) resJac)
    (hret : List.Forall₂ (fun p E => RetractDerivatives (C p.1.ty) p.2 E) (f.vars.zip vals) retJac)
    (hdef : defaultJacobians (rdim f) (f.vars.map fun v => (C v.ty).localDim) resJac retJac = .ok ((F f.cls).jacobians f.self vals)) :
    JacobiansCorrect F C f vals := by
  obtain ⟨Js, h1, -, h3⟩ := C57_default_jacobians hC hrd hvals hres hret
  rw [h1] at hdef
  injection hdef with hdef
  subst hdef
  exact h3

/-! A case: one variable with two leaves `a` (shape `(1,)`) and `b` (a scalar), residual `a₀ b`, linearized at `a₀ = 2`,
`b = 3`. -/

/-- The class of the example. -/
noncomputable def exTwoLeaves : Ty → VarClass ℝ := fun _ => .euclidean ⟨0, [⟨[1], [0]⟩, ⟨[], [0]⟩]⟩

theorem exTwoLeaves_good : GoodClasses exTwoLeaves := by
  intro t
  have h : WellShaped (exTwoLeaves t).default := by simp [WellShaped, exTwoLeaves, VarClass.euclidean]
  exact ⟨h, goodClass_euclidean h⟩

theorem exTwoLeaves_residual : ResidualDerivatives (fun vs => [(vs.flatMap Value.flatten).getD 0 0 * (vs.flatMap Value.flatten).getD 1 0])
    exTwoLeaves [⟨0, 0⟩] [⟨0, [⟨[1], [2]⟩, ⟨[], [3]⟩]⟩] 1 [[⟨[1, 1], [3]⟩, ⟨[1], [2]⟩]] := by
  refine ⟨by simp [Arr.size], ?_⟩
  have hp : paramTotal exTwoLeaves [⟨0, 0⟩] = 2 := by
    simp [paramTotal, exTwoLeaves, VarClass.paramDim, VarClass.euclidean, Value.flatten]
  rw [hp, hasFDerivAt_pi']
  intro r
  have hf : (fun x : Fin 2 → ℝ => Spec.vec ((fun vs : List (Value ℝ) =>
      [(vs.flatMap Value.flatten).getD 0 0 * (vs.flatMap Value.flatten).getD 1 0])
        (unpackValues exTwoLeaves [⟨0, 0⟩] (List.ofFn x))) 1 r) = fun x => x 0 * x 1 := by
    funext x
    have hr : r = 0 := Subsingleton.elim _ _
    subst hr
    simp [Spec.vec, unpackValues, exTwoLeaves, VarClass.paramDim, VarClass.euclidean, Value.flatten, unravel, splitLeaves]
  rw [hf]
  refine ((hasFDerivAt_apply (𝕜 := ℝ) (F' := fun _ : Fin 2 => ℝ) 0 _).mul
    (hasFDerivAt_apply (𝕜 := ℝ) (F' := fun _ : Fin 2 => ℝ) 1 _)).congr_fderiv ?_
  ext y
  have hr : r = 0 := Subsingleton.elim _ _
  subst hr
  simp [mulVecL, gradientMatrix, Matrix.mulVec, dotProduct, Spec.vec, slice, Value.flatten]
  ring

theorem exTwoLeaves_retract : RetractDerivatives (exTwoLeaves 0) ⟨0, [⟨[1], [2]⟩, ⟨[], [3]⟩]⟩ [⟨[1, 2], [1, 0]⟩, ⟨[2], [0, 1]⟩] := by
  have hl : (exTwoLeaves 0).localDim = 2 := by simp [exTwoLeaves, VarClass.euclidean, Value.flatten]
  have hp : (exTwoLeaves 0).paramDim = 2 := by simp [exTwoLeaves, VarClass.euclidean, Value.flatten, VarClass.paramDim]
  refine ⟨by rw [hl]; simp [Arr.size], ?_⟩
  rw [hp, hl, hasFDerivAt_pi']
  intro r
  have hf : (fun d : Fin 2 → ℝ => Spec.vec ((exTwoLeaves 0).retract ⟨0, [⟨[1], [2]⟩, ⟨[], [3]⟩]⟩ (List.ofFn d)).flatten 2 r) =
      fun d => ![2, 3] r + d r := by
    funext d
    fin_cases r <;> simp [Spec.vec, exTwoLeaves, VarClass.euclidean, Value.flatten, unravel, splitLeaves]
  rw [hf]
  refine ((hasFDerivAt_apply (𝕜 := ℝ) (F' := fun _ : Fin 2 => ℝ) r _).const_add _).congr_fderiv ?_
  ext y
  fin_cases r <;> simp [mulVecL, stackedMatrix, Matrix.mulVec, dotProduct]

example : ∃ Js, defaultJacobians 1 [2] [[⟨[1, 1], [3]⟩, ⟨[1], [2]⟩]] [[⟨[1, 2], [1, 0]⟩, ⟨[2], [0, 1]⟩]] = .ok Js := by
  have hv : IsValueOf (exTwoLeaves 0) (⟨0, [⟨[1], [2]⟩, ⟨[], [3]⟩]⟩ : Value ℝ) := by
    simp [IsValueOf, WellShaped, exTwoLeaves, VarClass.euclidean]
  have hl : (exTwoLeaves 0).localDim = 2 := by simp [exTwoLeaves, VarClass.euclidean, Value.flatten]
  have hz : (exTwoLeaves 0).retract (⟨0, [⟨[1], [2]⟩, ⟨[], [3]⟩]⟩ : Value ℝ) (List.replicate (exTwoLeaves 0).localDim 0)
      = ⟨0, [⟨[1], [2]⟩, ⟨[], [3]⟩]⟩ := by
    rw [hl]; simp [exTwoLeaves, VarClass.euclidean, Value.flatten, unravel, splitLeaves, List.replicate]
  obtain ⟨Js, h, -⟩ := C57_default_jacobians exTwoLeaves_good (by norm_num) (retJac := [[⟨[1, 2], [1, 0]⟩, ⟨[2], [0, 1]⟩]])
    (.cons ⟨hv, by simp, by rw [hl]; norm_num, hz⟩ .nil) exTwoLeaves_residual (.cons exTwoLeaves_retract .nil)
  refine ⟨Js, ?_⟩
  rw [← h, List.map_cons, List.map_nil, hl]

end Jaxfg.Props
