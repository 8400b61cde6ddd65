/-
Property C57: the default Jacobians of a factor as a total derivative (jaxfg/core/_factors.py).
-/
import Verif.Props.Frechet
import Verif.Props.DefaultJacobian

namespace Jaxfg.Props
open Spec
open Matrix hiding vec
variable {F : Nat → FactorClass} {C : Ty → VarClass ℝ}

/-- The lists of a family of deltas. -/
noncomputable def deltaLists (C : Ty → VarClass ℝ) (vars : List Var) (X : Deltas C vars) : List (List ℝ) :=
  List.ofFn fun i => List.ofFn (X i)

theorem deltaLists_ok (vars : List Var) (X : Deltas C vars) :
    List.Forall₂ (fun v d => d.length = (C v.ty).localDim) vars (deltaLists C vars X) := by
  refine List.forall₂_iff_get.2 ⟨by simp [deltaLists], fun i h1 h2 => ?_⟩
  simp [deltaLists]

theorem movedBy_smul {vars : List Var} {vals : List (Value ℝ)} (hl : vals.length = vars.length) (X : Deltas C vars) (t : ℝ) :
    movedBy C vars vals (t • X) = movedValues C vars vals (deltaLists C vars X) t := by
  unfold movedBy movedValues deltaLists
  apply List.ext_getElem (by simp [hl])
  intro i h4 h5
  have hi : i < vars.length := by simpa using h4
  have hiv : i < vals.length := hl ▸ hi
  simp only [List.getElem_ofFn, List.getElem_zipWith, List.getElem_zip, List.get_eq_getElem]
  rw [List.getD_eq_getElem _ _ hiv, List.map_ofFn]
  rfl

/-- If the residual of the retracted values is differentiable and all directional derivatives are those of the Jacobians, then the
Jacobians are the total derivative. -/
theorem jacobiansTotal_of_correct {f : Factor} {vals : List (Value ℝ)}
    (hl : vals.length = f.vars.length) (hJ : ((F f.cls).jacobians f.self vals).length = f.vars.length)
    (h : JacobiansCorrect F C f vals)
    (hd : DifferentiableAt ℝ (fun x : Deltas C f.vars => Spec.vec ((F f.cls).residual f.self (movedBy C f.vars vals x)) (rdim f)) 0) :
    JacobiansTotal F C f vals := by
  have hfd := hd.hasFDerivAt
  unfold JacobiansTotal
  convert hfd using 1
  refine ContinuousLinearMap.ext fun X => ?_
  have hδl := (deltaLists_ok f.vars X).length_eq.symm
  have hδi : ∀ i (hi : i < f.vars.length), (deltaLists C f.vars X)[i]'(hδl ▸ hi) = List.ofFn (X ⟨i, hi⟩) := by
    intro i hi
    simp [deltaLists]
  have h1 := h _ (deltaLists_ok f.vars X)
  have hline : HasDerivAt (fun t : ℝ => t • X) X 0 := by simpa using (hasDerivAt_id (0 : ℝ)).smul_const X
  have h0 : (fun t : ℝ => t • X) 0 = 0 := zero_smul ℝ X
  rw [← h0] at hfd
  have h2 := hfd.comp_hasDerivAt (0 : ℝ) hline
  rw [h0] at h2
  have h3 := h2.unique (h1.congr_of_eventuallyEq (Filter.Eventually.of_forall fun t => ?_))
  · rw [h3, _root_.sum_apply, ← List.sum_ofFn]
    congr 1
    apply List.ext_getElem (by simp [hJ, hδl])
    intro i h4 h5
    have hi : i < f.vars.length := by simpa using h4
    have hij : i < ((F f.cls).jacobians f.self vals).length := hJ ▸ hi
    rw [List.getElem_ofFn, List.getElem_map, List.getElem_zip, List.getElem_zip]
    simp only [hδi i hi]
    show arrMat _ _ _ *ᵥ X ⟨i, hi⟩ = _
    rw [List.getD_eq_getElem _ _ hij]
    have hX : Spec.vec (List.ofFn (X ⟨i, hi⟩)) (C (f.vars[i]).ty).localDim = X ⟨i, hi⟩ := by
      funext j
      have := j.2
      simp [Spec.vec]
    rw [hX]
    rfl
  · show Spec.vec ((F f.cls).residual f.self (movedBy C f.vars vals (t • X))) (rdim f) = _
    rw [movedBy_smul hl]

/-- A factor class that uses the default satisfies the hypothesis of the total versions of C21 and C22: its Jacobians are together the
total derivative of its residual. -/
theorem C57_total (hC : GoodClasses C) {f : Factor} (hrd : 0 < rdim f) {vals : List (Value ℝ)}
    {resJac retJac : List (List (Arr ℝ))}
    (hvals : List.Forall₂ (fun v x => IsValueOf (C v.ty) x ∧ x.leaves ≠ [] ∧ 0 < (C v.ty).localDim ∧
      (C v.ty).retract x (List.replicate (C v.ty).localDim 0) = x) f.vars vals)
    (hres : ResidualDerivatives ((F f.cls).residual f.self) C f.vars vals (rdim f) resJac)
    (hret : List.Forall₂ (fun p E => RetractDerivatives (C p.1.ty) p.2 E) (f.vars.zip vals) retJac)
    (hdef : defaultJacobians (rdim f) (f.vars.map fun v => (C v.ty).localDim) resJac retJac = .ok ((F f.cls).jacobians f.self vals)) :
    JacobiansTotal F C f vals := by
  have hcorr := C57_jacobiansCorrect hC hrd hvals hres hret hdef
  have hl : vals.length = f.vars.length := hvals.length_eq.symm
  have hJ : ((F f.cls).jacobians f.self vals).length = f.vars.length := by
    obtain ⟨Js, h1, h2, -⟩ := C57_default_jacobians hC hrd hvals hres hret
    rw [h1] at hdef
    rw [← Except.ok.inj hdef]
    exact h2.length_eq.symm
  refine jacobiansTotal_of_correct hl hJ hcorr ?_
  set P := paramTotal C f.vars with hP
  have hval : ∀ (i : Fin f.vars.length) (d : List ℝ), d.length = (C (f.vars.get i).ty).localDim →
      IsValueOf (C (f.vars.get i).ty) ((C (f.vars.get i).ty).retract (vals.getD i ⟨0, []⟩) d) := by
    intro i d hd
    have hi : i.1 < vals.length := by rw [hl]; exact i.2
    have := ((List.forall₂_iff_get.1 hvals).2 i.1 i.2 hi).1
    rw [List.getD_eq_getElem _ _ hi]
    exact (hC _).2 _ _ this hd
  have hlen : ∀ (i : Fin f.vars.length) (d : List ℝ), d.length = (C (f.vars.get i).ty).localDim →
      ((C (f.vars.get i).ty).retract (vals.getD i ⟨0, []⟩) d).flatten.length = (C (f.vars.get i).ty).paramDim :=
    fun i d hd => isValueOf_length (hC _).1 (hval i d hd)
  have hmoved : ∀ x : Deltas C f.vars,
      (∀ t, ((movedValues C f.vars vals (deltaLists C f.vars x) t).flatMap Value.flatten).length = P) ∧
      (∀ t, unpackValues C f.vars ((movedValues C f.vars vals (deltaLists C f.vars x) t).flatMap Value.flatten) =
        movedValues C f.vars vals (deltaLists C f.vars x) t) ∧ movedValues C f.vars vals (deltaLists C f.vars x) 0 = vals := by
    intro x
    obtain ⟨L, e1, e2, -, -, hL⟩ := exists_positions hvals hres.1 hret
    have hδ := deltaLists_ok (C := C) f.vars x
    generalize deltaLists C f.vars x = δs at hδ
    rw [hP, e1, e2]
    rw [e1] at hδ
    obtain ⟨g1, g2, g3, -⟩ := moved_ok hC hL hδ
    exact ⟨g1, g2, g3⟩
  have hun : ∀ x : Deltas C f.vars, ((movedBy C f.vars vals x).flatMap Value.flatten).length = P ∧
      unpackValues C f.vars ((movedBy C f.vars vals x).flatMap Value.flatten) = movedBy C f.vars vals x := by
    intro x
    have hx := movedBy_smul hl x 1
    rw [one_smul] at hx
    rw [hx]
    exact ⟨(hmoved x).1 1, (hmoved x).2.1 1⟩
  have hflat : DifferentiableAt ℝ (fun x : Deltas C f.vars => Spec.vec ((movedBy C f.vars vals x).flatMap Value.flatten) P) 0 := by
    rw [differentiableAt_pi]
    intro k
    have hT : P = total (fun i : Fin f.vars.length => (C (f.vars.get i).ty).paramDim) (List.finRange f.vars.length) := by
      rw [hP]
      unfold paramTotal total
      congr 1
      apply List.ext_getElem <;> simp
    obtain ⟨pre, i, post, r, he, hr, hk⟩ := exists_split_total (List.finRange f.vars.length)
      (fun i => (C (f.vars.get i).ty).paramDim) k (by rw [← hT]; exact k.2)
    have hi : i.1 < vals.length := by rw [hl]; exact i.2
    have hentry : ∀ x : Deltas C f.vars, Spec.vec ((movedBy C f.vars vals x).flatMap Value.flatten) P k =
        Spec.vec ((C (f.vars.get i).ty).retract (vals.getD i ⟨0, []⟩) (List.ofFn (x i))).flatten (C (f.vars.get i).ty).paramDim ⟨r, hr⟩ := by
      intro x
      have e : (movedBy C f.vars vals x).flatMap Value.flatten = (List.finRange f.vars.length).flatMap fun i =>
          ((C (f.vars.get i).ty).retract (vals.getD i ⟨0, []⟩) (List.ofFn (x i))).flatten := by
        unfold movedBy
        rw [List.ofFn_eq_map, List.flatMap_map]
      have hpre := length_flatMap_blocks (vs := pre) (dim := fun i : Fin f.vars.length => (C (f.vars.get i).ty).paramDim)
        (f := fun i => ((C (f.vars.get i).ty).retract (vals.getD i ⟨0, []⟩) (List.ofFn (x i))).flatten)
        fun i _ => hlen i _ (List.length_ofFn)
      unfold Spec.vec
      rw [e, he, List.flatMap_append, List.flatMap_cons, hk,
        List.getD_append_right _ _ _ _ (by rw [hpre]; omega), hpre, Nat.add_sub_cancel_left,
        List.getD_append _ _ _ _ (by rw [hlen i _ List.length_ofFn]; exact hr)]
    simp only [hentry]
    have hE : ∃ E, RetractDerivatives (C (f.vars.get i).ty) (vals.getD i ⟨0, []⟩) E := by
      have hz : i.1 < (f.vars.zip vals).length := by simp [hl]
      have := (List.forall₂_iff_get.1 hret).2 i.1 hz (by rw [← hret.length_eq]; exact hz)
      rw [List.getD_eq_getElem _ _ hi]
      simp only [List.get_eq_getElem, List.getElem_zip] at this
      exact ⟨_, this⟩
    obtain ⟨E, hE⟩ := hE
    have h1 := hE.2.differentiableAt
    have h2 : DifferentiableAt ℝ (fun x : Deltas C f.vars => x i) 0 :=
      (ContinuousLinearMap.proj (R := ℝ) (φ := fun i : Fin f.vars.length => Fin (C (f.vars.get i).ty).localDim → ℝ) i).differentiableAt
    exact differentiableAt_pi.1 (h1.comp (0 : Deltas C f.vars) h2) ⟨r, hr⟩
  have h0 : Spec.vec (vals.flatMap Value.flatten) P =
      (fun x : Deltas C f.vars => Spec.vec ((movedBy C f.vars vals x).flatMap Value.flatten) P) 0 := by
    have hx := movedBy_smul hl (0 : Deltas C f.vars) 0
    rw [zero_smul, (hmoved 0).2.2] at hx
    show _ = Spec.vec ((movedBy C f.vars vals 0).flatMap Value.flatten) P
    rw [hx]
  have hR := hres.2.differentiableAt
  rw [← hP, h0] at hR
  have := hR.comp (0 : Deltas C f.vars) hflat
  refine this.congr_of_eventuallyEq (Filter.Eventually.of_forall fun x => ?_)
  show _ = Spec.vec ((F f.cls).residual f.self (unpackValues C f.vars (ofVec (Spec.vec _ P)))) (rdim f)
  rw [ofVec_vec (hun x).1, (hun x).2]

/-- Non-vacuity: the factor `a₀ b` of the example for C57, with the Jacobians that the default returns at `a₀ = 2`, `b = 3`. -/
example : ∃ F : Nat → FactorClass,
    (∀ self vs, (F 0).residual self vs = [(vs.flatMap Value.flatten).getD 0 0 * (vs.flatMap Value.flatten).getD 1 0]) ∧
    JacobiansTotal F exTwoLeaves ⟨0, [⟨0, 0⟩], .diagonal ⟨[1], [1]⟩, []⟩ [⟨0, [⟨[1], [2]⟩, ⟨[], [3]⟩]⟩] := by
  have hv : IsValueOf (exTwoLeaves 0) (⟨0, [⟨[1], [2]⟩, ⟨[], [3]⟩]⟩ : Value ℝ) := by
    simp [IsValueOf, WellShaped, exTwoLeaves, VarClass.euclidean]
  have hl : (exTwoLeaves 0).localDim = 2 := by simp [exTwoLeaves, VarClass.euclidean, Value.flatten]
  have hz : (exTwoLeaves 0).retract (⟨0, [⟨[1], [2]⟩, ⟨[], [3]⟩]⟩ : Value ℝ) (List.replicate (exTwoLeaves 0).localDim 0)
      = ⟨0, [⟨[1], [2]⟩, ⟨[], [3]⟩]⟩ := by
    rw [hl]; simp [exTwoLeaves, VarClass.euclidean, Value.flatten, unravel, splitLeaves, List.replicate]
  have hvals : List.Forall₂ (fun (v : Var) x => IsValueOf (exTwoLeaves v.ty) x ∧ x.leaves ≠ [] ∧ 0 < (exTwoLeaves v.ty).localDim ∧
      (exTwoLeaves v.ty).retract x (List.replicate (exTwoLeaves v.ty).localDim 0) = x) [⟨0, 0⟩] [⟨0, [⟨[1], [2]⟩, ⟨[], [3]⟩]⟩] :=
    .cons ⟨hv, by simp, by rw [hl]; norm_num, hz⟩ .nil
  obtain ⟨Js, h, -⟩ := C57_default_jacobians exTwoLeaves_good (by norm_num) (retJac := [[⟨[1, 2], [1, 0]⟩, ⟨[2], [0, 1]⟩]])
    hvals exTwoLeaves_residual (.cons exTwoLeaves_retract .nil)
  refine ⟨fun _ => { hint := none, residual := fun _ vs => [(vs.flatMap Value.flatten).getD 0 0 * (vs.flatMap Value.flatten).getD 1 0]
                     jacobians := fun _ _ => Js }, fun _ _ => rfl, ?_⟩
  have hd : rdim ⟨0, [⟨0, 0⟩], .diagonal ⟨[1], [1]⟩, []⟩ = 1 := noiseDim_eq (⟨⟨rfl, rfl⟩, rfl⟩ : NoiseWF (.diagonal ⟨[1], [1]⟩) 1 1)
  refine C57_total exTwoLeaves_good (resJac := [[⟨[1, 1], [3]⟩, ⟨[1], [2]⟩]]) (by rw [hd]; norm_num) hvals ?_ (.cons exTwoLeaves_retract .nil) ?_
  · rw [hd]
    exact exTwoLeaves_residual
  · rw [hd]
    exact h

end Jaxfg.Props
