/- A concrete factor graph, used to show that the hypotheses of the graph theorems can be met. -/
import Verif.Lemmas.Graph
import Mathlib.Tactic.NormNum

namespace Jaxfg.Ex
open Spec

/-- Type `t` is `RealVectorVariable[t + 1]`. -/
noncomputable def C : Ty → VarClass ℝ := fun t => .realVector (t + 1)

/-- Identity matrix times `c`. -/
noncomputable def eye (c : ℝ) (n : Nat) : Arr ℝ := .of2 n n fun i j => if i = j then c else 0

/-- Class 0: prior `x - p`. Class 1: relative measurement `(y - x) - p`. -/
noncomputable def F : Nat → FactorClass
  | 0 => { hint := some (.tuple [fun t => t == 0])
           residual := fun s vs => (List.range (vs.getD 0 ⟨0, []⟩).flatten.length).map fun i =>
             (vs.getD 0 ⟨0, []⟩).flatten.getD i 0 - (s.params.getD 0 ⟨[], []⟩).data.getD i 0
           jacobians := fun _ vs => [eye 1 (vs.getD 0 ⟨0, []⟩).flatten.length] }
  | _ => { hint := some (.named [fun t => t == 0, fun t => t == 0])
           residual := fun s vs => (List.range (vs.getD 0 ⟨0, []⟩).flatten.length).map fun i =>
             (vs.getD 1 ⟨0, []⟩).flatten.getD i 0 - (vs.getD 0 ⟨0, []⟩).flatten.getD i 0 - (s.params.getD 0 ⟨[], []⟩).data.getD i 0
           jacobians := fun _ vs => [eye (-1) (vs.getD 0 ⟨0, []⟩).flatten.length, eye 1 (vs.getD 0 ⟨0, []⟩).flatten.length] }

theorem wellShaped (t : Ty) : WellShaped (C t).default := by
  simp [WellShaped, C, VarClass.realVector, VarClass.euclidean]

theorem paramDim (t : Ty) : (C t).paramDim = t + 1 := by
  simp [VarClass.paramDim, C, VarClass.realVector, VarClass.euclidean, Value.flatten]

theorem localDim (t : Ty) : (C t).localDim = t + 1 := by
  simp [C, VarClass.realVector, VarClass.euclidean, Value.flatten]

theorem good : GoodClasses C := by
  intro t
  refine ⟨wellShaped t, fun x d hx hd => ?_⟩
  have h1 := isValueOf_length (wellShaped t) hx
  apply isValueOf_unravel (c := C t) (wellShaped t)
  rw [List.length_zipWith, hd, h1, localDim, paramDim, min_self]

theorem value_length {t : Ty} {x : Value ℝ} (h : IsValueOf (C t) x) : x.flatten.length = t + 1 := by
  rw [isValueOf_length (wellShaped t) h, paramDim]

/-- A prior factor is well formed. -/
theorem prior_wf (v : Var) (N : Noise) (p : List ℝ) (hN : NoiseWF N (v.ty + 1) (v.ty + 1)) (hp : p.length = v.ty + 1) :
    FactorWF F C ⟨0, [v], N, [⟨[v.ty + 1], p⟩]⟩ := by
  have hd : rdim ⟨0, [v], N, [⟨[v.ty + 1], p⟩]⟩ = v.ty + 1 := noiseDim_eq hN
  refine ⟨by rw [hd]; omega, by simp, by rw [hd]; exact hN, by simp [hp], ?_, ?_, ?_⟩
  · exact .cons rfl .nil
  · intro vals hv
    cases hv with
    | cons h1 h2 =>
      cases h2
      rw [hd]
      simpa [F] using value_length h1
  · intro vals hv
    cases hv with
    | cons h1 h2 =>
      cases h2
      refine .cons ?_ .nil
      rw [hd, localDim]
      simp only [List.getD_cons_zero, value_length h1]
      exact isMat_of2 _ _ _

/-- A relative measurement is well formed. -/
theorem between_wf (u v : Var) (huv : v.ty = u.ty) (N : Noise) (p : List ℝ) (hN : NoiseWF N (u.ty + 1) (u.ty + 1))
    (hp : p.length = u.ty + 1) : FactorWF F C ⟨1, [u, v], N, [⟨[u.ty + 1], p⟩]⟩ := by
  have hd : rdim ⟨1, [u, v], N, [⟨[u.ty + 1], p⟩]⟩ = u.ty + 1 := noiseDim_eq hN
  refine ⟨by rw [hd]; omega, by simp, by rw [hd]; exact hN, by simp [hp], ?_, ?_, ?_⟩
  · exact .cons rfl (.cons rfl .nil)
  · intro vals hv
    cases hv with
    | cons h1 h2 =>
      rw [hd]
      simpa [F] using value_length h1
  · intro vals hv
    cases hv with
    | cons h1 h2 =>
      cases h2 with
      | cons h3 h4 =>
        cases h4
        refine .cons ?_ (.cons ?_ .nil)
        · rw [hd, localDim]
          simp only [List.getD_cons_zero, value_length h1]
          exact isMat_of2 _ _ _
        · rw [hd, localDim, huv]
          simp only [List.getD_cons_zero, value_length h1]
          exact isMat_of2 _ _ _

/-- Two scalars and a plane vector. -/
def x : Var := ⟨0, 1⟩
def y : Var := ⟨0, 2⟩
def z : Var := ⟨1, 3⟩

noncomputable def f1 : Factor := ⟨0, [x], .diagonal ⟨[1], [2]⟩, [⟨[1], [1]⟩]⟩
noncomputable def f2 : Factor := ⟨1, [x, y], .gaussian ⟨[1, 1], [3]⟩, [⟨[1], [5]⟩]⟩
noncomputable def f3 : Factor := ⟨0, [y], .diagonal ⟨[1], [1]⟩, [⟨[1], [4]⟩]⟩
noncomputable def f4 : Factor := ⟨0, [z], .gaussian ⟨[2, 2], [1, 1, 0, 2]⟩, [⟨[2], [0, 1]⟩]⟩
noncomputable def f5 : Factor := ⟨0, [z], .huber (.diagonal ⟨[2], [1, 2]⟩) ⟨[], [1]⟩, [⟨[2], [0, 1]⟩]⟩

/-- Four factors with Gaussian noise; the first and third are of one kind. -/
noncomputable def fs : List Factor := [f1, f2, f3, f4]

/-- The same with a Huber factor. -/
noncomputable def fsHuber : List Factor := [f1, f2, f3, f4, f5]

theorem f1_wf : FactorWF F C f1 := prior_wf x _ _ ⟨⟨rfl, rfl⟩, rfl⟩ rfl
theorem f2_wf : FactorWF F C f2 := between_wf x y rfl _ _ ⟨rfl, rfl⟩ rfl
theorem f3_wf : FactorWF F C f3 := prior_wf y _ _ ⟨⟨rfl, rfl⟩, rfl⟩ rfl
theorem f4_wf : FactorWF F C f4 := prior_wf z _ _ ⟨rfl, rfl⟩ rfl
theorem f5_wf : FactorWF F C f5 := prior_wf z _ _ ⟨⟨⟨rfl, rfl⟩, rfl⟩, 1, rfl, by norm_num⟩ rfl

theorem fsHuber_wf : ∀ f ∈ fsHuber, FactorWF F C f := by
  intro f hf
  simp only [fsHuber, List.mem_cons, List.not_mem_nil, or_false] at hf
  rcases hf with rfl | rfl | rfl | rfl | rfl
  exacts [f1_wf, f2_wf, f3_wf, f4_wf, f5_wf]

theorem fs_wf : ∀ f ∈ fs, FactorWF F C f := fun f hf => fsHuber_wf f (by
  simp only [fs, fsHuber, List.mem_cons, List.not_mem_nil, or_false] at *; tauto)

/-- Storage order of the example assignments: not the graph's order. -/
def vars : List Var := [z, y, x]

/-- The flat values. -/
noncomputable def flat (v : Var) : List ℝ := if v = x then [10] else if v = y then [20] else [30, 40]

noncomputable def val (v : Var) : Value ℝ := ⟨0, [⟨[v.ty + 1], flat v⟩]⟩

noncomputable def a : Assign ℝ := ⟨[30, 40, 20, 10], Layout.make C vars false⟩

theorem rep : Rep C vars false flat a where
  nodup := by decide
  layout := rfl
  len := by
    intro v hv
    simp only [vars, List.mem_cons, List.not_mem_nil, or_false] at hv
    simp only [dimOf, Bool.false_eq_true, if_false, paramDim]
    rcases hv with rfl | rfl | rfl <;> simp [flat, x, y, z]
  storage := by
    have : grouped vars = [z, y, x] := by decide
    rw [this]
    simp [a, flat, x, y, z]

theorem val_eq {v : Var} (hv : v ∈ vars) : unravel (C v.ty).default (flat v) = val v := by
  simp only [vars, List.mem_cons, List.not_mem_nil, or_false] at hv
  rcases hv with rfl | rfl | rfl <;>
    simp [unravel, C, VarClass.realVector, VarClass.euclidean, flat, val, splitLeaves, x, y, z]

theorem holds_of {gs : List Factor} (h : ∀ v, v ∈ vars ↔ ∃ f ∈ gs, v ∈ f.vars) : Holds C gs vars val a where
  assignment := rep.isAssignment
  isGlobal := rep.flag
  sameVars := h
  values v hv := by rw [rep.getValue_ok hv, val_eq hv]

theorem holds : Holds C fs vars val a := holds_of (by
  intro v
  simp only [vars, fs, f1, f2, f3, f4, List.mem_cons, List.not_mem_nil, or_false, exists_eq_or_imp, exists_eq_left]
  tauto)

theorem holdsHuber : Holds C fsHuber vars val a := holds_of (by
  intro v
  simp only [vars, fsHuber, f1, f2, f3, f4, f5, List.mem_cons, List.not_mem_nil, or_false, exists_eq_or_imp, exists_eq_left]
  tauto)

/-- Evaluation order: the two priors on scalars together. -/
theorem evalOrder_fs : evalOrder fs = [f1, f3, f2, f4] := by
  simp [evalOrder, groupedBy, fs, f1, f2, f3, f4, firstKeys, kind, Noise.treedef, Noise.leaves, x, y, z]

end Jaxfg.Ex
