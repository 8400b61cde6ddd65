/- A graph with one variable `(x, y)` and one factor with the residuals `x - 1` and `y²`, unit noise. At `y = 0` the Jacobian has a column
of zeros. On extended reals NaN propagates. -/
import Verif.Lemmas.ZeroColumn
import Verif.Lemmas.ExamplePoly
import Verif.Spec.ZeroColumn

namespace Jaxfg
open Ext (fin nan)

/-- `RealVectorVariable[t + 1]` on extended reals: the additions of the retraction propagate NaN. -/
noncomputable def Ex.CE : Ty → VarClass Ext := fun t => .realVector (t + 1)

theorem Ex.goodE : Spec.GoodClasses Ex.CE := by
  intro t
  have hw : Spec.WellShaped (Ex.CE t).default := by simp [Spec.WellShaped, CE, VarClass.realVector, VarClass.euclidean]
  have hp : (CE t).paramDim = t + 1 := by simp [VarClass.paramDim, CE, VarClass.realVector, VarClass.euclidean, Value.flatten]
  have hl : (CE t).localDim = t + 1 := by simp [CE, VarClass.realVector, VarClass.euclidean, Value.flatten]
  refine ⟨hw, fun x d hx hd => ?_⟩
  have h1 := isValueOf_length hw hx
  apply isValueOf_unravel (c := CE t) hw
  rw [List.length_zipWith, hd, h1, hl, hp, min_self]

namespace Flat
open Spec
open Ex (C CE)

/-- Residuals `x - 1`, `y²`. -/
noncomputable def F : Nat → FactorClass := fun _ =>
  { hint := some (.tuple [fun t => t == 0])
    residual := fun _ vs =>
      let v := (vs.getD 0 ⟨0, []⟩).flatten
      [v.getD 0 0 - 1, v.getD 1 0 ^ 2]
    jacobians := fun _ vs =>
      let v := (vs.getD 0 ⟨0, []⟩).flatten
      [⟨[2, 2], [1, 0, 0, 2 * v.getD 1 0]⟩] }

def v : Var := ⟨1, 0⟩

noncomputable def f : Factor := ⟨0, [v], .diagonal ⟨[2], [1, 1]⟩, []⟩

theorem f_wf : FactorWF F C f := by
  have hN : NoiseWF f.noise 2 2 := ⟨⟨rfl, rfl⟩, rfl⟩
  have hd : rdim f = 2 := noiseDim_eq hN
  refine ⟨by rw [hd]; omega, by simp [f], by rw [hd]; exact hN, by simp [f], ?_, ?_, ?_⟩
  · exact .cons rfl .nil
  · intro vals hv
    rw [hd]; rfl
  · intro vals hv
    rw [hd]
    refine .cons ?_ .nil
    exact ⟨rfl, rfl⟩

noncomputable def lay : Layout := Layout.make C [v] false
noncomputable def llay : Layout := Layout.make C [v] true

/-- The graph that `StackedFactorGraph.make` builds. -/
noncomputable def g : Graph where
  factorStacks := [⟨1, 0, [1], .diagonal, [⟨[1, 2], [1, 1]⟩], [[[0, 1]]], lay⟩]
  jacobianCoords := [(0, 0), (0, 1), (1, 0), (1, 1)]
  layout := lay
  localLayout := llay
  residualDim := 2

theorem make_eq : Graph.make C [f] = .ok g := rfl

theorem sane : SaneGraph C (g.ops F C) [v] := by
  obtain ⟨g', h1, h2⟩ := sane_graph Ex.good (fs := [f]) (by simpa using f_wf) (by simp)
  rw [make_eq] at h1
  cases Except.ok.inj h1
  exact h2

/-- The assignments `(x, y) = (p, q)`. -/
noncomputable def at_ (p q : ℝ) : Assign ℝ := ⟨[p, q], lay⟩

theorem at_assignment (p q : ℝ) : IsAssignmentOf C [v] (at_ p q) := ⟨by simp, rfl, rfl⟩

theorem cost_eq (p q : ℝ) : (g.ops F C).computeCost (at_ p q) = .ok ((p - 1) ^ 2 + (q ^ 2) ^ 2, [p - 1, q ^ 2]) := by
  have : (g.ops F C).computeCost (at_ p q) = .ok ((1 * (p - 1)) ^ 2 + ((1 * q ^ 2) ^ 2 + 0), [1 * (p - 1), 1 * q ^ 2]) := rfl
  rw [this]; simp

/-- The Jacobian, as the graph stores it. -/
noncomputable def J (q : ℝ) : Coo ℝ := ⟨[1, 0, 0, 2 * q], [0, 0, 1, 1], [0, 1, 0, 1], (2, 2)⟩

theorem jac_eq (p q r s : ℝ) : (g.ops F C).jacobian (at_ p q) [r, s] = .ok (J q) := by
  have : (g.ops F C).jacobian (at_ p q) [r, s] = .ok ⟨[1 * 1, 1 * 0, 1 * 0, 1 * (2 * q)], [0, 0, 1, 1], [0, 1, 0, 1], (2, 2)⟩ := rfl
  rw [this]; simp [J]

theorem J_wf (q : ℝ) : CooWF (J q) := ⟨rfl, rfl, by simp [J], by simp [J]⟩

open Classical in
/-- The graph on extended reals. -/
noncomputable def gE : GraphOps Ext where
  layout := lay
  localLayout := llay
  computeCost a := if nan ∈ a.storage then .ok (nan, [nan, nan]) else (g.ops F C).lift.computeCost a
  jacobian a r := if nan ∈ a.storage then .ok ⟨[fin 1, fin 0, fin 0, nan], [0, 0, 1, 1], [0, 1, 0, 1], (2, 2)⟩
    else (g.ops F C).lift.jacobian a r

theorem nan_not_mem (l : List ℝ) : nan ∉ l.map fin := by simp

open Classical in
theorem lifts : Lifts CE gE C (g.ops F C) where
  default t := by simp [CE, C, VarClass.realVector, VarClass.euclidean, Value.map, Arr.map]; rfl
  localDim t := by simp [CE, C, VarClass.realVector, VarClass.euclidean, Value.flatten]
  retract t x d := by
    show unravel _ (List.zipWith (· + ·) (x.map fin).flatten (d.map fin)) = _
    rw [flatten_value_map, fin_zipWith_add]
    rw [show (⟨0, [⟨[t + 1], List.replicate (t + 1) 0⟩]⟩ : Value Ext) = (⟨0, [⟨[t + 1], List.replicate (t + 1) 0⟩]⟩ : Value ℝ).map fin by
      simp [Value.map, Arr.map]; rfl, unravel_map]
    rfl
  layout := rfl
  localLayout := rfl
  cost a := by
    show (if nan ∈ a.storage.map fin then _ else _) = _
    rw [if_neg (nan_not_mem _)]
    exact (lifts_lift C (g.ops F C)).cost a
  jacobian a r := by
    show (if nan ∈ a.storage.map fin then _ else _) = _
    rw [if_neg (nan_not_mem _)]
    exact (lifts_lift C (g.ops F C)).jacobian a r

/-- The assignments of NaN. -/
noncomputable def atNan : Assign Ext := ⟨[nan, nan], lay⟩

theorem retract_nan (p q : ℝ) : ((at_ p q).map fin).manifoldRetract CE ⟨[nan, nan], llay⟩ = .ok atNan := rfl
theorem retract_zero : atNan.manifoldRetract CE ⟨[fin 0, fin 0], llay⟩ = .ok atNan := rfl

open Classical in
theorem zeroColumn (p : ℝ) (hp : p ≠ 1) : ZeroColumn CE gE (g.ops F C) (at_ p 0) ((p - 1) ^ 2) [p - 1, 0] (J 0) where
  cost := by simpa using cost_eq p 0
  jac := jac_eq p 0 _ _
  gradient := by
    refine ⟨[0 + 1 * (-(p - 1)) + 0 * -0, 0 + 0 * (-(p - 1)) + 2 * 0 * -0], rfl, 0 + 1 * (-(p - 1)) + 0 * -0, by simp, ?_⟩
    simpa [sub_eq_zero] using fun h => hp h.symm
  column := ⟨1, by simp [J], by simp [ZeroAt, entries, J]⟩
  nan_cost b' h := by
    have : ((at_ p 0).map fin).manifoldRetract CE ⟨List.replicate (J 0).shape.2 nan, gE.localLayout⟩ = .ok atNan := rfl
    rw [this] at h
    cases Except.ok.inj h
    show (if nan ∈ [nan, nan] then _ else _) = _
    rw [if_pos (by simp)]; rfl
  nan_jac := by
    show (if nan ∈ (at_ p 0).storage.map fin then _ else _) = _
    rw [if_neg (nan_not_mem _)]
    have := jac_eq p 0 0 0
    show ((g.ops F C).jacobian (((at_ p 0).map fin).map Ext.toReal) [0, 0]).map (Coo.map fin) = _
    have e : ((at_ p 0).map fin).map Ext.toReal = at_ p 0 := rfl
    rw [e, this]; rfl

open Classical in
theorem jac_nan {r : List Ext} : gE.jacobian atNan r = .ok ⟨[fin 1, fin 0, fin 0, nan], [0, 0, 1, 1], [0, 1, 0, 1], (2, 2)⟩ := by
  show (if nan ∈ [nan, nan] then _ else _) = _
  rw [if_pos (by simp)]

end Flat

end Jaxfg
