/-
C40 is false for `FixedIterationGaussNewtonSolver`: it does not bring the initial assignments into the graph's storage order, and
`manifold_retract` pairs blocks with deltas by position.
-/
import Verif.Lemmas.ExamplePoly
import Verif.Lemmas.ExampleDeriv
import Verif.Props.Solver
import Verif.Props.CgSolve

namespace Jaxfg.Props
open Ext (fin)
open Spec

namespace TwoPriors
open Ex (x y C F)

/-- `x = 1` and `y = 2`, with unit noise. -/
noncomputable def fs : List Factor := [⟨0, [x], .diagonal ⟨[1], [1]⟩, [⟨[1], [1]⟩]⟩, ⟨0, [y], .diagonal ⟨[1], [1]⟩, [⟨[1], [2]⟩]⟩]

theorem fs_wf : ∀ f ∈ fs, FactorWF F C f := by
  intro f hf
  simp only [fs, List.mem_cons, List.not_mem_nil, or_false] at hf
  rcases hf with rfl | rfl
  · exact Ex.prior_wf x _ _ ⟨⟨rfl, rfl⟩, rfl⟩ rfl
  · exact Ex.prior_wf y _ _ ⟨⟨rfl, rfl⟩, rfl⟩ rfl

noncomputable def G : Graph where
  factorStacks := [⟨2, 0, [0], .diagonal, [⟨[2, 1], [1, 1]⟩, ⟨[2, 1], [1, 2]⟩], [[[0], [1]]], Layout.make C [x, y] false⟩]
  jacobianCoords := [(0, 0), (1, 1)]
  layout := Layout.make C [x, y] false
  localLayout := Layout.make C [x, y] true
  residualDim := 2

theorem make_eq : Graph.make C fs = .ok G := rfl

/-- `x = u`, `y = v` in the order of the graph. -/
noncomputable def inOrder (u v : ℝ) : Assign ℝ := ⟨[u, v], Layout.make C [x, y] false⟩

/-- `x = u`, `y = v` in the other order. -/
noncomputable def reversed (u v : ℝ) : Assign ℝ := ⟨[v, u], Layout.make C [y, x] false⟩

theorem cost_inOrder (u v : ℝ) : (G.ops F C).computeCost (inOrder u v) = .ok ((u - 1) ^ 2 + (v - 2) ^ 2, [u - 1, v - 2]) := by
  have : (G.ops F C).computeCost (inOrder u v) =
    .ok ((1 * (u - 1)) ^ 2 + ((1 * (v - 2)) ^ 2 + 0), [1 * (u - 1), 1 * (v - 2)]) := rfl
  rw [this]; simp

theorem cost_reversed (u v : ℝ) : (G.ops F C).computeCost (reversed u v) = .ok ((u - 1) ^ 2 + (v - 2) ^ 2, [u - 1, v - 2]) := by
  have : (G.ops F C).computeCost (reversed u v) =
    .ok ((1 * (u - 1)) ^ 2 + ((1 * (v - 2)) ^ 2 + 0), [1 * (u - 1), 1 * (v - 2)]) := rfl
  rw [this]; simp

noncomputable def J : Coo ℝ := ⟨[1, 1], [0, 1], [0, 1], (2, 2)⟩

theorem jac_inOrder (u v r t : ℝ) : (G.ops F C).jacobian (inOrder u v) [r, t] = .ok J := by
  have : (G.ops F C).jacobian (inOrder u v) [r, t] = .ok ⟨[1 * 1, 1 * 1], [0, 1], [0, 1], (2, 2)⟩ := by
    have e : (if (0 : Nat) = 0 then (1 : ℝ) else 0) = 1 := if_pos rfl
    refine Eq.trans (b := .ok ⟨[1 * (if (0 : Nat) = 0 then (1 : ℝ) else 0), 1 * (if (0 : Nat) = 0 then (1 : ℝ) else 0)], [0, 1], [0, 1], (2, 2)⟩)
      rfl ?_
    rw [e]
  rw [this, J]; simp

theorem jac_reversed (u v r t : ℝ) : (G.ops F C).jacobian (reversed u v) [r, t] = .ok J := by
  have : (G.ops F C).jacobian (reversed u v) [r, t] = .ok ⟨[1 * 1, 1 * 1], [0, 1], [0, 1], (2, 2)⟩ := by
    have e : (if (0 : Nat) = 0 then (1 : ℝ) else 0) = 1 := if_pos rfl
    refine Eq.trans (b := .ok ⟨[1 * (if (0 : Nat) = 0 then (1 : ℝ) else 0), 1 * (if (0 : Nat) = 0 then (1 : ℝ) else 0)], [0, 1], [0, 1], (2, 2)⟩)
      rfl ?_
    rw [e]
  rw [this, J]; simp

theorem matmul_T (r t : ℝ) : J.T.matmul [r, t] = .ok [r, t] := by
  have : J.T.matmul [r, t] = .ok [0 + 1 * r, 0 + 1 * t] := rfl
  rw [this]; simp

/-- Conjugate gradients find the step. -/
theorem cg_eq (b c : ℝ) : cgSolve J [b, c] 0 0 = .ok [b, c] := by
  have hm : cooMatrix J 2 2 = 1 := by
    ext i j
    fin_cases i <;> fin_cases j <;> simp [cooMatrix, entries, J]
  have hm' : ∀ v, (cooMatrix J 2 2).mulVec v = v := fun v => by rw [hm, Matrix.one_mulVec]
  obtain ⟨z, h1, h2, h3⟩ := C36_exact J ⟨rfl, rfl, by simp [J], by simp [J]⟩ (by simp [J]) [b, c] rfl 0 le_rfl (by
    intro v hv
    exact (hm' v).symm.trans hv)
  rw [zero_smul, add_zero] at h3
  have h3' : ((cooMatrix J 2 2).transpose * cooMatrix J 2 2).mulVec (Spec.vec z 2) = Spec.vec [b, c] 2 := h3
  rw [hm, Matrix.transpose_one, mul_one] at h3'
  have h4 := (Matrix.one_mulVec _).symm.trans h3'
  rw [h1]
  match z, h2 with
  | [p, q], _ =>
    have e1 : p = b := congrFun h4 0
    have e2 : q = c := congrFun h4 1
    rw [e1, e2]

/-- One iteration with conjugate gradients, with or without unrolling. -/
noncomputable def S (unroll : Bool) : FixedIteration Ext :=
  { verbose := false, linear := LinSolver.lift fun A b l _ => cgSolve A b l 0, unroll := unroll, iterations := 1 }

/-- One step to a state ends the solver there. -/
theorem solve_of_step {unroll : Bool} {fuel : Nat} {a : Assign Ext} {st st' : State Ext} {g : GraphOps Ext} {CE : Ty → VarClass Ext}
    (h0 : initState g a = .ok st) (hd : st.done = false) (h1 : (S unroll).step CE g st = .ok (st', [])) (hd' : st'.done = true) :
    (S unroll).solve CE g (fuel + 1) a = .ok (some (st'.assignments, [])) := by
  refine fixedSolve_some.2 ⟨st, st', [], h0, ?_, rfl, rfl⟩
  cases unroll
  · simp only [S, Bool.false_eq_true, if_false]
    unfold whileLoop
    rw [if_neg (by simp [hd])]
    have h1' := h1
    simp only [S] at h1'
    rw [h1']
    unfold whileLoop
    cases fuel <;> simp [hd']
  · have e : (S true).iterations.toNat = 1 := rfl
    have e' : (S true).unroll = true := rfl
    rw [e, e']
    simp [forLoop, h1, Except.map]

theorem solve_inOrder (unroll : Bool) (fuel : Nat) :
    (S unroll).solve (fun t => (C t).lift) (G.ops F C).lift (fuel + 1) ((inOrder 0 0).map fin) = .ok (some ((inOrder 1 2).map fin, [])) := by
  have h := lifts_lift C (G.ops F C)
  refine solve_of_step (st := State.map fin ⟨0, inOrder 0 0, (0 - 1) ^ 2 + (0 - 2) ^ 2, [0 - 1, 0 - 2], false⟩)
    (st' := State.map fin ⟨1, inOrder 1 2, (1 - 1) ^ 2 + (2 - 2) ^ 2, [1 - 1, 2 - 2], true⟩)
    ((initState_fin h).2 ⟨_, _, cost_inOrder 0 0, rfl⟩) rfl ?_ rfl
  refine (fixedStep_fin h (L := fun A b l _ => cgSolve A b l 0) (liftsSolver_lift fun A b l _ => cgSolve A b l 0)).2 ⟨J, _, _, _, _, _, jac_inOrder _ _ _ _,
    matmul_T _ _, cg_eq _ _, ?_, cost_inOrder 1 2, rfl, rfl⟩
  refine Eq.trans (b := .ok (inOrder (0 + -(0 - 1)) (0 + -(0 - 2)))) rfl ?_
  norm_num

theorem solve_reversed (unroll : Bool) (fuel : Nat) :
    (S unroll).solve (fun t => (C t).lift) (G.ops F C).lift (fuel + 1) ((reversed 0 0).map fin) = .ok (some ((reversed 2 1).map fin, [])) := by
  have h := lifts_lift C (G.ops F C)
  refine solve_of_step (st := State.map fin ⟨0, reversed 0 0, (0 - 1) ^ 2 + (0 - 2) ^ 2, [0 - 1, 0 - 2], false⟩)
    (st' := State.map fin ⟨1, reversed 2 1, (2 - 1) ^ 2 + (1 - 2) ^ 2, [2 - 1, 1 - 2], true⟩)
    ((initState_fin h).2 ⟨_, _, cost_reversed 0 0, rfl⟩) rfl ?_ rfl
  refine (fixedStep_fin h (L := fun A b l _ => cgSolve A b l 0) (liftsSolver_lift fun A b l _ => cgSolve A b l 0)).2 ⟨J, _, _, _, _, _, jac_reversed _ _ _ _,
    matmul_T _ _, cg_eq _ _, ?_, cost_reversed 2 1, rfl, rfl⟩
  refine Eq.trans (b := .ok (reversed (0 + -(0 - 2)) (0 + -(0 - 1)))) rfl ?_
  norm_num

end TwoPriors

open TwoPriors in
/-- **C40** fails for the fixed iteration solver, in both of its forms: on the graph with the factors `x = 1` and `y = 2`, started
at `x = y = 0`, one iteration finds `x = 1` and `y = 2` (the minimum) if `x` is stored first, as in the graph, and `x = 2`, `y = 1`
if `y` is stored first. -/
theorem C40_fixed_iteration_order (unroll : Bool) (fuel : Nat) :
    Graph.make Ex.C fs = .ok G ∧
    (∀ v ∈ [Ex.x, Ex.y], (inOrder 0 0).getValue Ex.C v = (reversed 0 0).getValue Ex.C v) ∧
    ¬ SameOutcome (fun t => (Ex.C t).lift)
      ((S unroll).solve (fun t => (Ex.C t).lift) (G.ops Ex.F Ex.C).lift (fuel + 1) ((inOrder 0 0).map fin))
      ((S unroll).solve (fun t => (Ex.C t).lift) (G.ops Ex.F Ex.C).lift (fuel + 1) ((reversed 0 0).map fin)) ∧
    (inOrder 1 2).getValue Ex.C Ex.x = .ok ⟨0, [⟨[1], [1]⟩]⟩ ∧ (inOrder 1 2).getValue Ex.C Ex.y = .ok ⟨0, [⟨[1], [2]⟩]⟩ ∧
    (reversed 2 1).getValue Ex.C Ex.x = .ok ⟨0, [⟨[1], [2]⟩]⟩ ∧ (reversed 2 1).getValue Ex.C Ex.y = .ok ⟨0, [⟨[1], [1]⟩]⟩ := by
  refine ⟨TwoPriors.make_eq, ?_, ?_, rfl, rfl, rfl, rfl⟩
  · intro v hv
    simp only [List.mem_cons, List.not_mem_nil, or_false] at hv
    rcases hv with rfl | rfl <;> rfl
  · rw [solve_inOrder, solve_reversed]
    rintro (⟨e, h, -⟩ | ⟨h, -⟩ | ⟨o₁, o₂, log, h1, h2, h3⟩)
    · cases h
    · cases h
    · cases h1
      cases h2
      have h := h3 Ex.x
      have h' : (Except.ok ⟨0, [⟨[1], [fin 1]⟩]⟩ : Py (Value Ext)) = .ok ⟨0, [⟨[1], [fin 2]⟩]⟩ := h
      simp at h'

end Jaxfg.Props
