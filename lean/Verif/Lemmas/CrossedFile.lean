/- A g2o file whose edges mention poses in another order than the file lists them: what the script does with it. -/
import Verif.Lemmas.SimpleScript
import Verif.Lemmas.PoseGraphMain
import Verif.Lemmas.SolverRuns
import Verif.Props.G2oAny

namespace Jaxfg.Crossed
open Spec
open Ext (fin)
open Props.G2oEx (reader readInt)

/-- Three poses, and two edges from pose 0: first to pose 2, then to pose 1. -/
def lines : List (List Char) :=
  ["VERTEX_SE2 0 0 0 0\n".toList, "VERTEX_SE2 1 2 0 0\n".toList, "VERTEX_SE2 2 0 0 0\n".toList,
    "EDGE_SE2 0 2 1 0 0 1 0 0 1 0 1\n".toList, "EDGE_SE2 0 1 1 0 0 1 0 0 1 0 1\n".toList]

def v0 : Var := ⟨2, 0⟩
def v1 : Var := ⟨2, 1⟩
def v2 : Var := ⟨2, 2⟩

noncomputable def at_ (x : ℝ) : List ℝ := [1, 0, x, 0]

noncomputable def eye : Arr ℝ := ⟨[3, 3], [1, 0, 0, 0, 1, 0, 0, 0, 1]⟩

noncomputable def e2 : Factor := ⟨0, [v0, v2], .gaussian eye, [⟨[4], at_ 1⟩]⟩
noncomputable def e1 : Factor := ⟨0, [v0, v1], .gaussian eye, [⟨[4], at_ 1⟩]⟩
noncomputable def prior : Factor := ⟨1, [v0], .diagonal ⟨[3], [1 * 100, 1 * 100, 1 * 100]⟩, [⟨[4], at_ 0⟩]⟩

noncomputable def data : G2oData :=
  ⟨[e2, e1, prior], ⟨[(v0, LieGroup.se2.value (at_ 0)), (v1, LieGroup.se2.value (at_ 2)), (v2, LieGroup.se2.value (at_ 0))]⟩⟩

theorem cholesky_one : cholesky (1 : Matrix (Fin 3) (Fin 3) ℝ) = 1 :=
  cholesky_eq ⟨fun i j h => Matrix.one_apply_ne h.ne, fun i => by simp, by simp⟩

theorem precision_eq : (precisionMatrix 3 [1, 0, 0, 1, 0, 1] >>= sqrtPrecision 3) = .ok eye := by
  have h1 : precisionMatrix 3 [1, 0, 0, 1, 0, 1] = .ok eye := by
    simp [precisionMatrix, setTriu, triuIndices, scatterSet, transposeArr, eye, Arr.of2, Arr.at2, List.range_succ]
  have h2 : eye.toMat 3 3 = 1 := by
    ext i j
    fin_cases i <;> fin_cases j <;> simp [eye, Arr.toMat, Arr.at2]
  rw [h1, py_bind_ok]
  unfold sqrtPrecision
  rw [h2, if_pos ⟨1, fun i j h => Matrix.one_apply_ne h.ne, fun i => by simp, by simp⟩, cholesky_one]
  simp [Arr.ofMat, eye, List.finRange_succ]

/-- The states of the loop. -/
noncomputable def s3 : G2oState :=
  ⟨3, [v0, v1, v2], ⟨[(v0, LieGroup.se2.value (at_ 0)), (v1, LieGroup.se2.value (at_ 2)), (v2, LieGroup.se2.value (at_ 0))]⟩, []⟩

theorem from_eq (x : ℝ) : se2FromXyTheta x ((0 : Int) : ℝ) ((0 : Int) : ℝ) = at_ x := by simp [se2FromXyTheta, at_]

theorem vertices_eq : (lines.take 3).foldlM (fun (s : G2oState) l => s.line reader 100000 (fields l)) (⟨0, [], .empty, []⟩ : G2oState) = .ok s3 := by
  have : (lines.take 3).foldlM (fun (s : G2oState) l => s.line reader 100000 (fields l)) (⟨0, [], .empty, []⟩ : G2oState) =
      .ok ⟨3, [v0, v1, v2], ⟨[(v0, LieGroup.se2.value (se2FromXyTheta ((0 : Int) : ℝ) ((0 : Int) : ℝ) ((0 : Int) : ℝ))),
        (v1, LieGroup.se2.value (se2FromXyTheta ((2 : Int) : ℝ) ((0 : Int) : ℝ) ((0 : Int) : ℝ))),
        (v2, LieGroup.se2.value (se2FromXyTheta ((0 : Int) : ℝ) ((0 : Int) : ℝ) ((0 : Int) : ℝ)))]⟩, []⟩ := rfl
  rw [this]
  simp only [from_eq]
  simp [s3]

theorem edge_eq (fs : List Factor) (l : List Char) (j : Int) (w : Var) (hw : pyGet s3.poseVariables j = .ok w)
    (hty : w.ty = 2)
    (h : ({ s3 with factors := fs } : G2oState).line reader 100000 (fields l) = ({ s3 with factors := fs } : G2oState).addEdge 0 j .se2
      (se2FromXyTheta ((1 : Int) : ℝ) ((0 : Int) : ℝ) ((0 : Int) : ℝ)) [((1 : Int) : ℝ), ((0 : Int) : ℝ), ((0 : Int) : ℝ), ((1 : Int) : ℝ), ((0 : Int) : ℝ), ((1 : Int) : ℝ)]) :
    ({ s3 with factors := fs } : G2oState).line reader 100000 (fields l) =
      .ok { s3 with factors := fs ++ [⟨0, [v0, w], .gaussian eye, [⟨[4], at_ 1⟩]⟩] } := by
  rw [h, from_eq]
  have hp := precision_eq
  have hd : LieGroup.se2.tangentDim = 3 := rfl
  obtain ⟨P, hP1, hP2⟩ := py_bind_eq_ok.1 hp
  unfold G2oState.addEdge
  simp only [hd, Int.cast_one, Int.cast_zero, hP1, py_bind_ok, hP2, hw]
  obtain ⟨ty, uid⟩ := w
  obtain rfl : ty = 2 := hty
  rfl

theorem edges_eq : (lines.drop 3).foldlM (fun (s : G2oState) l => s.line reader 100000 (fields l)) s3 =
    .ok { s3 with factors := [e2, e1] } := by
  have h1 := edge_eq [] "EDGE_SE2 0 2 1 0 0 1 0 0 1 0 1\n".toList 2 v2 rfl rfl rfl
  have h2 := edge_eq ([] ++ [e2]) "EDGE_SE2 0 1 1 0 0 1 0 0 1 0 1\n".toList 1 v1 rfl rfl rfl
  simp only [lines, List.drop_succ_cons, List.drop_zero, List.foldlM_cons, List.foldlM_nil]
  refine (congrArg (· >>= _) h1).trans ?_
  rw [py_bind_ok]
  exact (congrArg (· >>= _) h2).trans rfl

theorem parse_eq : parseG2o reader 100000 0 lines = .ok data := by
  unfold parseG2o
  have : lines = lines.take 3 ++ lines.drop 3 := rfl
  rw [this, List.foldlM_append, vertices_eq, py_bind_ok, edges_eq, py_bind_ok]
  rfl

/-! ### The graph -/

noncomputable def layG (loc : Bool) (d : Nat) : Layout := ⟨loc, d + d + d, ⟨[(v0, 0), (v2, d), (v1, d + d)]⟩, ⟨[(2, 0)]⟩, ⟨[(2, 3)]⟩⟩
noncomputable def layA : Layout := ⟨false, 12, ⟨[(v0, 0), (v1, 4), (v2, 8)]⟩, ⟨[(2, 0)]⟩, ⟨[(2, 3)]⟩⟩

noncomputable def G : Graph where
  factorStacks := [⟨2, 0, [2, 2], .gaussian, [⟨[2, 3, 3], eye.data ++ eye.data⟩, ⟨[2, 4], at_ 1 ++ at_ 1⟩],
      [[[0, 1, 2, 3], [0, 1, 2, 3]], [[4, 5, 6, 7], [8, 9, 10, 11]]], layG false 4⟩,
    ⟨1, 1, [2], .diagonal, [⟨[1, 3], [1 * 100, 1 * 100, 1 * 100]⟩, ⟨[1, 4], at_ 0⟩], [[[0, 1, 2, 3]]], layG false 4⟩]
  jacobianCoords := [(0, 0), (0, 1), (0, 2), (1, 0), (1, 1), (1, 2), (2, 0), (2, 1), (2, 2),
    (3, 0), (3, 1), (3, 2), (4, 0), (4, 1), (4, 2), (5, 0), (5, 1), (5, 2),
    (0, 3), (0, 4), (0, 5), (1, 3), (1, 4), (1, 5), (2, 3), (2, 4), (2, 5),
    (3, 6), (3, 7), (3, 8), (4, 6), (4, 7), (4, 8), (5, 6), (5, 7), (5, 8),
    (6, 0), (6, 1), (6, 2), (7, 0), (7, 1), (7, 2), (8, 0), (8, 1), (8, 2)]
  layout := layG false 4
  localLayout := layG true 3
  residualDim := 9

theorem make_eq : Graph.make g2oClasses [e2, e1, prior] = .ok G := rfl

noncomputable def poses (p q r : ℝ) : Assign ℝ := ⟨at_ p ++ at_ q ++ at_ r, layA⟩

theorem problem_eq : scriptProblem none data = .ok (G, poses 0 2 0) := rfl

theorem update_eq (p q r : ℝ) : (poses p q r).updateStorageLayout g2oClasses G.layout = .ok ⟨at_ p ++ at_ r ++ at_ q, layG false 4⟩ := rfl

/-! ### One step, at the poses 0, `1 + s` and `1 - s` on the axis -/

noncomputable def edgeRes (T0 T : List ℝ) : List ℝ :=
  LieGroup.se2Log (LieGroup.se2Mul (LieGroup.se2Inv (LieGroup.se2Mul (LieGroup.se2Inv T0) T)) (at_ 1))

theorem edgeRes_eq (x : ℝ) : edgeRes (at_ 0) (at_ x) = [1 - x, 0, 0] := by
  have : LieGroup.se2Mul (LieGroup.se2Inv (LieGroup.se2Mul (LieGroup.se2Inv (at_ 0)) (at_ x))) (at_ 1) = [1, 0, 1 - x, 0] := by
    simp [LieGroup.se2Mul, LieGroup.se2Inv, at_]; ring
  rw [edgeRes, this, Simple.log_axis]

theorem priorRes_eq : LieGroup.se2Log (LieGroup.se2Mul (LieGroup.se2Inv (at_ 0)) (at_ 0)) = [0, 0, 0] := by
  have : LieGroup.se2Mul (LieGroup.se2Inv (at_ 0)) (at_ 0) = [1, 0, 0, 0] := by
    simp [LieGroup.se2Mul, LieGroup.se2Inv, at_]
  rw [this, Simple.log_axis]

/-- Whitening with the identity. -/
noncomputable def white (r : List ℝ) : List ℝ :=
  match (Noise.gaussian eye).whiten r with
  | .ok r => r
  | .error _ => []

theorem white_eq (x : ℝ) : white [x, 0, 0] = [x, 0, 0] := by
  simp [white, Noise.whiten, einsumMatVec, eye, Arr.at2, List.range_succ, Finset.sum_range_succ]

noncomputable def res (p q r : ℝ) : List ℝ :=
  white (edgeRes (at_ p) (at_ r)) ++ white (edgeRes (at_ p) (at_ q)) ++
    List.zipWith (· * ·) [1 * 100, 1 * 100, 1 * 100] (LieGroup.se2Log (LieGroup.se2Mul (LieGroup.se2Inv (at_ p)) (at_ 0)))

theorem cost_eq (q r : ℝ) : (G.ops g2oFactors g2oClasses).computeCost (poses 0 q r) =
    .ok ((1 - r) ^ 2 + (1 - q) ^ 2, [1 - r, 0, 0, 1 - q, 0, 0, 0, 0, 0]) := by
  have e : (G.ops g2oFactors g2oClasses).computeCost = G.computeCost g2oFactors g2oClasses := rfl
  refine Eq.trans (b := .ok (((res 0 q r).map (· ^ 2)).sum, res 0 q r)) ?_ ?_
  · rw [e]
    unfold Graph.computeCost Graph.computeWhitenedResidualVector
    rw [update_eq]
    rfl
  · rw [res, edgeRes_eq, edgeRes_eq, priorRes_eq, white_eq, white_eq]
    simp

noncomputable def J (q r : ℝ) : Coo ℝ where
  values := [1, 0, 0, 0, 1, r, 0, 0, 1, 1, 0, 0, 0, 1, q, 0, 0, 1, -1, 0, 0, 0, -1, 0, 0, 0, -1, -1, 0, 0, 0, -1, 0, 0, 0, -1,
    -100, 0, 0, 0, -100, 0, 0, 0, -100]
  rows := [0, 0, 0, 1, 1, 1, 2, 2, 2, 3, 3, 3, 4, 4, 4, 5, 5, 5, 0, 0, 0, 1, 1, 1, 2, 2, 2, 3, 3, 3, 4, 4, 4, 5, 5, 5,
    6, 6, 6, 7, 7, 7, 8, 8, 8]
  cols := [0, 1, 2, 0, 1, 2, 0, 1, 2, 0, 1, 2, 0, 1, 2, 0, 1, 2, 3, 4, 5, 3, 4, 5, 3, 4, 5, 6, 7, 8, 6, 7, 8, 6, 7, 8,
    0, 1, 2, 0, 1, 2, 0, 1, 2]
  shape := (9, 9)

noncomputable def whiteMat (A : Arr ℝ) : List ℝ :=
  match (Noise.gaussian eye).whitenJacobian A [] with
  | .ok A => A.data
  | .error _ => []

theorem whiteMat_eq (a b c d e f g h i : ℝ) : whiteMat ⟨[3, 3], [a, b, c, d, e, f, g, h, i]⟩ = [a, b, c, d, e, f, g, h, i] := by
  simp [whiteMat, Noise.whitenJacobian, einsumMatMat, eye, Arr.at2, Arr.of2, List.range_succ, Finset.sum_range_succ]

theorem adjoint_eq (x : ℝ) : LieGroup.se2.adjoint (LieGroup.se2Inv (LieGroup.se2Mul (LieGroup.se2Inv (at_ 0)) (at_ x))) =
    ⟨[3, 3], [1, 0, 0, 0, 1, x, 0, 0, 1]⟩ := by
  simp [LieGroup.se2, LieGroup.se2Mul, LieGroup.se2Inv, at_]

theorem jac_eq (q r a b c d e f g h i : ℝ) :
    (G.ops g2oFactors g2oClasses).jacobian (poses 0 q r) [a, b, c, d, e, f, g, h, i] = .ok (J q r) := by
  have e : (G.ops g2oFactors g2oClasses).jacobian = G.computeWhitenedResidualJacobian g2oFactors g2oClasses := rfl
  have hF0 : (g2oFactors 0) = betweenFactorClass .se2 := rfl
  have hF1 : (g2oFactors 1) = priorFactorClass .se2 := rfl
  have hd : LieGroup.se2.tangentDim = 3 := rfl
  rw [e]
  unfold Graph.computeWhitenedResidualJacobian
  rw [update_eq]
  simp only [py_bind_ok, G, List.foldlM_cons, List.foldlM_nil, Graph.linearizeStack, FactorStack.computeResidualJacobian, FactorStack.arguments]
  simp only [hF0, hF1, betweenFactorClass, priorFactorClass, Simple.negEye_eq, hd]
  refine Eq.trans (b := .ok ⟨whiteMat (LieGroup.se2.adjoint (LieGroup.se2Inv (LieGroup.se2Mul (LieGroup.se2Inv (at_ 0)) (at_ r)))) ++
    whiteMat (LieGroup.se2.adjoint (LieGroup.se2Inv (LieGroup.se2Mul (LieGroup.se2Inv (at_ 0)) (at_ q)))) ++
    (whiteMat ⟨[3, 3], [-1, 0, 0, 0, -1, 0, 0, 0, -1]⟩ ++ whiteMat ⟨[3, 3], [-1, 0, 0, 0, -1, 0, 0, 0, -1]⟩) ++
    [-1, 0, 0, 0, -1, 0, 0, 0, -1].map ((1 * 100) * ·), (J q r).rows, (J q r).cols, (9, 9)⟩) rfl ?_
  rw [adjoint_eq, adjoint_eq, whiteMat_eq, whiteMat_eq, whiteMat_eq]
  simp [J]

theorem J_wf (q r : ℝ) : CooWF (J q r) := ⟨rfl, rfl, by simp [J], by simp [J]⟩

theorem matmul_T (q r x : ℝ) : (J q r).T.matmul [x, 0, 0, -x, 0, 0, 0, 0, 0] = .ok [0, 0, 0, -x, 0, 0, x, 0, 0] := by
  simp [Coo.matmul, Coo.T, J, scatterAdd, gather, pyAssert]

theorem matmul_axis (q r d : ℝ) : (J q r).matmul [0, 0, 0, d, 0, 0, -d, 0, 0] = .ok [-d, 0, 0, - -d, 0, 0, 0, 0, 0] := by
  simp [Coo.matmul, J, scatterAdd, gather, pyAssert]

theorem cholmod_eq (stale : Pattern → ScipyCoo ℝ → ℝ → List ℝ → Py (List ℝ)) (addr : Nat) (q r x d : ℝ) (h : (1 + 1 / 100000) * d = x) :
    (cholmodSolve stale .empty addr (J q r) [0, 0, 0, x, 0, 0, -x, 0, 0] 0).1 = .ok [0, 0, 0, d, 0, 0, -d, 0, 0] := by
  obtain ⟨-, x', hx, hlen, -, huniq, -⟩ := Props.C35_cholmod stale .empty addr (J q r) (J_wf q r) [0, 0, 0, x, 0, 0, -x, 0, 0] rfl 0 le_rfl
    (fun p h => by cases h)
  obtain ⟨y, hy, -, hy2⟩ := matmul_ok (J_wf q r) (x := [0, 0, 0, d, 0, 0, -d, 0, 0]) rfl
  rw [matmul_axis] at hy
  cases hy
  obtain ⟨z, hz, -, hz2⟩ := matmul_ok (Props.cooWF_T (J_wf q r)) (x := [-d, 0, 0, - -d, 0, 0, 0, 0, 0]) rfl
  rw [matmul_T] at hz
  cases hz
  have huniq' : ∀ y : Fin 9 → ℝ, ((cooMatrix (J q r) 9 9).transpose * cooMatrix (J q r) 9 9 +
      (0 + 1 / 100000 : ℝ) • (1 : Matrix (Fin 9) (Fin 9) ℝ)).mulVec y = vec [0, 0, 0, x, 0, 0, -x, 0, 0] 9 → y = vec x' 9 := huniq
  have key : vec [0, 0, 0, d, 0, 0, -d, 0, 0] 9 = vec x' 9 := by
    refine huniq' _ ?_
    have hy3 : vec [-d, 0, 0, - -d, 0, 0, 0, 0, 0] 9 = (cooMatrix (J q r) 9 9).mulVec (vec [0, 0, 0, d, 0, 0, -d, 0, 0] 9) := hy2
    have hz3 : vec [0, 0, 0, - -d, 0, 0, -d, 0, 0] 9 = (cooMatrix (J q r).T 9 9).mulVec (vec [-d, 0, 0, - -d, 0, 0, 0, 0, 0] 9) := hz2
    rw [Props.cooMatrix_T, hy3, Matrix.mulVec_mulVec] at hz3
    rw [Matrix.add_mulVec, ← hz3, Matrix.smul_mulVec, Matrix.one_mulVec]
    have hb : ∀ i : Fin 9, (vec [0, 0, 0, - -d, 0, 0, -d, 0, 0] 9 + (0 + 1 / 100000 : ℝ) • vec [0, 0, 0, d, 0, 0, -d, 0, 0] 9) i =
        vec [0, 0, 0, x, 0, 0, -x, 0, 0] 9 i := by
      intro i
      fin_cases i <;> simp [vec] <;> linarith
    exact funext hb
  rw [hx]
  match x', hlen with
  | [x0, x1, x2, x3, x4, x5, x6, x7, x8], _ =>
    have h0 : 0 = x0 := congrFun key 0
    have h1 : 0 = x1 := congrFun key 1
    have h2 : 0 = x2 := congrFun key 2
    have h3 : d = x3 := congrFun key 3
    have h4 : 0 = x4 := congrFun key 4
    have h5 : 0 = x5 := congrFun key 5
    have h6 : -d = x6 := congrFun key 6
    have h7 : 0 = x7 := congrFun key 7
    have h8 : 0 = x8 := congrFun key 8
    rw [h6, h3, ← h0, ← h1, ← h2, ← h4, ← h5, ← h7, ← h8]

/-- The step for pose 2 moves pose 1, and that for pose 1 moves pose 2. -/
theorem retract_eq (q r d e : ℝ) : (poses 0 q r).manifoldRetract g2oClasses ⟨[0, 0, 0, d, 0, 0, e, 0, 0], G.localLayout⟩ =
    .ok (poses 0 (q + d) (r + e)) := by
  have : (poses 0 q r).manifoldRetract g2oClasses ⟨[0, 0, 0, d, 0, 0, e, 0, 0], G.localLayout⟩ =
      .ok ⟨LieGroup.se2Mul (at_ 0) (LieGroup.se2Exp [0, 0, 0]) ++ LieGroup.se2Mul (at_ q) (LieGroup.se2Exp [d, 0, 0]) ++
        LieGroup.se2Mul (at_ r) (LieGroup.se2Exp [e, 0, 0]), layA⟩ := rfl
  rw [this, Simple.exp_axis, Simple.exp_axis, Simple.exp_axis, poses]
  simp [LieGroup.se2Mul, at_, add_comm]

/-- The state after `k` steps. -/
noncomputable def far (k : Nat) (s : ℝ) (d : Bool) : State ℝ := ⟨k, poses 0 (1 + s) (1 - s), 2 * s ^ 2, [s, 0, 0, -s, 0, 0, 0, 0, 0], d⟩

theorem cost_far (s : ℝ) : (G.ops g2oFactors g2oClasses).computeCost (poses 0 (1 + s) (1 - s)) = .ok (2 * s ^ 2, [s, 0, 0, -s, 0, 0, 0, 0, 0]) := by
  rw [cost_eq]
  congr 2
  · ring
  · rw [show 1 - (1 - s) = s by ring, show 1 - (1 + s) = -s by ring]

/-- The error is multiplied by almost two. -/
theorem far_step {CE : Ty → VarClass Ext} {gE : GraphOps Ext} (h : Lifts CE gE g2oClasses (G.ops g2oFactors g2oClasses))
    {stale : Pattern → ScipyCoo ℝ → ℝ → List ℝ → Py (List ℝ)} {addr : Nat} {sE : FixedIteration Ext}
    (hs : LiftsSolver sE.linear fun A b l _ => (cholmodSolve stale .empty addr A b l).1) (k : Nat) (s : ℝ) (d : Bool) :
    ∃ log, sE.step CE gE ((far k s d).map fin) = .ok ((far (k + 1) (200001 / 100001 * s) (decide (sE.iterations - 1 ≤ (k : Int)))).map fin, log) := by
  refine ⟨_, (fixedStep_fin h hs).2 ⟨J (1 + s) (1 - s), [0, 0, 0, -s, 0, 0, s, 0, 0],
    [0, 0, 0, 100000 / 100001 * s, 0, 0, -(100000 / 100001 * s), 0, 0], poses 0 (1 + 200001 / 100001 * s) (1 - 200001 / 100001 * s), _, _,
    jac_eq .., matmul_T .., ?_, ?_, cost_far _, rfl, rfl⟩⟩
  · have e : ([0, 0, 0, -s, 0, 0, s, 0, 0].map fun x : ℝ => -x) = [0, 0, 0, s, 0, 0, -s, 0, 0] := by simp
    rw [e]
    exact cholmod_eq stale addr _ _ _ _ (by ring)
  · refine (retract_eq ..).trans ?_
    congr 2 <;> ring

/-- Ten steps. -/
theorem far_solve {CE : Ty → VarClass Ext} {gE : GraphOps Ext} (h : Lifts CE gE g2oClasses (G.ops g2oFactors g2oClasses))
    {stale : Pattern → ScipyCoo ℝ → ℝ → List ℝ → Py (List ℝ)} {addr : Nat} {sE : FixedIteration Ext}
    (hs : LiftsSolver sE.linear fun A b l _ => (cholmodSolve stale .empty addr A b l).1) (hu : sE.unroll = false) (hi : sE.iterations = 10)
    (fuel : Nat) (hf : 10 ≤ fuel) : ∃ log, sE.solve CE gE fuel ((poses 0 2 0).map fin) =
      .ok (some ((poses 0 (1 + (200001 / 100001) ^ 10) (1 - (200001 / 100001) ^ 10)).map fin, log)) := by
  have key : ∀ m k f, k + m = 10 → m ≤ f → ∃ log, whileLoop (fun s => s.done) (sE.step CE gE) f
      ((far k ((200001 / 100001) ^ k) (decide (10 ≤ k))).map fin) = .ok (some ((far 10 ((200001 / 100001) ^ 10) true).map fin, log)) := by
    intro m
    induction m with
    | zero =>
      intro k f e _
      obtain rfl : k = 10 := by omega
      refine ⟨[], ?_⟩
      unfold whileLoop
      cases f <;> rfl
    | succ m ih =>
      intro k f e hf
      obtain ⟨f, rfl⟩ : ∃ f', f = f' + 1 := ⟨f - 1, by omega⟩
      have hk : ¬ 10 ≤ k := by omega
      obtain ⟨l1, e1⟩ := far_step h hs k ((200001 / 100001) ^ k) (decide (10 ≤ k))
      obtain ⟨l2, e2⟩ := ih (k + 1) f (by omega) (by omega)
      have e3 : decide (sE.iterations - 1 ≤ (k : Int)) = decide (10 ≤ k + 1) := by
        rw [hi]
        exact decide_eq_decide.2 (by omega)
      rw [e3, mul_comm, ← pow_succ] at e1
      refine ⟨l1 ++ l2, ?_⟩
      unfold whileLoop
      have hd : ((far k ((200001 / 100001) ^ k) (decide (10 ≤ k))).map fin).done = false := decide_eq_false hk
      rw [hd, if_neg (by simp), e1]
      simp only [py_bind_ok, e2]
      rfl
  obtain ⟨log, e⟩ := key 10 0 fuel rfl hf
  refine ⟨_, fixedSolve_some.2 ⟨_, (far 10 ((200001 / 100001) ^ 10) true).map fin, log, (initState_fin h).2 ⟨2, [1, 0, 0, -1, 0, 0, 0, 0, 0], ?_, rfl⟩, ?_, rfl, rfl⟩⟩
  · rw [cost_eq]
    norm_num
  · rw [hu, if_neg (by simp)]
    refine Eq.trans ?_ e
    congr 2
    simp only [far]
    norm_num

end Jaxfg.Crossed
