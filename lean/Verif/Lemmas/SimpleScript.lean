/- What scripts/pose_graph_simple.py computes, step by step. -/
import Verif.Model.SimpleScript
import Verif.Lemmas.Graph
import Verif.Lemmas.SolverSolve
import Verif.Lemmas.SolverReal
import Verif.Props.LinSolve
import Verif.Lemmas.PoseGraphScript
import Mathlib.Analysis.SpecialFunctions.Trigonometric.Bounds
namespace Jaxfg.Simple
open Spec
open Ext (fin)

/-- The two poses. -/
def v0 (n : Nat) : Var := ⟨2, n⟩
def v1 (n : Nat) : Var := ⟨2, n + 1⟩

theorem ne (n : Nat) : ((v1 n == v0 n) = false) := by simp [v0, v1]
theorem ne' (n : Nat) : ((v0 n == v1 n) = false) := by simp [v0, v1]

noncomputable def f0 (n : Nat) : Factor := ⟨1, [v0 n], .diagonal ⟨[3], [1, 1, 1]⟩, [⟨[4], se2FromXyTheta 0 0 0⟩]⟩
noncomputable def f1 (n : Nat) : Factor := ⟨1, [v1 n], .diagonal ⟨[3], [1, 1, 1]⟩, [⟨[4], se2FromXyTheta 2 0 0⟩]⟩
noncomputable def f2 (n : Nat) : Factor := ⟨0, [v0 n, v1 n], .diagonal ⟨[3], [1, 1, 1]⟩, [⟨[4], se2FromXyTheta 1 0 0⟩]⟩

theorem factors_eq (n : Nat) : simpleFactors (v0 n) (v1 n) = .ok [f0 n, f1 n, f2 n] := rfl

section
variable {K V : Type} [DecidableEq K]
theorem set_nil (k : K) (v : V) : (PyDict.empty : PyDict K V).set k v = ⟨[(k, v)]⟩ := rfl
theorem set_one {k k' : K} (h : k' ≠ k) (v v' : V) : (⟨[(k, v)]⟩ : PyDict K V).set k' v' = ⟨[(k, v), (k', v')]⟩ := by
  simp [PyDict.set, PyDict.contains, PyDict.get?, h]
theorem set_fst (k k' : K) (h : k' ≠ k) (v v' w : V) : (⟨[(k, v), (k', v')]⟩ : PyDict K V).set k w = ⟨[(k, w), (k', v')]⟩ := by
  simp [PyDict.set, PyDict.contains, PyDict.get?, h]
theorem set_snd (k k' : K) (h : k' ≠ k) (v v' w : V) : (⟨[(k, v), (k', v')]⟩ : PyDict K V).set k' w = ⟨[(k, v), (k', w)]⟩ := by
  simp [PyDict.set, PyDict.contains, PyDict.get?, h.symm]
theorem get_fst (k k' : K) (v v' : V) : (⟨[(k, v), (k', v')]⟩ : PyDict K V).get k = .ok v := by
  simp [PyDict.get, PyDict.get?]
theorem get_snd (k k' : K) (h : k' ≠ k) (v v' : V) : (⟨[(k, v), (k', v')]⟩ : PyDict K V).get k' = .ok v' := by
  have h' : (k' == k) = false := by simpa using h
  simp [PyDict.get, PyDict.get?, List.lookup_cons, h']
end

theorem v_ne (n : Nat) : v1 n ≠ v0 n := by simp [v0, v1]

theorem variables_eq (n : Nat) : Graph.variablesOf [f0 n, f1 n, f2 n] = [v0 n, v1 n] := by
  simp only [Graph.variablesOf, f0, f1, f2, List.foldl_cons, List.foldl_nil]
  rw [set_nil, set_one (v_ne n), set_fst _ _ (v_ne n), set_snd _ _ (v_ne n)]
  rfl

noncomputable def lay (n : Nat) (loc : Bool) (d : Nat) : Layout :=
  ⟨loc, d + d, ⟨[(v0 n, 0), (v1 n, d)]⟩, ⟨[(2, 0)]⟩, ⟨[(2, 2)]⟩⟩

theorem lay_eq (n : Nat) (loc : Bool) : Layout.make g2oClasses [v0 n, v1 n] loc = lay n loc (if loc then 3 else 4) := by
  have h : ∀ d : Nat, ([v0 n, v1 n].foldl (Layout.placeVar fun _ => d) ⟨.empty, ⟨[(2, 0)]⟩, 0⟩) =
      ⟨⟨[(v0 n, 0), (v1 n, d)]⟩, ⟨[(2, 0)]⟩, d + d⟩ := by
    intro d
    simp only [List.foldl_cons, List.foldl_nil, Layout.placeVar]
    rw [set_nil, set_one (v_ne n)]
    simp
  cases loc
  · exact congrArg (fun a : Layout.Acc => (⟨false, a.next, a.idxVar, a.idxType, ⟨[(2, 2)]⟩⟩ : Layout)) (h 4)
  · exact congrArg (fun a : Layout.Acc => (⟨true, a.next, a.idxVar, a.idxType, ⟨[(2, 2)]⟩⟩ : Layout)) (h 3)

noncomputable def G (n : Nat) : Graph where
  factorStacks := [⟨2, 1, [2], .diagonal, [⟨[2, 3], [1, 1, 1, 1, 1, 1]⟩, ⟨[2, 4], se2FromXyTheta 0 0 0 ++ se2FromXyTheta 2 0 0⟩],
      [[[0, 1, 2, 3], [4, 5, 6, 7]]], lay n false 4⟩,
    ⟨1, 0, [2, 2], .diagonal, [⟨[1, 3], [1, 1, 1]⟩, ⟨[1, 4], se2FromXyTheta 1 0 0⟩], [[[0, 1, 2, 3]], [[4, 5, 6, 7]]], lay n false 4⟩]
  jacobianCoords := [(0, 0), (0, 1), (0, 2), (1, 0), (1, 1), (1, 2), (2, 0), (2, 1), (2, 2),
    (3, 3), (3, 4), (3, 5), (4, 3), (4, 4), (4, 5), (5, 3), (5, 4), (5, 5),
    (6, 0), (6, 1), (6, 2), (7, 0), (7, 1), (7, 2), (8, 0), (8, 1), (8, 2),
    (6, 3), (6, 4), (6, 5), (7, 3), (7, 4), (7, 5), (8, 3), (8, 4), (8, 5)]
  layout := lay n false 4
  localLayout := lay n true 3
  residualDim := 9

theorem index_prior (n : Nat) (loc : Bool) (d : Nat) (dim : Ty → Nat) (f0 f1 : Factor) (h0 : f0.vars = [v0 n]) (h1 : f1.vars = [v1 n]) :
    FactorStack.indexRows (lay n loc d) dim 1 [f0, f1] = .ok [[List.range' 0 (dim 2), List.range' d (dim 2)]] := by
  have e0 : (lay n loc d).indexFromVar.get (v0 n) = .ok 0 := get_fst _ _ _ _
  have e1 : (lay n loc d).indexFromVar.get (v1 n) = .ok d := get_snd _ _ (v_ne n) _ _
  simp only [FactorStack.indexRows, List.mapM_cons, List.mapM_nil, h0, h1, e0, e1]
  rfl

theorem index_between (n : Nat) (loc : Bool) (d : Nat) (dim : Ty → Nat) (f : Factor) (h : f.vars = [v0 n, v1 n]) :
    FactorStack.indexRows (lay n loc d) dim 2 [f] = .ok [[List.range' 0 (dim 2)], [List.range' d (dim 2)]] := by
  have e0 : (lay n loc d).indexFromVar.get (v0 n) = .ok 0 := get_fst _ _ _ _
  have e1 : (lay n loc d).indexFromVar.get (v1 n) = .ok d := get_snd _ _ (v_ne n) _ _
  simp only [FactorStack.indexRows, List.mapM_cons, List.mapM_nil, h, e0, e1]
  rfl

theorem make_eq (n : Nat) : Graph.make g2oClasses [f0 n, f1 n, f2 n] = .ok (G n) := by
  have hg : Graph.factorsFromGroup [f0 n, f1 n, f2 n] = ⟨[((f0 n).groupKey, [f0 n, f1 n]), ((f2 n).groupKey, [f2 n])]⟩ := rfl
  unfold Graph.make
  simp only [variables_eq, lay_eq, hg]
  simp only [List.map_cons, List.map_nil, List.foldlM_cons, List.foldlM_nil, Graph.addGroup, FactorStack.make, FactorStack.computeJacobianCoords]
  rw [show (f0 n).vars.length = 1 from rfl, show (f2 n).vars.length = 2 from rfl]
  simp only [index_prior n _ _ _ (f0 n) (f1 n) rfl rfl, index_between n _ _ _ (f2 n) rfl]
  rfl


/-- The layouts agree with themselves. -/
theorem lay_refl (n : Nat) : ((lay n false 4).eq (lay n false 4)) = true := by
  have h := v_ne n
  simp [Layout.eq, PyDict.eq, lay, PyDict.get?, List.lookup_cons, beq_false_of_ne h]

noncomputable def at_ (n : Nat) (T0 T1 : List ℝ) : Assign ℝ := ⟨T0 ++ T1, lay n false 4⟩

theorem init_eq (n : Nat) : Assign.makeFromDefaults g2oClasses (simpleVariables n) = .ok (at_ n [1, 0, 0, 0] [1, 0, 0, 0]) := by
  have : Layout.make g2oClasses (simpleVariables n) false = lay n false 4 := lay_eq n false
  unfold Assign.makeFromDefaults
  simp only [this]
  rfl

theorem problem_eq (n : Nat) : simpleProblem n = .ok (G n, at_ n [1, 0, 0, 0] [1, 0, 0, 0]) := by
  have e0 : pyGet (simpleVariables n) 0 = .ok (v0 n) := rfl
  have e1 : pyGet (simpleVariables n) 1 = .ok (v1 n) := rfl
  simp only [simpleProblem, e0, e1, py_bind_ok, factors_eq, make_eq, init_eq]
  rfl

noncomputable def resid (T0 T1 : List ℝ) : List ℝ :=
  LieGroup.se2Log (LieGroup.se2Mul (LieGroup.se2Inv T0) (se2FromXyTheta 0 0 0)) ++
    LieGroup.se2Log (LieGroup.se2Mul (LieGroup.se2Inv T1) (se2FromXyTheta 2 0 0)) ++
    LieGroup.se2Log (LieGroup.se2Mul (LieGroup.se2Inv (LieGroup.se2Mul (LieGroup.se2Inv T0) T1)) (se2FromXyTheta 1 0 0))

theorem cost_eq (n : Nat) (c s x y c' s' x' y' : ℝ) :
    ((G n).ops g2oFactors g2oClasses).computeCost (at_ n [c, s, x, y] [c', s', x', y']) =
      .ok ((((resid [c, s, x, y] [c', s', x', y']).map (1 * ·)).map (· ^ 2)).sum, (resid [c, s, x, y] [c', s', x', y']).map (1 * ·)) := by
  have e : ((G n).ops g2oFactors g2oClasses).computeCost = (G n).computeCost g2oFactors g2oClasses := rfl
  have hu : (at_ n [c, s, x, y] [c', s', x', y']).updateStorageLayout g2oClasses (G n).layout = .ok (at_ n [c, s, x, y] [c', s', x', y']) := by
    simp only [Assign.updateStorageLayout, at_, G, lay_refl]
    rfl
  rw [e]
  unfold Graph.computeCost Graph.computeWhitenedResidualVector
  rw [hu]
  simp only [py_bind_ok, G, List.mapM_cons, List.mapM_nil, Graph.stackResidual, FactorStack.computeResidualVector, FactorStack.arguments]
  simp only [at_, lay_refl]
  rfl


noncomputable def onAxis (n : Nat) (p q : ℝ) : Assign ℝ := at_ n [1, 0, p, 0] [1, 0, q, 0]

theorem log_axis (x : ℝ) : LieGroup.se2Log [1, 0, x, 0] = [x, 0, 0] := by
  have h : LieGroup.arctan2 0 1 = 0 := by
    have : (⟨1, 0⟩ : ℂ) = 1 := rfl
    rw [LieGroup.arctan2, this, Complex.arg_one]
  simp [LieGroup.se2Log, h, LieGroup.halfOverTan]

theorem resid_axis (p q : ℝ) : resid [1, 0, p, 0] [1, 0, q, 0] = [-p, 0, 0, 2 - q, 0, 0, 1 + p - q, 0, 0] := by
  have h0 : LieGroup.se2Mul (LieGroup.se2Inv [1, 0, p, 0]) (se2FromXyTheta 0 0 0) = [1, 0, -p, 0] := by
    simp [LieGroup.se2Mul, LieGroup.se2Inv, se2FromXyTheta]
  have h1 : LieGroup.se2Mul (LieGroup.se2Inv [1, 0, q, 0]) (se2FromXyTheta 2 0 0) = [1, 0, 2 - q, 0] := by
    simp [LieGroup.se2Mul, LieGroup.se2Inv, se2FromXyTheta]; ring
  have h2 : LieGroup.se2Mul (LieGroup.se2Inv (LieGroup.se2Mul (LieGroup.se2Inv [1, 0, p, 0]) [1, 0, q, 0])) (se2FromXyTheta 1 0 0) =
      [1, 0, 1 + p - q, 0] := by
    simp [LieGroup.se2Mul, LieGroup.se2Inv, se2FromXyTheta]; ring
  rw [resid, h0, h1, h2, log_axis, log_axis, log_axis]
  simp only [List.cons_append, List.nil_append]

theorem cost_onAxis (n : Nat) (p q : ℝ) :
    ((G n).ops g2oFactors g2oClasses).computeCost (onAxis n p q) =
      .ok (p ^ 2 + (2 - q) ^ 2 + (1 + p - q) ^ 2, [-p, 0, 0, 2 - q, 0, 0, 1 + p - q, 0, 0]) := by
  rw [onAxis, cost_eq, resid_axis]
  simp only [List.map_cons, List.map_nil, List.sum_cons, List.sum_nil, one_mul]
  congr 2
  ring

noncomputable def J (p q : ℝ) : Coo ℝ where
  values := [-1, 0, 0, 0, -1, 0, 0, 0, -1,  -1, 0, 0, 0, -1, 0, 0, 0, -1, 1, 0, 0, 0, 1, q - p, 0, 0, 1, -1, 0, 0, 0, -1, 0, 0, 0, -1]
  rows := [0, 0, 0, 1, 1, 1, 2, 2, 2, 3, 3, 3, 4, 4, 4, 5, 5, 5, 6, 6, 6, 7, 7, 7, 8, 8, 8, 6, 6, 6, 7, 7, 7, 8, 8, 8]
  cols := [0, 1, 2, 0, 1, 2, 0, 1, 2, 3, 4, 5, 3, 4, 5, 3, 4, 5, 0, 1, 2, 0, 1, 2, 0, 1, 2, 3, 4, 5, 3, 4, 5, 3, 4, 5]
  shape := (9, 6)

theorem negEye_eq : negEye 3 = ⟨[3, 3], [-1, 0, 0, 0, -1, 0, 0, 0, -1]⟩ := by
  simp [negEye, List.range_succ]

theorem update_eq (n : Nat) (T0 T1 : List ℝ) : (at_ n T0 T1).updateStorageLayout g2oClasses (G n).layout = .ok (at_ n T0 T1) := by
  simp only [Assign.updateStorageLayout, at_, G, lay_refl]
  rfl

theorem jac_onAxis (n : Nat) (p q a b c d e f g h i : ℝ) :
    ((G n).ops g2oFactors g2oClasses).jacobian (onAxis n p q) [a, b, c, d, e, f, g, h, i] = .ok (J p q) := by
  have e : ((G n).ops g2oFactors g2oClasses).jacobian = (G n).computeWhitenedResidualJacobian g2oFactors g2oClasses := rfl
  have hF0 : (g2oFactors 0) = betweenFactorClass .se2 := rfl
  have hF1 : (g2oFactors 1) = priorFactorClass .se2 := rfl
  have hd : LieGroup.se2.tangentDim = 3 := rfl
  rw [e]
  unfold Graph.computeWhitenedResidualJacobian
  rw [onAxis, update_eq]
  simp only [py_bind_ok, G, List.foldlM_cons, List.foldlM_nil, Graph.linearizeStack, FactorStack.computeResidualJacobian, FactorStack.arguments]
  simp only [at_, lay_refl, hF0, hF1, betweenFactorClass, priorFactorClass, negEye_eq, hd]
  refine Eq.trans (b := .ok ⟨([-1, 0, 0, 0, -1, 0, 0, 0, -1,  -1, 0, 0, 0, -1, 0, 0, 0, -1] ++
    (LieGroup.se2.adjoint (LieGroup.se2Inv (LieGroup.se2Mul (LieGroup.se2Inv [1, 0, p, 0]) [1, 0, q, 0]))).data ++
     [-1, 0, 0, 0, -1, 0, 0, 0, -1]).map (1 * ·), (J p q).rows, (J p q).cols, (9, 6)⟩) rfl ?_
  simp [LieGroup.se2, LieGroup.se2Mul, LieGroup.se2Inv, J]
  try ring

theorem J_wf (p q : ℝ) : CooWF (J p q) := ⟨rfl, rfl, by simp [J], by simp [J]⟩

theorem matmul_T (p q : ℝ) : (J p q).T.matmul [-p, 0, 0, 2 - q, 0, 0, 1 + p - q, 0, 0] =
    .ok [1 + 2 * p - q, 0, 0, -(3 + p - 2 * q), 0, 0] := by
  simp [Coo.matmul, Coo.T, J, scatterAdd, gather, pyAssert]
  constructor <;> ring

theorem matmul_axis (p q d e : ℝ) : (J p q).matmul [d, 0, 0, e, 0, 0] = .ok [-d, 0, 0, -e, 0, 0, d - e, 0, 0] := by
  simp [Coo.matmul, J, scatterAdd, gather, pyAssert]
  ring

theorem matmul_T_axis (p q d e : ℝ) : (J p q).T.matmul [-d, 0, 0, -e, 0, 0, d - e, 0, 0] = .ok [2 * d - e, 0, 0, 2 * e - d, 0, 0] := by
  simp [Coo.matmul, Coo.T, J, scatterAdd, gather, pyAssert]
  constructor <;> ring

/-- The poses at distance `(s + t) / 2` and `(s - t) / 2` from the minimum. -/
noncomputable def pt (n : Nat) (s t : ℝ) : Assign ℝ := onAxis n (1 / 3 + (s + t) / 2) (5 / 3 + (s - t) / 2)

noncomputable def rs (s t : ℝ) : List ℝ :=
  [-(1 / 3 + (s + t) / 2), 0, 0, 2 - (5 / 3 + (s - t) / 2), 0, 0, 1 + (1 / 3 + (s + t) / 2) - (5 / 3 + (s - t) / 2), 0, 0]

theorem cost_pt (n : Nat) (s t : ℝ) : ((G n).ops g2oFactors g2oClasses).computeCost (pt n s t) =
    .ok (1 / 3 + s ^ 2 / 2 + 3 * t ^ 2 / 2, rs s t) := by
  rw [pt, cost_onAxis, rs]
  congr 2
  ring

/-- What is remembered for the solver is the pattern of the Jacobian, if anything. -/
def CacheOK (cache : CholmodCache) (addr : Nat) : Prop :=
  ∀ p, cache.get? addr = some p → p = (((J 0 0).shape.2, (J 0 0).shape.1), ((J 0 0).cols.zip (J 0 0).rows).toFinset)

/-- The step. -/
theorem cholmod_eq (stale : Pattern → ScipyCoo ℝ → ℝ → List ℝ → Py (List ℝ)) (cache : CholmodCache) (addr : Nat)
    (hcache : CacheOK cache addr) (p q b c d e : ℝ) (h1 : (2 + 1 / 100000) * d - e = b) (h2 : (2 + 1 / 100000) * e - d = c) :
    (cholmodSolve stale cache addr (J p q) [b, 0, 0, c, 0, 0] 0).1 = .ok [d, 0, 0, e, 0, 0] := by
  obtain ⟨-, x, hx, hlen, -, huniq, -⟩ := Props.C35_cholmod stale cache addr (J p q) (J_wf p q) [b, 0, 0, c, 0, 0] rfl 0 le_rfl hcache
  obtain ⟨y, hy, -, hy2⟩ := matmul_ok (J_wf p q) (x := [d, 0, 0, e, 0, 0]) rfl
  rw [matmul_axis] at hy
  cases hy
  obtain ⟨z, hz, -, hz2⟩ := matmul_ok (Props.cooWF_T (J_wf p q)) (x := [-d, 0, 0, -e, 0, 0, d - e, 0, 0]) rfl
  rw [matmul_T_axis] at hz
  cases hz
  have huniq' : ∀ y : Fin 6 → ℝ, ((cooMatrix (J p q) 9 6).transpose * cooMatrix (J p q) 9 6 +
      (0 + 1 / 100000 : ℝ) • (1 : Matrix (Fin 6) (Fin 6) ℝ)).mulVec y = vec [b, 0, 0, c, 0, 0] 6 → y = vec x 6 := huniq
  have key : vec [d, 0, 0, e, 0, 0] 6 = vec x 6 := by
    refine huniq' _ ?_
    have hy3 : vec [-d, 0, 0, -e, 0, 0, d - e, 0, 0] 9 = (cooMatrix (J p q) 9 6).mulVec (vec [d, 0, 0, e, 0, 0] 6) := hy2
    have hz3 : vec [2 * d - e, 0, 0, 2 * e - d, 0, 0] 6 =
      (cooMatrix (J p q).T 6 9).mulVec (vec [-d, 0, 0, -e, 0, 0, d - e, 0, 0] 9) := hz2
    rw [Props.cooMatrix_T, hy3, Matrix.mulVec_mulVec] at hz3
    rw [Matrix.add_mulVec]
    rw [← hz3, Matrix.smul_mulVec, Matrix.one_mulVec]
    have hb : ∀ i : Fin 6, (vec [2 * d - e, 0, 0, 2 * e - d, 0, 0] 6 + (0 + 1 / 100000 : ℝ) • vec [d, 0, 0, e, 0, 0] 6) i = vec [b, 0, 0, c, 0, 0] 6 i := by
      intro i
      fin_cases i <;> simp [vec] <;> linarith
    exact funext hb
  rw [hx]
  match x, hlen with
  | [x0, x1, x2, x3, x4, x5], _ =>
    have h0 : d = x0 := congrFun key 0
    have h1 : 0 = x1 := congrFun key 1
    have h2 : 0 = x2 := congrFun key 2
    have h3 : e = x3 := congrFun key 3
    have h4 : 0 = x4 := congrFun key 4
    have h5 : 0 = x5 := congrFun key 5
    rw [h0, h3, ← h1, ← h2, ← h4, ← h5]

theorem exp_axis (d : ℝ) : LieGroup.se2Exp [d, 0, 0] = [1, 0, d, 0] := by
  simp [LieGroup.se2Exp, LieGroup.sinOver, LieGroup.cosOver]

theorem retract_eq (n : Nat) (p q d e : ℝ) : (onAxis n p q).manifoldRetract g2oClasses ⟨[d, 0, 0, e, 0, 0], (G n).localLayout⟩ =
    .ok (onAxis n (p + d) (q + e)) := by
  have : (onAxis n p q).manifoldRetract g2oClasses ⟨[d, 0, 0, e, 0, 0], (G n).localLayout⟩ =
      .ok (at_ n (LieGroup.se2Mul [1, 0, p, 0] (LieGroup.se2Exp [d, 0, 0])) (LieGroup.se2Mul [1, 0, q, 0] (LieGroup.se2Exp [e, 0, 0]))) := rfl
  rw [this, exp_axis, exp_axis, onAxis]
  simp [LieGroup.se2Mul, add_comm]

/-- The state after `k` iterations. -/
noncomputable def stateAt (n k : Nat) (s t : ℝ) (d : Bool) : State ℝ :=
  ⟨k, pt n s t, 1 / 3 + s ^ 2 / 2 + 3 * t ^ 2 / 2, rs s t, d⟩

/-- The step at these errors. -/
noncomputable def stepAt (s t : ℝ) : List ℝ :=
  [-(s * (100000 / 100001) + t * (300000 / 300001)) / 2, 0, 0, -(s * (100000 / 100001) - t * (300000 / 300001)) / 2, 0, 0]

theorem defaults_linear (L : LinSolver ℝ) : (GaussNewton.defaults L).linear = L := rfl

/-- One iteration of Gauss-Newton with CHOLMOD: the errors shrink by `1 / 100001` and `1 / 300001`. -/
theorem step_eq {CE : Ty → VarClass Ext} {gE : GraphOps Ext} {n : Nat} (h : Lifts CE gE g2oClasses ((G n).ops g2oFactors g2oClasses))
    {stale : Pattern → ScipyCoo ℝ → ℝ → List ℝ → Py (List ℝ)} {cache : Nat → CholmodCache} {addr : Nat}
    (hcache : ∀ i, CacheOK (cache i) addr) {sE : GaussNewton Ext}
    (hs : LiftsGN sE (GaussNewton.defaults fun A b l i => (cholmodSolve stale (cache i) addr A b l).1)) (k : Nat) (hk : k < 10) (s t : ℝ)
    {d : Bool} (hd : (costTest Criteria.defaults (stateAt n k s t false) (1 / 3 + (s / 100001) ^ 2 / 2 + 3 * (t / 300001) ^ 2 / 2) ||
      parameterTest Criteria.defaults (stateAt n k s t false) (stepAt s t)) = d) :
    sE.step CE gE ((stateAt n k s t false).map fin) =
      .ok ((stateAt n (k + 1) (s / 100001) (t / 300001) d).map fin, [.iteration k (some 100) (fin (1 / 3 + s ^ 2 / 2 + 3 * t ^ 2 / 2)) none]) := by
  obtain ⟨p, hp⟩ : ∃ p, p = 1 / 3 + (s + t) / 2 := ⟨_, rfl⟩
  obtain ⟨q, hq⟩ : ∃ q, q = 5 / 3 + (s - t) / 2 := ⟨_, rfl⟩
  have hpt : pt n s t = onAxis n p q := by rw [pt, hp, hq]
  have hrs : rs s t = [-p, 0, 0, 2 - q, 0, 0, 1 + p - q, 0, 0] := by rw [rs, hp, hq]
  have hret : (pt n s t).manifoldRetract g2oClasses ⟨stepAt s t, (G n).localLayout⟩ = .ok (pt n (s / 100001) (t / 300001)) := by
    rw [hpt, stepAt, retract_eq, pt]
    congr 2
    · rw [hp]; ring
    · rw [hq]; ring
  have hlin : (cholmodSolve stale (cache k) addr (J p q) [-(1 + 2 * p - q), 0, 0, 3 + p - 2 * q, 0, 0] 0).1 = .ok (stepAt s t) := by
    unfold stepAt
    apply cholmod_eq _ _ _ (hcache k)
    · rw [hp, hq]; ring
    · rw [hp, hq]; ring
  refine (gnStep_fin h hs).2 ⟨J p q, [1 + 2 * p - q, 0, 0, -(3 + p - 2 * q), 0, 0], stepAt s t, pt n (s / 100001) (t / 300001),
    1 / 3 + (s / 100001) ^ 2 / 2 + 3 * (t / 300001) ^ 2 / 2, rs (s / 100001) (t / 300001), d, ?_, ?_, ?_, hret, cost_pt _ _ _, ?_, ?_, rfl⟩
  · simp only [stateAt, hpt, hrs]
    exact jac_onAxis ..
  · simp only [stateAt, hrs]
    exact matmul_T p q
  · have e : ([1 + 2 * p - q, 0, 0, -(3 + p - 2 * q), 0, 0].map fun x => -x) = [-(1 + 2 * p - q), 0, 0, 3 + p - 2 * q, 0, 0] := by simp
    rw [e, defaults_linear]
    exact hlin
  · have e : ([1 + 2 * p - q, 0, 0, -(3 + p - 2 * q), 0, 0].map fun x => -x) = [-(1 + 2 * p - q), 0, 0, 3 + p - 2 * q, 0, 0] := by simp
    have hg : gradientTest g2oClasses Criteria.defaults (stateAt n k s t false) (G n).localLayout
        [-(1 + 2 * p - q), 0, 0, 3 + p - 2 * q, 0, 0] = .ok false := by
      unfold gradientTest
      simp only [stateAt, hpt, retract_eq, py_bind_ok]
      have e2 : ∃ x xs, List.zipWith (· - ·) (onAxis n p q).storage (onAxis n (p + -(1 + 2 * p - q)) (q + (3 + p - 2 * q))).storage = x :: xs :=
        ⟨_, _, rfl⟩
      obtain ⟨x, xs, e2⟩ := e2
      rw [e2]
      simp [Criteria.defaults, hk]
    have hconv : convergedTest g2oClasses Criteria.defaults (stateAt n k s t false)
        (1 / 3 + (s / 100001) ^ 2 / 2 + 3 * (t / 300001) ^ 2 / 2) (stepAt s t) (G n).localLayout
        [-(1 + 2 * p - q), 0, 0, 3 + p - 2 * q, 0, 0] = .ok d := by
      unfold convergedTest
      rw [hg]
      simp only [py_bind_ok, Bool.or_false, hd]
      rfl
    rw [e]
    exact hconv
  · have : ¬ 99 ≤ k := by omega
    have e : (GaussNewton.defaults fun A b l i => (cholmodSolve stale (cache i) addr A b l).1).maxIterations = 100 := rfl
    rw [e]
    simp [stateAt, this]

/-! ### The objective -/

/-- The logarithm of a pose is at least as long as the pose is far away. -/
theorem log_sq (c s x y : ℝ) : LieGroup.arctan2 s c ^ 2 + x ^ 2 + y ^ 2 ≤ sqNorm (LieGroup.se2Log [c, s, x, y]) := by
  obtain ⟨θ, hθ⟩ : ∃ θ, θ = LieGroup.arctan2 s c := ⟨_, rfl⟩
  have hlog : LieGroup.se2Log [c, s, x, y] =
      [LieGroup.halfOverTan θ * x + θ / 2 * y, -(θ / 2) * x + LieGroup.halfOverTan θ * y, θ] := by
    rw [hθ]; rfl
  have hk : 1 ≤ LieGroup.halfOverTan θ ^ 2 + (θ / 2) ^ 2 := by
    unfold LieGroup.halfOverTan
    split_ifs with h
    · nlinarith [sq_nonneg (θ / 2)]
    · have h1 := Real.cos_le_one θ
      have h2 : 0 < 1 - Real.cos θ := lt_of_le_of_ne (by linarith) fun h' => h (by linarith)
      have h3 := Real.one_sub_sq_div_two_le_cos (x := θ)
      have h4 := Real.sin_sq_add_cos_sq θ
      have e : (-(θ / 2 * Real.sin θ) / (Real.cos θ - 1)) ^ 2 + (θ / 2) ^ 2 = (θ ^ 2 / 2) / (1 - Real.cos θ) := by
        have h5 : Real.sin θ ^ 2 = (1 - Real.cos θ) * (1 + Real.cos θ) := by linear_combination h4
        have h6 : (Real.cos θ - 1) ≠ 0 := h
        have h7 : (1 - Real.cos θ) ≠ 0 := h2.ne'
        rw [div_pow, neg_sq, mul_pow, h5]
        field_simp
        ring
      rw [e, le_div_iff₀ h2]
      linarith
  rw [hlog, ← hθ]
  simp only [sqNorm, List.map_cons, List.map_nil, List.sum_cons, List.sum_nil]
  nlinarith [mul_nonneg (sub_nonneg.2 hk) (add_nonneg (sq_nonneg x) (sq_nonneg y))]

theorem arctan2_zero {c s : ℝ} (h1 : c ^ 2 + s ^ 2 = 1) (h : LieGroup.arctan2 s c = 0) : c = 1 ∧ s = 0 := by
  have := Complex.arg_eq_zero_iff.1 h
  have hs : s = 0 := this.2
  have hc : 0 ≤ c := this.1
  subst hs
  exact ⟨by nlinarith, rfl⟩

/-- The objective is at least 1/3, and 1/3 at one point only. -/
theorem objective_ge {c s x y c' s' x' y' : ℝ} (h : c ^ 2 + s ^ 2 = 1) (h' : c' ^ 2 + s' ^ 2 = 1) :
    1 / 3 ≤ sqNorm (resid [c, s, x, y] [c', s', x', y']) ∧ (sqNorm (resid [c, s, x, y] [c', s', x', y']) = 1 / 3 →
      [c, s, x, y] = [1, 0, 1 / 3, 0] ∧ [c', s', x', y'] = [1, 0, 5 / 3, 0]) := by
  have e0 : LieGroup.se2Mul (LieGroup.se2Inv [c, s, x, y]) (se2FromXyTheta 0 0 0) = [c, -s, -(c * x + s * y), s * x - c * y] := by
    simp [LieGroup.se2Mul, LieGroup.se2Inv, se2FromXyTheta]; ring
  have e1 : LieGroup.se2Mul (LieGroup.se2Inv [c', s', x', y']) (se2FromXyTheta 2 0 0) =
      [c', -s', c' * (2 - x') - s' * y', -s' * (2 - x') - c' * y'] := by
    simp [LieGroup.se2Mul, LieGroup.se2Inv, se2FromXyTheta]; constructor <;> ring
  obtain ⟨u, v, p, q, e2, e3⟩ : ∃ u v p q, LieGroup.se2Mul (LieGroup.se2Inv (LieGroup.se2Mul (LieGroup.se2Inv [c, s, x, y]) [c', s', x', y'])) (se2FromXyTheta 1 0 0) =
      [u, v, p, q] ∧ p ^ 2 + q ^ 2 = (c - (x' - x)) ^ 2 + (s - (y' - y)) ^ 2 := by
    have e : LieGroup.se2Mul (LieGroup.se2Inv [c, s, x, y]) [c', s', x', y'] =
        [c * c' + s * s', c * s' - s * c', c * (x' - x) + s * (y' - y), c * (y' - y) - s * (x' - x)] := by
      simp [LieGroup.se2Mul, LieGroup.se2Inv]; refine ⟨?_, ?_, ?_⟩ <;> ring
    have e' : ∀ a b X Y : ℝ, LieGroup.se2Mul (LieGroup.se2Inv [a, b, X, Y]) (se2FromXyTheta 1 0 0) =
        [a, -b, a * (1 - X) - b * Y, -b * (1 - X) - a * Y] := by
      intro a b X Y
      simp [LieGroup.se2Mul, LieGroup.se2Inv, se2FromXyTheta]; constructor <;> ring
    have h1 : (c * c' + s * s') ^ 2 + (c * s' - s * c') ^ 2 = 1 := by linear_combination (c' ^ 2 + s' ^ 2) * h + h'
    refine ⟨_, _, _, _, by rw [e, e'], ?_⟩
    obtain ⟨X, hX⟩ : ∃ X, X = c * (x' - x) + s * (y' - y) := ⟨_, rfl⟩
    obtain ⟨Y, hY⟩ : ∃ Y, Y = c * (y' - y) - s * (x' - x) := ⟨_, rfl⟩
    rw [← hX, ← hY]
    have h2 : (1 - X) ^ 2 + Y ^ 2 = (c - (x' - x)) ^ 2 + (s - (y' - y)) ^ 2 := by
      rw [hX, hY]
      linear_combination ((x' - x) ^ 2 + (y' - y) ^ 2 - 1) * h
    rw [← h2]
    linear_combination ((1 - X) ^ 2 + Y ^ 2) * h1
  have hsum : sqNorm (resid [c, s, x, y] [c', s', x', y']) =
      sqNorm (LieGroup.se2Log [c, -s, -(c * x + s * y), s * x - c * y]) +
      sqNorm (LieGroup.se2Log [c', -s', c' * (2 - x') - s' * y', -s' * (2 - x') - c' * y']) + sqNorm (LieGroup.se2Log [u, v, p, q]) := by
    rw [resid, e0, e1, e2]
    simp only [sqNorm, List.map_append, List.sum_append]
  have k0 := log_sq c (-s) (-(c * x + s * y)) (s * x - c * y)
  have k1 := log_sq c' (-s') (c' * (2 - x') - s' * y') (-s' * (2 - x') - c' * y')
  have k2 := log_sq u v p q
  have n0 : (-(c * x + s * y)) ^ 2 + (s * x - c * y) ^ 2 = x ^ 2 + y ^ 2 := by linear_combination (x ^ 2 + y ^ 2) * h
  have n1 : (c' * (2 - x') - s' * y') ^ 2 + (-s' * (2 - x') - c' * y') ^ 2 = (2 - x') ^ 2 + y' ^ 2 := by
    linear_combination ((2 - x') ^ 2 + y' ^ 2) * h'
  obtain ⟨α, hα⟩ : ∃ α, α = LieGroup.arctan2 (-s) c := ⟨_, rfl⟩
  obtain ⟨β, hβ⟩ : ∃ β, β = LieGroup.arctan2 (-s') c' := ⟨_, rfl⟩
  rw [← hα] at k0
  rw [← hβ] at k1
  have hc : c ≤ 1 := by nlinarith [sq_nonneg s]
  -- three vectors with a given sum
  have id1 : x ^ 2 + y ^ 2 + ((2 - x') ^ 2 + y' ^ 2) + ((c - (x' - x)) ^ 2 + (s - (y' - y)) ^ 2) =
      1 / 3 + 4 / 3 * (1 - c) + ((x - (2 - x')) ^ 2 + (y + y') ^ 2 + (2 - x' - (x' - x - c)) ^ 2 + (-y' - (y' - y - s)) ^ 2 +
        (x - (x' - x - c)) ^ 2 + (y - (y' - y - s)) ^ 2) / 3 := by
    linear_combination (1 / 3 : ℝ) * h
  have p1 := sq_nonneg α
  have p2 := sq_nonneg β
  have p3 := sq_nonneg (LieGroup.arctan2 v u)
  have q1 := sq_nonneg (x - (2 - x'))
  have q2 := sq_nonneg (y + y')
  have q3 := sq_nonneg (2 - x' - (x' - x - c))
  have q4 := sq_nonneg (-y' - (y' - y - s))
  have q5 := sq_nonneg (x - (x' - x - c))
  have q6 := sq_nonneg (y - (y' - y - s))
  refine ⟨by linarith, fun heq => ?_⟩
  have hα0 : α = 0 := by
    have : α ^ 2 = 0 := by linarith
    simpa using this
  have hβ0 : β = 0 := by
    have : β ^ 2 = 0 := by linarith
    simpa using this
  obtain ⟨rfl, hs⟩ := arctan2_zero (by simpa using h) (hα ▸ hα0)
  obtain ⟨rfl, hs'⟩ := arctan2_zero (by simpa using h') (hβ ▸ hβ0)
  have hs : s = 0 := by linarith
  have hs' : s' = 0 := by linarith
  have r1 : x - (2 - x') = 0 := by
    have : (x - (2 - x')) ^ 2 = 0 := by linarith
    simpa using this
  have r2 : y + y' = 0 := by
    have : (y + y') ^ 2 = 0 := by linarith
    simpa using this
  have r3 : x - (x' - x - 1) = 0 := by
    have : (x - (x' - x - 1)) ^ 2 = 0 := by linarith
    simpa using this
  have r4 : y - (y' - y - s) = 0 := by
    have : (y - (y' - y - s)) ^ 2 = 0 := by linarith
    simpa using this
  have hx : x = 1 / 3 := by linarith
  have hx' : x' = 5 / 3 := by linarith
  have hy : y = 0 := by linarith
  have hy' : y' = 0 := by linarith
  rw [hs, hs', hx, hx', hy, hy']
  exact ⟨rfl, rfl⟩

theorem mem_vars (n : Nat) (v : Var) : (∃ f ∈ [f0 n, f1 n, f2 n], v ∈ f.vars) ↔ v = v0 n ∨ v = v1 n := by
  constructor
  · rintro ⟨f, hf, hv⟩
    simp only [List.mem_cons, List.not_mem_nil, or_false] at hf
    rcases hf with rfl | rfl | rfl
    · exact .inl (List.mem_singleton.1 hv)
    · exact .inr (List.mem_singleton.1 hv)
    · rcases List.mem_cons.1 hv with h | h
      · exact .inl h
      · exact .inr (List.mem_singleton.1 h)
  · rintro (rfl | rfl)
    · exact ⟨f0 n, by simp, by simp [f0]⟩
    · exact ⟨f1 n, by simp, by simp [f1]⟩

theorem factors_wf (n : Nat) : ∀ f ∈ [f0 n, f1 n, f2 n], FactorWF g2oFactors g2oClasses f := by
  have hn : NoiseWF (.diagonal ⟨[3], [1, 1, 1]⟩) 3 3 := ⟨⟨rfl, rfl⟩, rfl⟩
  intro f hf
  simp only [List.mem_cons, List.not_mem_nil, or_false] at hf
  rcases hf with rfl | rfl | rfl
  · exact prior_wf .se2 rfl rfl (T := se2FromXyTheta 0 0 0) rfl rfl hn rfl
  · exact prior_wf .se2 rfl rfl (T := se2FromXyTheta 2 0 0) rfl rfl hn rfl
  · exact between_wf .se2 rfl rfl (T := se2FromXyTheta 1 0 0) rfl rfl hn rfl rfl

theorem whiten_log (T : List ℝ) : Noise.whiten (.diagonal ⟨[3], [1, 1, 1]⟩) (LieGroup.se2Log T) = .ok (LieGroup.se2Log T) := by
  have : ∀ a b c : ℝ, Noise.whiten (.diagonal ⟨[3], [1, 1, 1]⟩) [a, b, c] = .ok [a, b, c] := by
    intro a b c
    have h : Noise.whiten (.diagonal ⟨[3], [1, 1, 1]⟩) [a, b, c] = .ok [1 * a, 1 * b, 1 * c] := rfl
    rw [h]; simp
  exact this _ _ _

/-- The whitened residuals of the three factors. -/
theorem whitened_eq (n : Nat) (val : Var → Value ℝ) (T0 T1 : List ℝ) (h0 : val (v0 n) = LieGroup.se2.value T0)
    (h1 : val (v1 n) = LieGroup.se2.value T1) :
    ∃ w : Factor → List ℝ, (∀ f ∈ [f0 n, f1 n, f2 n], whitenedAt g2oFactors val f = .ok (w f)) ∧
      ([f0 n, f1 n, f2 n].map fun f => sqNorm (w f)).sum = sqNorm (resid T0 T1) := by
  have hv : ∀ T, (LieGroup.se2.value T).flatten = T := fun T => by simp [LieGroup.value, Value.flatten]
  have k0 : (g2oFactors (f0 n).cls).residual (f0 n).self ((f0 n).vars.map val) =
      LieGroup.se2Log (LieGroup.se2Mul (LieGroup.se2Inv T0) (se2FromXyTheta 0 0 0)) := by
    rw [← hv T0, ← h0]; rfl
  have k1 : (g2oFactors (f1 n).cls).residual (f1 n).self ((f1 n).vars.map val) =
      LieGroup.se2Log (LieGroup.se2Mul (LieGroup.se2Inv T1) (se2FromXyTheta 2 0 0)) := by
    rw [← hv T1, ← h1]; rfl
  have k2 : (g2oFactors (f2 n).cls).residual (f2 n).self ((f2 n).vars.map val) =
      LieGroup.se2Log (LieGroup.se2Mul (LieGroup.se2Inv (LieGroup.se2Mul (LieGroup.se2Inv T0) T1)) (se2FromXyTheta 1 0 0)) := by
    rw [← hv T0, ← h0, ← hv T1, ← h1]; rfl
  refine ⟨fun f => (g2oFactors f.cls).residual f.self (f.vars.map val), fun f hf => ?_, ?_⟩
  · simp only [List.mem_cons, List.not_mem_nil, or_false] at hf
    unfold whitenedAt
    rcases hf with rfl | rfl | rfl
    · dsimp only; rw [k0]; exact whiten_log _
    · dsimp only; rw [k1]; exact whiten_log _
    · dsimp only; rw [k2]; exact whiten_log _
  · simp only [List.map_cons, List.map_nil, List.sum_cons, List.sum_nil, k0, k1, k2, resid]
    simp only [sqNorm, List.map_append, List.sum_append]
    ring

theorem value_axis (x : ℝ) : se2Value x 0 0 = LieGroup.se2.value [1, 0, x, 0] := by simp [se2Value, se2FromXyTheta]

theorem getValue0 (n : Nat) (p q : ℝ) : (onAxis n p q).getValue g2oClasses ⟨se2Ty, n⟩ = .ok (se2Value p 0 0) := by
  have e : (onAxis n p q).layout.indexFromVar.get ⟨se2Ty, n⟩ = .ok 0 := get_fst _ _ _ _
  rw [value_axis]
  unfold Assign.getValue
  rw [e]
  rfl

theorem getValue1 (n : Nat) (p q : ℝ) : (onAxis n p q).getValue g2oClasses ⟨se2Ty, n + 1⟩ = .ok (se2Value q 0 0) := by
  have e : (onAxis n p q).layout.indexFromVar.get ⟨se2Ty, n + 1⟩ = .ok 4 := get_snd _ _ (v_ne n) _ _
  rw [value_axis]
  unfold Assign.getValue
  rw [e]
  rfl

theorem getStacked (n : Nat) (p q : ℝ) : (onAxis n p q).getStackedValue g2oClasses se2Ty = .ok [se2Value p 0 0, se2Value q 0 0] := by
  rw [value_axis, value_axis]
  rfl

end Jaxfg.Simple
