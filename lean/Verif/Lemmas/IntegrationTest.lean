/- What tests/test_integration.py computes, step by step. -/
import Verif.Model.IntegrationTest
import Verif.Lemmas.SimpleScript

namespace Jaxfg.Integration
open Spec
open Ext (fin)
open Simple (set_nil set_one set_fst set_snd get_fst get_snd)

/-- The two variables. -/
def v0 (n : Nat) : Var := ⟨0, n⟩
def v1 (n : Nat) : Var := ⟨0, n + 1⟩

theorem v_ne (n : Nat) : v1 n ≠ v0 n := by simp [v0, v1]

theorem noise_eq : Noise.diagonalFromCovariance ⟨[4], List.replicate 4 1⟩ = .diagonal ⟨[4], [1, 1, 1, 1]⟩ := by
  simp [Noise.diagonalFromCovariance, List.replicate]

noncomputable def f0 (n : Nat) : Factor := ⟨0, [v0 n], .diagonal ⟨[4], [1, 1, 1, 1]⟩, []⟩
noncomputable def f1 (n : Nat) : Factor := ⟨1, [v0 n, v1 n], .diagonal ⟨[4], [1, 1, 1, 1]⟩, []⟩

theorem uni_eq (n : Nat) : integrationUni (v0 n) = f0 n := by rw [integrationUni, noise_eq, f0]
theorem bi_eq (n : Nat) : integrationBi (v0 n) (v1 n) = f1 n := by rw [integrationBi, noise_eq, f1]

theorem variables_eq (n : Nat) : Graph.variablesOf [f0 n, f1 n] = [v0 n, v1 n] := by
  simp only [Graph.variablesOf, f0, f1, List.foldl_cons, List.foldl_nil]
  rw [set_nil, show (⟨[(v0 n, ())]⟩ : PyDict Var Unit).set (v0 n) () = ⟨[(v0 n, ())]⟩ by simp [PyDict.set, PyDict.contains, PyDict.get?],
    set_one (v_ne n)]
  rfl

noncomputable def lay (n : Nat) (loc : Bool) : Layout := ⟨loc, 6, ⟨[(v0 n, 0), (v1 n, 3)]⟩, ⟨[(0, 0)]⟩, ⟨[(0, 2)]⟩⟩

theorem lay_eq (n : Nat) (loc : Bool) : Layout.make integrationClasses [v0 n, v1 n] loc = lay n loc := by
  have h : ([v0 n, v1 n].foldl (Layout.placeVar fun _ => 3) ⟨.empty, ⟨[(0, 0)]⟩, 0⟩) =
      ⟨⟨[(v0 n, 0), (v1 n, 3)]⟩, ⟨[(0, 0)]⟩, 6⟩ := by
    simp only [List.foldl_cons, List.foldl_nil, Layout.placeVar]
    rw [set_nil, set_one (v_ne n)]
  cases loc
  · exact congrArg (fun a : Layout.Acc => (⟨false, a.next, a.idxVar, a.idxType, ⟨[(0, 2)]⟩⟩ : Layout)) h
  · exact congrArg (fun a : Layout.Acc => (⟨true, a.next, a.idxVar, a.idxType, ⟨[(0, 2)]⟩⟩ : Layout)) h

noncomputable def G (n : Nat) : Graph where
  factorStacks := [⟨1, 0, [0], .diagonal, [⟨[1, 4], [1, 1, 1, 1]⟩], [[[0, 1, 2]]], lay n false⟩,
    ⟨1, 1, [0, 0], .diagonal, [⟨[1, 4], [1, 1, 1, 1]⟩], [[[0, 1, 2]], [[3, 4, 5]]], lay n false⟩]
  jacobianCoords := [(0, 0), (0, 1), (0, 2), (1, 0), (1, 1), (1, 2), (2, 0), (2, 1), (2, 2), (3, 0), (3, 1), (3, 2),
    (4, 0), (4, 1), (4, 2), (5, 0), (5, 1), (5, 2), (6, 0), (6, 1), (6, 2), (7, 0), (7, 1), (7, 2),
    (4, 3), (4, 4), (4, 5), (5, 3), (5, 4), (5, 5), (6, 3), (6, 4), (6, 5), (7, 3), (7, 4), (7, 5)]
  layout := lay n false
  localLayout := lay n true
  residualDim := 8

theorem index_uni (n : Nat) (loc : Bool) (dim : Ty → Nat) :
    FactorStack.indexRows (lay n loc) dim 1 [f0 n] = .ok [[List.range' 0 (dim 0)]] := by
  have e0 : (lay n loc).indexFromVar.get (v0 n) = .ok 0 := get_fst _ _ _ _
  have h : (f0 n).vars = [v0 n] := rfl
  simp only [FactorStack.indexRows, List.mapM_cons, List.mapM_nil, h, e0]
  rfl

theorem index_bi (n : Nat) (loc : Bool) (dim : Ty → Nat) :
    FactorStack.indexRows (lay n loc) dim 2 [f1 n] = .ok [[List.range' 0 (dim 0)], [List.range' 3 (dim 0)]] := by
  have e0 : (lay n loc).indexFromVar.get (v0 n) = .ok 0 := get_fst _ _ _ _
  have e1 : (lay n loc).indexFromVar.get (v1 n) = .ok 3 := get_snd _ _ (v_ne n) _ _
  have h : (f1 n).vars = [v0 n, v1 n] := rfl
  simp only [FactorStack.indexRows, List.mapM_cons, List.mapM_nil, h, e0, e1]
  rfl

theorem make_eq (n : Nat) : Graph.make integrationClasses [f0 n, f1 n] = .ok (G n) := by
  have hg : Graph.factorsFromGroup [f0 n, f1 n] = ⟨[((f0 n).groupKey, [f0 n]), ((f1 n).groupKey, [f1 n])]⟩ := rfl
  unfold Graph.make
  simp only [variables_eq, lay_eq, hg]
  simp only [List.map_cons, List.map_nil, List.foldlM_cons, List.foldlM_nil, Graph.addGroup, FactorStack.make, FactorStack.computeJacobianCoords]
  rw [show (f0 n).vars.length = 1 from rfl, show (f1 n).vars.length = 2 from rfl]
  simp only [index_uni n, index_bi n]
  rfl

theorem lay_refl (n : Nat) : ((lay n false).eq (lay n false)) = true := by
  have h := v_ne n
  simp [Layout.eq, PyDict.eq, lay, PyDict.get?, List.lookup_cons, beq_false_of_ne h]

/-- The values, in storage order. -/
noncomputable def at_ (n : Nat) (p q b r s d : ℝ) : Assign ℝ := ⟨[p, q, b, r, s, d], lay n false⟩

theorem problem_eq (n : Nat) : integrationProblem n = .ok (G n, at_ n 1 2 3 1 2 3) := by
  have e0 : pyGet (integrationVariables n) 0 = .ok (v0 n) := rfl
  have e1 : pyGet (integrationVariables n) 1 = .ok (v1 n) := rfl
  have hi : Assign.makeFromDefaults integrationClasses (integrationVariables n) = .ok (at_ n 1 2 3 1 2 3) := by
    have : Layout.make integrationClasses (integrationVariables n) false = lay n false := lay_eq n false
    unfold Assign.makeFromDefaults
    simp only [this]
    rfl
  simp only [integrationProblem, e0, e1, py_bind_ok, uni_eq, bi_eq, make_eq, hi]
  rfl

theorem update_eq (n : Nat) (p q b r s d : ℝ) :
    (at_ n p q b r s d).updateStorageLayout integrationClasses (G n).layout = .ok (at_ n p q b r s d) := by
  simp only [Assign.updateStorageLayout, at_, G, lay_refl]
  rfl

/-- The residual vector. -/
noncomputable def resid (p q b r s d : ℝ) : List ℝ := [p - 2, q - 3, b - 2, b - 7, p - s, q - r, b - d, Real.sqrt |d - 7|]

theorem residual_eq (n : Nat) (p q b r s d : ℝ) :
    (G n).computeWhitenedResidualVector integrationFactorClasses integrationClasses (at_ n p q b r s d) = .ok (resid p q b r s d) := by
  unfold Graph.computeWhitenedResidualVector
  rw [update_eq]
  simp only [py_bind_ok, G, List.mapM_cons, List.mapM_nil, Graph.stackResidual, FactorStack.computeResidualVector, FactorStack.arguments]
  simp only [at_, lay_refl]
  refine Eq.trans (b := .ok ((resid p q b r s d).map (1 * ·))) rfl ?_
  simp

theorem cost_eq (n : Nat) (p q b r s d : ℝ) :
    ((G n).ops integrationFactorClasses integrationClasses).computeCost (at_ n p q b r s d) =
      .ok ((p - 2) ^ 2 + (q - 3) ^ 2 + (b - 2) ^ 2 + (b - 7) ^ 2 + (p - s) ^ 2 + (q - r) ^ 2 + (b - d) ^ 2 + |d - 7|, resid p q b r s d) := by
  have e : ((G n).ops integrationFactorClasses integrationClasses).computeCost = (G n).computeCost integrationFactorClasses integrationClasses := rfl
  rw [e]
  unfold Graph.computeCost
  rw [residual_eq]
  simp only [py_bind_ok]
  refine congrArg Except.ok (Prod.ext ?_ rfl)
  simp [resid, Real.sq_sqrt (abs_nonneg _)]
  ring

theorem nll_eq (n : Nat) (p q b r s d : ℝ) :
    (G n).computeJointNll integrationFactorClasses integrationClasses (at_ n p q b r s d) false =
      .ok ((p - 2) ^ 2 + (q - 3) ^ 2 + (b - 2) ^ 2 + (b - 7) ^ 2 + (p - s) ^ 2 + (q - r) ^ 2 + (b - d) ^ 2 + |d - 7|) := by
  have hl : (G n).factorStacks.mapM Graph.stackLogDet = .ok [0, 0] := by
    refine Eq.trans (b := .ok [[-2 * Real.log |([1, 1, 1, 1] : List ℝ).prod|].sum, [-2 * Real.log |([1, 1, 1, 1] : List ℝ).prod|].sum]) rfl ?_
    simp
  unfold Graph.computeJointNll
  rw [residual_eq, hl]
  simp only [py_bind_ok, Bool.false_eq_true, if_false]
  refine congrArg Except.ok ?_
  simp [resid, Real.sq_sqrt (abs_nonneg _)]
  ring

/-- The Jacobian, where `m` is the derivative of the last residual. -/
noncomputable def J (m : ℝ) : Coo ℝ where
  values := [1, 0, 0, 0, 1, 0, 0, 0, 1, 0, 0, 1, 1, 0, 0, 0, 1, 0, 0, 0, 1, 0, 0, 0, 0, -1, 0, -1, 0, 0, 0, 0, -1, 0, 0, m]
  rows := [0, 0, 0, 1, 1, 1, 2, 2, 2, 3, 3, 3, 4, 4, 4, 5, 5, 5, 6, 6, 6, 7, 7, 7, 4, 4, 4, 5, 5, 5, 6, 6, 6, 7, 7, 7]
  cols := [0, 1, 2, 0, 1, 2, 0, 1, 2, 0, 1, 2, 0, 1, 2, 0, 1, 2, 0, 1, 2, 0, 1, 2, 3, 4, 5, 3, 4, 5, 3, 4, 5, 3, 4, 5]
  shape := (8, 6)

theorem jac_eq (n : Nat) (p q b r s d : ℝ) {d' : ℝ} :
    ((G n).ops integrationFactorClasses integrationClasses).jacobian (at_ n p q b r s d) (resid p q b r s d') =
      .ok (J (SignType.sign (d - 7) / (2 * Real.sqrt |d - 7|))) := by
  have e : ((G n).ops integrationFactorClasses integrationClasses).jacobian =
    (G n).computeWhitenedResidualJacobian integrationFactorClasses integrationClasses := rfl
  rw [e]
  unfold Graph.computeWhitenedResidualJacobian
  rw [update_eq]
  simp only [py_bind_ok, G, List.foldlM_cons, List.foldlM_nil, Graph.linearizeStack, FactorStack.computeResidualJacobian, FactorStack.arguments]
  simp only [at_, lay_refl]
  refine Eq.trans (b := .ok ⟨(J (SignType.sign (d - 7) / (2 * Real.sqrt |d - 7|))).values.map (1 * ·), (J 0).rows, (J 0).cols, (8, 6)⟩) rfl ?_
  simp [J]

theorem J_wf (m : ℝ) : CooWF (J m) := ⟨rfl, rfl, by simp [J], by simp [J]⟩

theorem matmul_T (m x0 x1 x2 x3 x4 x5 x6 x7 : ℝ) : (J m).T.matmul [x0, x1, x2, x3, x4, x5, x6, x7] =
    .ok [x0 + x4, x1 + x5, x2 + x3 + x6, -x5, -x4, -x6 + m * x7] := by
  simp [Coo.matmul, Coo.T, J, scatterAdd, gather, pyAssert]

theorem matmul_J (m x0 x1 x2 x3 x4 x5 : ℝ) : (J m).matmul [x0, x1, x2, x3, x4, x5] =
    .ok [x0, x1, x2, x2, x0 - x4, x1 - x3, x2 - x5, m * x5] := by
  simp [Coo.matmul, J, scatterAdd, gather, pyAssert, sub_eq_add_neg]

/-- What is remembered for the solver is the pattern of the Jacobian, if anything. -/
def CacheOK (cache : CholmodCache) (addr : Nat) : Prop :=
  ∀ p, cache.get? addr = some p → p = (((J 0).shape.2, (J 0).shape.1), ((J 0).cols.zip (J 0).rows).toFinset)

/-- The step. -/
theorem cholmod_eq (stale : Pattern → ScipyCoo ℝ → ℝ → List ℝ → Py (List ℝ)) (cache : CholmodCache) (addr : Nat)
    (hcache : CacheOK cache addr) (m b0 b1 b2 b3 b4 b5 : ℝ) :
    ∃ x0 x1 x2 x3 x4 x5, (cholmodSolve stale cache addr (J m) [b0, b1, b2, b3, b4, b5] 0).1 = .ok [x0, x1, x2, x3, x4, x5] ∧
      2 * x0 - x4 + x0 / 100000 = b0 ∧ 2 * x1 - x3 + x1 / 100000 = b1 ∧ 3 * x2 - x5 + x2 / 100000 = b2 ∧
      x3 - x1 + x3 / 100000 = b3 ∧ x4 - x0 + x4 / 100000 = b4 ∧ x5 - x2 + m * (m * x5) + x5 / 100000 = b5 := by
  obtain ⟨-, x, hx, hlen, heq, -⟩ := Props.C35_cholmod stale cache addr (J m) (J_wf m) [b0, b1, b2, b3, b4, b5] rfl 0 le_rfl hcache
  match x, hlen with
  | [x0, x1, x2, x3, x4, x5], _ =>
    refine ⟨x0, x1, x2, x3, x4, x5, hx, ?_⟩
    obtain ⟨y, hy, -, hy2⟩ := matmul_ok (J_wf m) (x := [x0, x1, x2, x3, x4, x5]) rfl
    rw [matmul_J] at hy
    cases hy
    obtain ⟨z, hz, -, hz2⟩ := matmul_ok (Props.cooWF_T (J_wf m)) (x := [x0, x1, x2, x2, x0 - x4, x1 - x3, x2 - x5, m * x5]) rfl
    rw [matmul_T] at hz
    cases hz
    have hy3 : vec [x0, x1, x2, x2, x0 - x4, x1 - x3, x2 - x5, m * x5] 8 = (cooMatrix (J m) 8 6).mulVec (vec [x0, x1, x2, x3, x4, x5] 6) := hy2
    have hz3 : vec [x0 + (x0 - x4), x1 + (x1 - x3), x2 + x2 + (x2 - x5), -(x1 - x3), -(x0 - x4), -(x2 - x5) + m * (m * x5)] 6 =
      (cooMatrix (J m).T 6 8).mulVec (vec [x0, x1, x2, x2, x0 - x4, x1 - x3, x2 - x5, m * x5] 8) := hz2
    have heq' : ((cooMatrix (J m) 8 6).transpose * cooMatrix (J m) 8 6 +
      (0 + 1 / 100000 : ℝ) • (1 : Matrix (Fin 6) (Fin 6) ℝ)).mulVec (vec [x0, x1, x2, x3, x4, x5] 6) = vec [b0, b1, b2, b3, b4, b5] 6 := heq
    rw [Props.cooMatrix_T, hy3, Matrix.mulVec_mulVec] at hz3
    rw [Matrix.add_mulVec, ← hz3, Matrix.smul_mulVec, Matrix.one_mulVec] at heq'
    have k0 : x0 + (x0 - x4) + (0 + 1 / 100000 : ℝ) * x0 = b0 := congrFun heq' 0
    have k1 : x1 + (x1 - x3) + (0 + 1 / 100000 : ℝ) * x1 = b1 := congrFun heq' 1
    have k2 : x2 + x2 + (x2 - x5) + (0 + 1 / 100000 : ℝ) * x2 = b2 := congrFun heq' 2
    have k3 : -(x1 - x3) + (0 + 1 / 100000 : ℝ) * x3 = b3 := congrFun heq' 3
    have k4 : -(x0 - x4) + (0 + 1 / 100000 : ℝ) * x4 = b4 := congrFun heq' 4
    have k5 : -(x2 - x5) + m * (m * x5) + (0 + 1 / 100000 : ℝ) * x5 = b5 := congrFun heq' 5
    exact ⟨by linarith, by linarith, by linarith, by linarith, by linarith, by linarith⟩

theorem retract_eq (n : Nat) (p q b r s d x0 x1 x2 x3 x4 x5 : ℝ) :
    (at_ n p q b r s d).manifoldRetract integrationClasses ⟨[x0, x1, x2, x3, x4, x5], (G n).localLayout⟩ =
      .ok (at_ n (p + x0) (q + x1) (b + x2) (r + x3) (s + x4) (d + x5)) := rfl

/-! ### Errors: differences to the least squares solution -/

/-- The differences to the best values `(2, 3, 19/4)` and `(3, 2, 21/4)`. -/
structure Gap where
  p : ℝ
  q : ℝ
  b : ℝ
  r : ℝ
  s : ℝ
  d : ℝ

noncomputable def Gap.at_ (n : Nat) (e : Gap) : Assign ℝ := Integration.at_ n (2 + e.p) (3 + e.q) (19 / 4 + e.b) (3 + e.r) (2 + e.s) (21 / 4 + e.d)

noncomputable def Gap.resid (e : Gap) : List ℝ := Integration.resid (2 + e.p) (3 + e.q) (19 / 4 + e.b) (3 + e.r) (2 + e.s) (21 / 4 + e.d)

/-- By how much the cost is too large. -/
noncomputable def Gap.excess (e : Gap) : ℝ :=
  e.p ^ 2 + (e.p - e.s) ^ 2 + (e.q ^ 2 + (e.q - e.r) ^ 2) + (2 * e.b ^ 2 + (e.b - e.d) ^ 2)

theorem Gap.cost (n : Nat) (e : Gap) (h : e.d ≤ 7 / 4) :
    ((G n).ops integrationFactorClasses integrationClasses).computeCost (e.at_ n) = .ok (117 / 8 + e.excess, e.resid) := by
  rw [Gap.at_, cost_eq, Gap.resid, Gap.excess, abs_of_nonpos (by linarith)]
  refine congrArg Except.ok (Prod.ext ?_ rfl)
  dsimp only
  ring

noncomputable def Gap.state (n k : Nat) (e : Gap) (d : Bool) : State ℝ := ⟨k, e.at_ n, 117 / 8 + e.excess, e.resid, d⟩

/-- One step with damping `1 / 100000`, between errors. -/
structure Gap.Step (e e' : Gap) : Prop where
  p : 2 * e'.p - e'.s = (e.p - e'.p) / 100000
  s : e'.s - e'.p = (e.s - e'.s) / 100000
  q : 2 * e'.q - e'.r = (e.q - e'.q) / 100000
  r : e'.r - e'.q = (e.r - e'.r) / 100000
  b : 3 * e'.b - e'.d = (e.b - e'.b) / 100000
  d : (7 - 4 * e.d) * (e'.d - e'.b) = (1 + (7 - 4 * e.d) / 100000) * (e.d - e'.d)

/-- The increments of the step. -/
def Gap.sub (e' e : Gap) : List ℝ := [e'.p - e.p, e'.q - e.q, e'.b - e.b, e'.r - e.r, e'.s - e.s, e'.d - e.d]

/-- One iteration of Gauss-Newton with CHOLMOD. -/
theorem step_eq {CE : Ty → VarClass Ext} {gE : GraphOps Ext} {n : Nat}
    (h : Lifts CE gE integrationClasses ((G n).ops integrationFactorClasses integrationClasses))
    {stale : Pattern → ScipyCoo ℝ → ℝ → List ℝ → Py (List ℝ)} {cache : Nat → CholmodCache} {addr : Nat}
    (hcache : ∀ i, CacheOK (cache i) addr) {sE : GaussNewton Ext}
    (hs : LiftsGN sE (GaussNewton.defaults fun A b l i => (cholmodSolve stale (cache i) addr A b l).1)) (k : Nat) (hk : k < 10) (e : Gap)
    (hd : e.d < 7 / 4) : ∃ e' : Gap, e.Step e' ∧ (e'.d ≤ 7 / 4 → ∀ c, c = (costTest Criteria.defaults (e.state n k false) (117 / 8 + e'.excess) ||
      parameterTest Criteria.defaults (e.state n k false) (e'.sub e)) →
    sE.step CE gE ((e.state n k false).map fin) =
      .ok ((e'.state n (k + 1) c).map fin, [.iteration k (some 100) (fin (117 / 8 + e.excess)) none])) := by
  obtain ⟨m, hm⟩ : ∃ m : ℝ, m = SignType.sign (21 / 4 + e.d - 7) / (2 * Real.sqrt |21 / 4 + e.d - 7|) := ⟨_, rfl⟩
  have hneg : 21 / 4 + e.d - 7 < 0 := by linarith
  have hpos : 0 < 7 / 4 - e.d := by linarith
  have habs : |21 / 4 + e.d - 7| = 7 / 4 - e.d := by rw [abs_of_neg hneg]; ring
  have hsq := Real.sq_sqrt hpos.le
  have hsp := Real.sqrt_pos.2 hpos
  obtain ⟨w, hw⟩ : ∃ w, w = Real.sqrt (7 / 4 - e.d) := ⟨_, rfl⟩
  rw [← hw] at hsq hsp
  have hm' : m = -1 / (2 * w) := by
    rw [hm, habs, sign_neg hneg, ← hw]
    simp
  have hmw : m * w = -1 / 2 := by rw [hm']; field_simp
  have hmm : m * m * (7 - 4 * e.d) = 1 := by
    have : m * m * (7 - 4 * e.d) = 4 * (m * w) ^ 2 := by
      rw [show (7 - 4 * e.d) = 4 * w ^ 2 by rw [hsq]; ring]; ring
    rw [this, hmw]; norm_num
  obtain ⟨x0, x1, x2, x3, x4, x5, hx, k0, k1, k2, k3, k4, k5⟩ := cholmod_eq stale (cache k) addr (hcache k) m
    (-((2 + e.p - 2) + (2 + e.p - (2 + e.s)))) (-((3 + e.q - 3) + (3 + e.q - (3 + e.r))))
    (-((19 / 4 + e.b - 2) + (19 / 4 + e.b - 7) + (19 / 4 + e.b - (21 / 4 + e.d)))) (-(-(3 + e.q - (3 + e.r)))) (-(-(2 + e.p - (2 + e.s))))
    (-(-(19 / 4 + e.b - (21 / 4 + e.d)) + m * w))
  refine ⟨⟨e.p + x0, e.q + x1, e.b + x2, e.r + x3, e.s + x4, e.d + x5⟩, ⟨?_, ?_, ?_, ?_, ?_, ?_⟩, fun hd' c hc => ?_⟩
  · dsimp only; linarith
  · dsimp only; linarith
  · dsimp only; linarith
  · dsimp only; linarith
  · dsimp only; linarith
  · dsimp only
    rw [hmw] at k5
    linear_combination (7 - 4 * e.d) * k5 - x5 * hmm
  · obtain ⟨e', he'⟩ : ∃ e' : Gap, e' = ⟨e.p + x0, e.q + x1, e.b + x2, e.r + x3, e.s + x4, e.d + x5⟩ := ⟨_, rfl⟩
    rw [← he'] at hd' hc ⊢
    have hret : (e.at_ n).manifoldRetract integrationClasses ⟨[x0, x1, x2, x3, x4, x5], (G n).localLayout⟩ = .ok (e'.at_ n) := by
      rw [Gap.at_, retract_eq, Gap.at_, he']
      simp only [add_assoc]
    have hsub : e'.sub e = [x0, x1, x2, x3, x4, x5] := by rw [he']; simp [Gap.sub]
    refine (gnStep_fin h hs).2 ⟨J m, [(2 + e.p - 2) + (2 + e.p - (2 + e.s)), (3 + e.q - 3) + (3 + e.q - (3 + e.r)),
      (19 / 4 + e.b - 2) + (19 / 4 + e.b - 7) + (19 / 4 + e.b - (21 / 4 + e.d)), -(3 + e.q - (3 + e.r)), -(2 + e.p - (2 + e.s)),
      -(19 / 4 + e.b - (21 / 4 + e.d)) + m * w], [x0, x1, x2, x3, x4, x5], e'.at_ n, 117 / 8 + e'.excess, e'.resid, c, ?_, ?_, ?_, hret,
      e'.cost n hd', ?_, ?_, rfl⟩
    · rw [hm]
      exact jac_eq ..
    · have : (e.state n k false).residual = [2 + e.p - 2, 3 + e.q - 3, 19 / 4 + e.b - 2, 19 / 4 + e.b - 7, 2 + e.p - (2 + e.s),
          3 + e.q - (3 + e.r), 19 / 4 + e.b - (21 / 4 + e.d), w] := by
        rw [hw, ← habs]; rfl
      rw [this]
      exact matmul_T ..
    · exact hx
    · have hgr : ∀ b0 b1 b2 b3 b4 b5, gradientTest integrationClasses Criteria.defaults (e.state n k false) (G n).localLayout
          [b0, b1, b2, b3, b4, b5] = .ok false := by
        intro b0 b1 b2 b3 b4 b5
        unfold gradientTest
        simp only [Gap.state, Gap.at_, retract_eq, py_bind_ok]
        simp [Criteria.defaults, hk, Integration.at_]
      unfold convergedTest
      simp only [List.map_cons, List.map_nil]
      have hgr' := hgr (-((2 + e.p - 2) + (2 + e.p - (2 + e.s)))) (-((3 + e.q - 3) + (3 + e.q - (3 + e.r))))
        (-((19 / 4 + e.b - 2) + (19 / 4 + e.b - 7) + (19 / 4 + e.b - (21 / 4 + e.d)))) (-(-(3 + e.q - (3 + e.r)))) (-(-(2 + e.p - (2 + e.s))))
        (-(-(19 / 4 + e.b - (21 / 4 + e.d)) + m * w))
      have e1 : (GaussNewton.defaults fun A b l i => (cholmodSolve stale (cache i) addr A b l).1).toCriteria = Criteria.defaults := rfl
      have e2 : ((G n).ops integrationFactorClasses integrationClasses).localLayout = (G n).localLayout := rfl
      rw [e1, e2, hgr']
      rw [hc, hsub]
      simp only [py_bind_ok, Bool.or_false]
      rfl
    · have : ¬ 99 ≤ k := by omega
      have e : (GaussNewton.defaults fun A b l i => (cholmodSolve stale (cache i) addr A b l).1).maxIterations = 100 := rfl
      rw [e]
      simp [Gap.state, this]

/-- The initial values. -/
noncomputable def start : Gap := ⟨-1, -1, -7 / 4, -2, 0, -9 / 4⟩

/-- Bounds for the errors: those in `a` are at most `ε`, that of the second `b` is between `l` and `h`, and that of the first `b` is
about a third of it. -/
structure Gap.Near (e : Gap) (ε l h : ℝ) : Prop where
  p : |e.p| ≤ ε
  q : |e.q| ≤ ε
  r : |e.r| ≤ ε
  s : |e.s| ≤ ε
  b : |3 * e.b - e.d| ≤ 1 / 50000
  l : l ≤ e.d
  h : e.d ≤ h

theorem step1 {e : Gap} (h : start.Step e) : e.Near (1 / 10000) (-1930 / 10000) (-1928 / 10000) := by
  obtain ⟨h1, h2, h3, h4, h5, h6⟩ := h
  simp only [start] at h1 h2 h3 h4 h5 h6
  refine ⟨abs_le.2 ⟨?_, ?_⟩, abs_le.2 ⟨?_, ?_⟩, abs_le.2 ⟨?_, ?_⟩, abs_le.2 ⟨?_, ?_⟩, abs_le.2 ⟨?_, ?_⟩, ?_, ?_⟩ <;> linarith

theorem step_small {p s p' s' ε : ℝ} (h1 : 2 * p' - s' = (p - p') / 100000) (h2 : s' - p' = (s - s') / 100000) (hp : |p| ≤ ε)
    (hs : |s| ≤ ε) : |p'| ≤ ε / 10000 ∧ |s'| ≤ ε / 10000 := by
  rw [abs_le] at hp hs ⊢
  rw [abs_le]
  refine ⟨⟨?_, ?_⟩, ?_, ?_⟩ <;> linarith

theorem step_near {e e' : Gap} {ε l h l' h' : ℝ} (hn : e.Near ε l h) (hstep : e.Step e') (hl : -1 / 5 ≤ l) (hh : h ≤ 0)
    (hl' : -1 / 5 ≤ l') (hh' : h' ≤ 0)
    (hb : ∀ d b, l ≤ d → d ≤ h → |3 * b - d| ≤ 1 / 50000 →
      l' * ((7 - 4 * d) * (2 + 1 / 100000) + (3 + 1 / 100000) * (1 + (7 - 4 * d) / 100000)) ≤
        (3 + 1 / 100000) * (1 + (7 - 4 * d) / 100000) * d + (7 - 4 * d) / 100000 * b ∧
      (3 + 1 / 100000) * (1 + (7 - 4 * d) / 100000) * d + (7 - 4 * d) / 100000 * b ≤
        h' * ((7 - 4 * d) * (2 + 1 / 100000) + (3 + 1 / 100000) * (1 + (7 - 4 * d) / 100000))) :
    e'.Near (ε / 10000) l' h' := by
  obtain ⟨n1, n2, n3, n4, n5, n6, n7⟩ := hn
  obtain ⟨h1, h2, h3, h4, h5, h6⟩ := hstep
  obtain ⟨a1, a2⟩ := step_small h1 h2 n1 n4
  obtain ⟨a3, a4⟩ := step_small h3 h4 n2 n3
  obtain ⟨b1, b2⟩ := hb e.d e.b n6 n7 n5
  have hw : 0 < 7 - 4 * e.d := by linarith
  have hK : 0 < (7 - 4 * e.d) * (2 + 1 / 100000) + (3 + 1 / 100000) * (1 + (7 - 4 * e.d) / 100000) := by positivity
  have hR : e'.d * ((7 - 4 * e.d) * (2 + 1 / 100000) + (3 + 1 / 100000) * (1 + (7 - 4 * e.d) / 100000)) =
      (3 + 1 / 100000) * (1 + (7 - 4 * e.d) / 100000) * e.d + (7 - 4 * e.d) / 100000 * e.b := by
    linear_combination (3 + 1 / 100000) * h6 + (7 - 4 * e.d) * h5
  rw [← hR] at b1 b2
  have hl2 := le_of_mul_le_mul_right b1 hK
  have hh2 := le_of_mul_le_mul_right b2 hK
  rw [abs_le] at n5
  exact ⟨a1, a3, a4, a2, abs_le.2 ⟨by linarith, by linarith⟩, hl2, hh2⟩

theorem step2 {e e' : Gap} {ε : ℝ} (hn : e.Near ε (-1930 / 10000) (-1928 / 10000)) (h : e.Step e') :
    e'.Near (ε / 10000) (-313 / 10000) (-311 / 10000) := by
  refine step_near hn h (by norm_num) (by norm_num) (by norm_num) (by norm_num) fun d b hl hh hb => ?_
  rw [abs_le] at hb
  constructor <;> nlinarith

theorem step3 {e e' : Gap} {ε : ℝ} (hn : e.Near ε (-313 / 10000) (-311 / 10000)) (h : e.Step e') :
    e'.Near (ε / 10000) (-55 / 10000) (-53 / 10000) := by
  refine step_near hn h (by norm_num) (by norm_num) (by norm_num) (by norm_num) fun d b hl hh hb => ?_
  rw [abs_le] at hb
  constructor <;> nlinarith

theorem step4 {e e' : Gap} {ε : ℝ} (hn : e.Near ε (-55 / 10000) (-53 / 10000)) (h : e.Step e') :
    e'.Near (ε / 10000) (-98 / 100000) (-92 / 100000) := by
  refine step_near hn h (by norm_num) (by norm_num) (by norm_num) (by norm_num) fun d b hl hh hb => ?_
  rw [abs_le] at hb
  constructor <;> nlinarith

theorem sq_le {x y : ℝ} (h : |x| ≤ y) : x ^ 2 ≤ y ^ 2 := sq_le_sq' (abs_le.1 h).1 (abs_le.1 h).2

/-- The excess is about two thirds of the square of the error of the second `b`. -/
theorem excess_near {e : Gap} {ε l h : ℝ} (hn : e.Near ε l h) (hh : h ≤ 0) :
    2 / 3 * h ^ 2 ≤ e.excess ∧ e.excess ≤ 2 / 3 * l ^ 2 + 10 * ε ^ 2 + 1 / 10 ^ 9 := by
  obtain ⟨n1, n2, n3, n4, n5, n6, n7⟩ := hn
  have hab : 2 * e.b ^ 2 + (e.b - e.d) ^ 2 = 2 / 3 * e.d ^ 2 + (3 * e.b - e.d) ^ 2 / 3 := by ring
  have h5 := sq_le n5
  have h1 := sq_le n1
  have h2 := sq_le n2
  have h3 := sq_le n3
  have h4 := sq_le n4
  have hd1 : h ^ 2 ≤ e.d ^ 2 := by nlinarith
  have hd2 : e.d ^ 2 ≤ l ^ 2 := by nlinarith
  have hps : (e.p - e.s) ^ 2 ≤ 2 * e.p ^ 2 + 2 * e.s ^ 2 := by nlinarith [sq_nonneg (e.p + e.s)]
  have hqr : (e.q - e.r) ^ 2 ≤ 2 * e.q ^ 2 + 2 * e.r ^ 2 := by nlinarith [sq_nonneg (e.q + e.r)]
  unfold Gap.excess
  constructor
  · nlinarith [sq_nonneg e.p, sq_nonneg e.q, sq_nonneg (e.p - e.s), sq_nonneg (e.q - e.r), sq_nonneg (3 * e.b - e.d)]
  · nlinarith

/-! ### The objective -/

theorem wellShaped (t : Ty) : WellShaped (integrationClasses t).default := by
  simp [WellShaped, integrationClasses, VarClass.euclidean, integrationValue]

theorem paramDim (t : Ty) : (integrationClasses t).paramDim = 3 := rfl

theorem localDim (t : Ty) : (integrationClasses t).localDim = 3 := rfl

theorem good : GoodClasses integrationClasses := by
  intro t
  refine ⟨wellShaped t, fun x d hx hd => ?_⟩
  have h1 := isValueOf_length (wellShaped t) hx
  apply isValueOf_unravel (c := integrationClasses t) (wellShaped t)
  rw [List.length_zipWith, hd, h1, localDim, paramDim, min_self]

theorem noise_wf : NoiseWF (.diagonal ⟨[4], [1, 1, 1, 1]⟩) 4 4 := ⟨⟨rfl, rfl⟩, rfl⟩

theorem factors_wf (n : Nat) : ∀ f ∈ [f0 n, f1 n], FactorWF integrationFactorClasses integrationClasses f := by
  intro f hf
  simp only [List.mem_cons, List.not_mem_nil, or_false] at hf
  rcases hf with rfl | rfl
  · have hd : rdim (f0 n) = 4 := noiseDim_eq noise_wf
    refine ⟨by rw [hd]; omega, by simp [f0], by rw [hd]; exact noise_wf, by simp [f0], .cons rfl .nil, fun vals hv => ?_, fun vals hv => ?_⟩
    · rw [hd]; rfl
    · rw [hd]; exact .cons ⟨rfl, rfl⟩ .nil
  · have hd : rdim (f1 n) = 4 := noiseDim_eq noise_wf
    refine ⟨by rw [hd]; omega, by simp [f1], by rw [hd]; exact noise_wf, by simp [f1], .cons rfl (.cons rfl .nil), fun vals hv => ?_,
      fun vals hv => ?_⟩
    · rw [hd]; rfl
    · rw [hd]; exact .cons ⟨rfl, rfl⟩ (.cons ⟨rfl, rfl⟩ .nil)

theorem mem_vars (n : Nat) (v : Var) : (∃ f ∈ [f0 n, f1 n], v ∈ f.vars) ↔ v = v0 n ∨ v = v1 n := by
  simp only [List.mem_cons, List.not_mem_nil, or_false, exists_eq_or_imp, exists_eq_left, f0, f1]
  tauto

/-- The whitened residuals of the two factors. -/
theorem whitened_eq (n : Nat) (val : Var → Value ℝ) (p q b r s d : ℝ) (h0 : val (v0 n) = integrationValue p q b)
    (h1 : val (v1 n) = integrationValue r s d) :
    ∃ w : Factor → List ℝ, (∀ f ∈ [f0 n, f1 n], whitenedAt integrationFactorClasses val f = .ok (w f)) ∧
      ([f0 n, f1 n].map fun f => sqNorm (w f)).sum =
        (p - 2) ^ 2 + (q - 3) ^ 2 + (b - 2) ^ 2 + (b - 7) ^ 2 + (p - s) ^ 2 + (q - r) ^ 2 + (b - d) ^ 2 + |d - 7| := by
  have hw : ∀ a b c e : ℝ, Noise.whiten (.diagonal ⟨[4], [1, 1, 1, 1]⟩) [a, b, c, e] = .ok [a, b, c, e] := by
    intro a b c e
    have h : Noise.whiten (.diagonal ⟨[4], [1, 1, 1, 1]⟩) [a, b, c, e] = .ok [1 * a, 1 * b, 1 * c, 1 * e] := rfl
    rw [h]; simp
  have k0 : (integrationFactorClasses (f0 n).cls).residual (f0 n).self ((f0 n).vars.map val) = [p - 2, q - 3, b - 2, b - 7] := by
    show (integrationFactorClasses 0).residual _ [val (v0 n)] = _
    rw [h0]; rfl
  have k1 : (integrationFactorClasses (f1 n).cls).residual (f1 n).self ((f1 n).vars.map val) =
      [p - s, q - r, b - d, Real.sqrt |d - 7|] := by
    show (integrationFactorClasses 1).residual _ [val (v0 n), val (v1 n)] = _
    rw [h0, h1]; rfl
  refine ⟨fun f => (integrationFactorClasses f.cls).residual f.self (f.vars.map val), fun f hf => ?_, ?_⟩
  · simp only [List.mem_cons, List.not_mem_nil, or_false] at hf
    unfold whitenedAt
    rcases hf with rfl | rfl
    · dsimp only; rw [k0]; exact hw _ _ _ _
    · dsimp only; rw [k1]; exact hw _ _ _ _
  · simp only [List.map_cons, List.map_nil, List.sum_cons, List.sum_nil, k0, k1]
    simp [sqNorm, Real.sq_sqrt (abs_nonneg _)]
    ring

theorem objective_ge (p q b r s d : ℝ) :
    117 / 8 ≤ (p - 2) ^ 2 + (q - 3) ^ 2 + (b - 2) ^ 2 + (b - 7) ^ 2 + (p - s) ^ 2 + (q - r) ^ 2 + (b - d) ^ 2 + |d - 7| ∧
    ((p - 2) ^ 2 + (q - 3) ^ 2 + (b - 2) ^ 2 + (b - 7) ^ 2 + (p - s) ^ 2 + (q - r) ^ 2 + (b - d) ^ 2 + |d - 7| = 117 / 8 →
      p = 2 ∧ q = 3 ∧ b = 19 / 4 ∧ r = 3 ∧ s = 2 ∧ d = 21 / 4) := by
  have h1 := sq_nonneg (p - 2)
  have h2 := sq_nonneg (q - 3)
  have h3 := sq_nonneg (p - s)
  have h4 := sq_nonneg (q - r)
  rcases le_or_gt d 7 with hd | hd
  · rw [abs_of_nonpos (by linarith)]
    have key : (b - 2) ^ 2 + (b - 7) ^ 2 + (b - d) ^ 2 + -(d - 7) = 117 / 8 + 2 * (b - 19 / 4) ^ 2 + (b - d + 1 / 2) ^ 2 := by ring
    have h5 := sq_nonneg (b - 19 / 4)
    have h6 := sq_nonneg (b - d + 1 / 2)
    refine ⟨by linarith, fun h => ?_⟩
    have z : ∀ {x : ℝ}, x ^ 2 ≤ 0 → x = 0 := fun {x} hx => by nlinarith [sq_nonneg x, pow_eq_zero_iff (two_ne_zero) |>.1 (le_antisymm hx (sq_nonneg x))]
    have e1 := z (x := p - 2) (by linarith)
    have e2 := z (x := q - 3) (by linarith)
    have e3 := z (x := p - s) (by linarith)
    have e4 := z (x := q - r) (by linarith)
    have e5 := z (x := b - 19 / 4) (by linarith)
    have e6 := z (x := b - d + 1 / 2) (by linarith)
    exact ⟨by linarith, by linarith, by linarith, by linarith, by linarith, by linarith⟩
  · rw [abs_of_pos (by linarith)]
    have : 117 / 8 < (b - 2) ^ 2 + (b - 7) ^ 2 + (b - d) ^ 2 + (d - 7) := by nlinarith [sq_nonneg (3 * b - 9 - d)]
    exact ⟨by linarith, fun h => by linarith⟩

theorem getValue0 (n : Nat) (p q b r s d : ℝ) : (at_ n p q b r s d).getValue integrationClasses ⟨0, n⟩ = .ok (integrationValue p q b) := by
  have e : (at_ n p q b r s d).layout.indexFromVar.get ⟨0, n⟩ = .ok 0 := get_fst _ _ _ _
  unfold Assign.getValue
  rw [e]
  rfl

theorem getValue1 (n : Nat) (p q b r s d : ℝ) :
    (at_ n p q b r s d).getValue integrationClasses ⟨0, n + 1⟩ = .ok (integrationValue r s d) := by
  have e : (at_ n p q b r s d).layout.indexFromVar.get ⟨0, n + 1⟩ = .ok 3 := get_snd _ _ (v_ne n) _ _
  unfold Assign.getValue
  rw [e]
  rfl

end Jaxfg.Integration
