/- Executions from stationary points. -/
import Verif.Lemmas.SolverRuns
import Verif.Lemmas.SolverOrder

namespace Jaxfg
open Ext (fin)
open Spec Matrix
open Props (cooWF_T)

section
variable {CE : Ty → VarClass Ext} {gE : GraphOps Ext} {C : Ty → VarClass ℝ} {g : GraphOps ℝ} {ws : List Var}

theorem Lifts.dimOf (h : Lifts CE gE C g) (loc : Bool) (t : Ty) : Jaxfg.dimOf CE loc t = Jaxfg.dimOf C loc t := by
  unfold Jaxfg.dimOf
  rw [h.paramDim, h.localDim]

theorem Lifts.updateStorageLayout (h : Lifts CE gE C g) (a : Assign ℝ) (tgt : Layout) :
    (a.map fin).updateStorageLayout CE tgt = (a.updateStorageLayout C tgt).map (Assign.map fin) := by
  unfold Assign.updateStorageLayout Assign.shuffleIndices
  simp only [h.dimOf, Assign.map, List.length_map]
  by_cases h1 : a.layout.eq tgt = true
  · simp [h1, Except.map, Assign.map]
  · simp only [h1, Bool.false_eq_true, if_false]
    by_cases h2 : a.layout.dim = tgt.dim
    swap
    · simp [h2, Except.map]
    by_cases h3 : a.layout.localFlag = tgt.localFlag
    swap
    · simp [h2, h3, Except.map]
    cases h4 : Assign.sameSet a.layout.getVariables tgt.getVariables with
    | false => simp [h2, h3, Except.map]
    | true =>
    simp only [h2, h3, decide_true, pyAssert_true, py_bind_ok]
    cases List.foldlM (fun idx v => do
        let s ← a.layout.indexFromVar.get v
        let t ← tgt.indexFromVar.get v
        setSlice idx t (Jaxfg.dimOf C tgt.localFlag v.ty) (List.range' s (Jaxfg.dimOf C tgt.localFlag v.ty)))
        (List.replicate tgt.dim 0) tgt.getVariables with
    | error e => rfl
    | ok idx =>
    simp only [py_bind_ok]
    rw [gather_map (by rfl), List.length_map]
    by_cases h5 : (gather a.storage idx).length = a.storage.length
    · simp [h5, Except.map, Assign.map]
    · simp [h5, Except.map]

end

/-! ### Loops with known states -/

section
variable {S σ : Type}

theorem runs_sequence {done : σ → Bool} {step : σ → Py (σ × List (Msg S))} {s : Nat → σ} {l : Nat → List (Msg S)} {K : Nat}
    (h : ∀ k < K, done (s k) = false ∧ step (s k) = .ok (s (k + 1), l k)) :
    ∀ k ≤ K, Runs done step k (s 0) (s k) ((List.range k).flatMap l) := by
  intro k
  induction k with
  | zero => intro _; exact .refl _
  | succ k ih =>
    intro hk
    rw [List.range_succ, List.flatMap_append, List.flatMap_singleton]
    exact .step (ih (by omega)) (h k (by omega)).1 (h k (by omega)).2

theorem whileLoop_sequence [Scal S] {done : σ → Bool} {step : σ → Py (σ × List (Msg S))} {s : Nat → σ} {l : Nat → List (Msg S)} {K : Nat}
    (h : ∀ k < K, done (s k) = false ∧ step (s k) = .ok (s (k + 1), l k)) (hK : done (s K) = true) (fuel : Nat) :
    whileLoop done step fuel (s 0) = .ok (if fuel < K then none else some (s K, (List.range K).flatMap l)) := by
  by_cases hf : fuel < K
  · have hr := runs_sequence h fuel hf.le
    have := whileLoop_of_runs hr (fuel := fuel) le_rfl (p := none) (by
      rw [Nat.sub_self]; unfold whileLoop; rw [(h fuel hf).1]; rfl)
    rw [this, if_pos hf]; rfl
  · have hr := runs_sequence h K le_rfl
    have := whileLoop_of_runs hr (fuel := fuel) (by omega) (whileLoop_done hK)
    rw [this, if_neg hf]; simp

end

/-! ### Steps at a stationary point -/

section
variable {CE : Ty → VarClass Ext} {gE : GraphOps Ext} {C : Ty → VarClass ℝ} {g : GraphOps ℝ} {ws : List Var}
  {b : Assign ℝ} {c : ℝ} {r : List ℝ} {A : Coo ℝ}

theorem Spec.AtRest.facts (hg : SaneGraph C g ws) (hb : IsAssignmentOf C ws b) (hl : b.layout = g.layout) (h : AtRest g b c r A) :
    CooWF A ∧ A.shape.2 = g.localLayout.dim ∧ r.length = A.shape.1 ∧
      (∃ z, A.T.matmul r = .ok z ∧ z.length = A.shape.2 ∧ ∀ y ∈ z, y = 0) ∧
      ∃ z, A.T.matmul (r.map fun x => -x) = .ok z ∧ z.length = A.shape.2 ∧ ∀ y ∈ z, y = 0 := by
  obtain ⟨hwf, hdim⟩ := hg.jacobian _ _ _ _ _ hb hl hb hl h.cost h.jac
  obtain ⟨z, hz, hz0⟩ := h.gradient
  obtain ⟨l1, l2, l3⟩ := matmul_vec (cooWF_T hwf) hz
  have hr : r.length = A.shape.1 := l1
  refine ⟨hwf, hdim, hr, ⟨z, hz, l2, hz0⟩, ?_⟩
  obtain ⟨y, h1, h2, h3⟩ := matmul_ok (cooWF_T hwf) (x := r.map fun x => -x) (by simp [hr, Coo.T])
  refine ⟨y, h1, h2, (mem_zero_vec h2).2 ?_⟩
  rw [h3, vec_neg_list l1, mulVec_neg, ← l3, (mem_zero_vec l2).1 hz0, neg_zero]

/-- A regular linear solver returns zero. -/
theorem Spec.SolvesRegular.zero {L : LinSolver ℝ} (hL : SolvesRegular L A) {z x : List ℝ} {l : ℝ} {i : Nat} (hz : ∀ y ∈ z, y = 0)
    (hlen : z.length = A.shape.2) (hl : 0 ≤ l) (h : L A z l i = .ok x) : x.length = A.shape.2 ∧ ∀ y ∈ x, y = 0 := by
  obtain ⟨h1, D, -, hpd, heq⟩ := hL z l i x hlen hl h
  refine ⟨h1, (mem_zero_vec h1).2 ?_⟩
  rw [(mem_zero_vec hlen).1 hz] at heq
  exact (Matrix.mulVec_injective_of_isUnit hpd.isUnit) (by rw [heq, mulVec_zero])

theorem sub_self_list (l : List ℝ) : List.zipWith (· - ·) l l = List.replicate l.length 0 := by
  induction l with
  | nil => rfl
  | cons x l ih => simp [List.replicate_succ]

theorem convergedTest_zero (hg : SaneGraph C g ws) (hz : ZeroRetract C) {p : State ℝ} (hb : IsAssignmentOf C ws p.assignments)
    (hl : p.assignments.layout = g.layout) (hne : p.assignments.storage ≠ []) {d z : List ℝ} (hz0 : ∀ y ∈ z, y = 0)
    (hzl : z.length = g.localLayout.dim) (t : Criteria ℝ) (c : ℝ) :
    ∃ conv, convergedTest C t p c d g.localLayout z = .ok conv := by
  unfold convergedTest gradientTest
  rw [hg.zero_stays hz hb hl hz0 hzl]
  simp only [py_bind_ok]
  rw [sub_self_list]
  cases hs : p.assignments.storage with
  | nil => exact absurd hs hne
  | cons x xs =>
    simp only [List.length_cons, List.replicate_succ]
    exact ⟨_, rfl⟩

theorem gn_step_rest (h : Lifts CE gE C g) (hg : SaneGraph C g ws) (hz : ZeroRetract C) {sE : GaussNewton Ext} {s : GaussNewton ℝ}
    (hs : LiftsGN sE s) (htol : 0 < s.parameterTolerance) (hb : IsAssignmentOf C ws b) (hl : b.layout = g.layout)
    (hne : b.storage ≠ []) (hrest : AtRest g b c r A) (hL : SolvesRegular s.linear A)
    (hok : ∀ z l i, z.length = A.shape.2 → 0 ≤ l → ∃ x, s.linear A z l i = .ok x) :
    sE.step CE gE (State.map fin ⟨0, b, c, r, false⟩) = .ok (State.map fin ⟨1, b, c, r, true⟩,
      hcbPrint s.verbose (.iteration 0 (some s.maxIterations) (fin c) none)) := by
  obtain ⟨hwf, hdim, hr, ⟨z, hz1, hz2, hz3⟩, -⟩ := hrest.facts hg hb hl
  have hn2 : (z.map fun x => -x).length = A.shape.2 := by simpa using hz2
  have hn3 : ∀ y ∈ z.map fun x => -x, y = 0 := by
    intro y hy
    obtain ⟨x, hx, rfl⟩ := List.mem_map.1 hy
    simp [hz3 x hx]
  obtain ⟨x, hx⟩ := hok (z.map fun x => -x) 0 0 hn2 le_rfl
  obtain ⟨hx1, hx2⟩ := hL.zero hn3 hn2 le_rfl hx
  obtain ⟨conv, hc⟩ := convergedTest_zero (p := ⟨0, b, c, r, false⟩) hg hz hb hl hne (d := x) hn3 (hn2.trans hdim) s.toCriteria c
  have hconv : conv = true := by
    rw [convergedTest_ok hc]
    right; right
    have : sqNorm x = 0 := by
      rw [sqNorm_eq hx1, (mem_zero_vec hx1).1 hx2]; simp
    rw [this, Real.sqrt_zero]
    have := Real.sqrt_nonneg (sqNorm b.storage)
    positivity
  subst hconv
  refine (gnStep_fin h hs).2 ⟨A, z, x, b, c, r, true, hrest.jac, hz1, hx, hg.zero_stays hz hb hl hx2 (hx1.trans hdim), hrest.cost, hc, ?_, rfl⟩
  simp

/-- Quality of the zero step: `0 / 0`. -/
theorem quality_zero (hg : SaneGraph C g ws) (hwf : CooWF A) (hr : r.length = A.shape.1) (hcost : g.computeCost b = .ok (c, r))
    {x As : List ℝ} (hx1 : x.length = A.shape.2) (hx2 : ∀ y ∈ x, y = 0) (hAs : A.matmul x = .ok As) :
    fin (c - c) / fin (predicted As r - c) = Ext.nan := by
  have : predicted As r = c := by
    rw [predicted_ok hwf hr hAs, (mem_zero_vec hx1).1 hx2, modelCost_zero, hg.cost _ _ _ hcost, sqNorm_eq hr]
  rw [this, sub_self, fin_div_zero_zero]

theorem lm_step_rest (h : Lifts CE gE C g) (hg : SaneGraph C g ws) (hz : ZeroRetract C) {sE : LevenbergMarquardt Ext}
    {s : LevenbergMarquardt ℝ} (hs : LiftsLM sE s) (hf : s.lambdaFactor ≠ 0) (hb : IsAssignmentOf C ws b) (hl : b.layout = g.layout)
    (hne : b.storage ≠ []) (hrest : AtRest g b c r A) (hL : SolvesRegular s.linear A)
    (hok : ∀ z l i, z.length = A.shape.2 → 0 ≤ l → ∃ x, s.linear A z l i = .ok x) (k : Nat) (d : Bool) {lam : ℝ} (hlam : 0 ≤ lam) :
    sE.step CE gE (LMState.map fin ⟨⟨k, b, c, r, d⟩, lam⟩) =
      .ok (LMState.map fin ⟨⟨k + 1, b, c, r, decide (s.maxIterations - 1 ≤ (k : Int))⟩, nextLambda s false lam⟩,
      hcbPrint s.verbose (.iteration k (some s.maxIterations) (fin c) (some (fin lam)))) := by
  obtain ⟨hwf, hdim, hr, -, z, hz1, hz2, hz3⟩ := hrest.facts hg hb hl
  obtain ⟨x, hx⟩ := hok z lam k hz2 hlam
  obtain ⟨hx1, hx2⟩ := hL.zero hz3 hz2 hlam hx
  obtain ⟨conv, hc⟩ := convergedTest_zero (p := ⟨k, b, c, r, d⟩) hg hz hb hl hne (d := x) hz3 (hz2.trans hdim) s.toCriteria c
  obtain ⟨As, hAs, hAl, -⟩ := matmul_ok hwf hx1
  refine (lmStep_fin h hs hf).2 ⟨A, z, x, b, c, r, As, false, conv, hrest.jac, hz1, hx, hg.zero_stays hz hb hl hx2 (hx1.trans hdim),
    hrest.cost, hAs, hAl.trans hr.symm, ?_, hc, ?_, rfl⟩
  · rw [quality_zero hg hwf hr hrest.cost hx1 hx2 hAs, le_nan]
  · simp [lmNextReal]

theorem dogleg_step_rest (h : Lifts CE gE C g) (hg : SaneGraph C g ws) (hz : ZeroRetract C) {sE : Dogleg Ext}
    {s : Dogleg ℝ} (hs : LiftsDogleg sE s) (hb : IsAssignmentOf C ws b) (hl : b.layout = g.layout)
    (hne : b.storage ≠ []) (hrest : AtRest g b c r A) (hL : SolvesRegular s.linear A)
    (hok : ∀ z l i, z.length = A.shape.2 → 0 ≤ l → ∃ x, s.linear A z l i = .ok x) (k : Nat) (d : Bool) {ρ : ℝ} (hρ : 0 < ρ) :
    sE.step CE gE (DoglegState.map fin ⟨⟨k, b, c, r, d⟩, ρ⟩) =
      .ok (DoglegState.map fin ⟨⟨k + 1, b, c, r, decide (s.maxIterations - 1 ≤ (k : Int))⟩, ρ⟩,
      hcbPrint s.verbose (.iteration k (some s.maxIterations) (fin c) (some (fin ρ)))) := by
  obtain ⟨hwf, hdim, hr, -, z, hz1, hz2, hz3⟩ := hrest.facts hg hb hl
  obtain ⟨x, hx⟩ := hok z 0 k hz2 le_rfl
  obtain ⟨hx1, hx2⟩ := hL.zero hz3 hz2 le_rfl hx
  obtain ⟨conv, hc⟩ := convergedTest_zero (p := ⟨k, b, c, r, d⟩) hg hz hb hl hne (d := x) hz3 (hz2.trans hdim) s.toCriteria c
  obtain ⟨As, hAs, hAl, -⟩ := matmul_ok hwf hx1
  have hnorm : nrm x ≤ ρ := by
    rw [nrm_eq hx1, (mem_zero_vec hx1).1 hx2]; simpa using hρ.le
  have hdl := (doglegStep_fin hwf hz1 hx1 hρ).1 hnorm
  refine (doglegSolverStep_fin h hs ?_).2 ⟨A, z, x, x, b, c, r, As, Ext.nan, conv, hrest.jac, hz1, hx, hdl,
    hg.zero_stays hz hb hl hx2 (hx1.trans hdim), hrest.cost, hAs, hAl.trans hr.symm,
    (quality_zero hg hwf hr hrest.cost hx1 hx2 hAs).symm, hc, ?_, rfl⟩
  · intro A' z' x' dE e1 e2 e3 e4
    have e1' : g.jacobian b r = .ok A' := e1
    rw [hrest.jac] at e1'; cases e1'
    have e2' : A.T.matmul (r.map fun x => -x) = .ok z' := e2
    rw [hz1] at e2'; cases e2'
    have e3' : s.linear A z 0 k = .ok x' := e3
    rw [hx] at e3'; cases e3'
    have e4' : doglegStep (A.map fin) (z.map fin) (x.map fin) (fin ρ) = .ok dE := e4
    rw [hdl] at e4'; cases e4'
    exact ⟨x, rfl⟩
  · rw [le_nan]
    simp [doglegNextReal, nextRadius, lt_nan, nan_lt]

end

/-! ### The storage order of the graph -/

/-- Converting to the graph's storage order and back. -/
theorem to_graph_order {C : Ty → VarClass ℝ} {g : GraphOps ℝ} {ws vars : List Var} (hg : SaneGraph C g ws) {a b : Assign ℝ}
    (ha : IsAssignmentOf C vars a) (hv : ∀ v, v ∈ vars ↔ v ∈ ws) (hpos : ∀ t, 0 < (C t).paramDim) (hne : vars ≠ [])
    (hb : a.updateStorageLayout C g.layout = .ok b) :
    IsAssignmentOf C ws b ∧ b.layout = g.layout ∧ b.storage ≠ [] ∧ b.updateStorageLayout C a.layout = .ok a := by
  rw [hg.layout] at hb ⊢
  have hloc : a.layout.localFlag = false := by
    by_contra hc
    have := (Props.C09_update_storage_layout C vars ws false a ha hg.nodup).2 (fun h => hc h.1)
    rw [this] at hb; cases hb
  obtain ⟨f, hf⟩ := exists_rep ha
  rw [hloc] at hf
  have hu := hf.update_unique hg.nodup hv (fun v _ => hpos v.ty)
  obtain ⟨b', h1, -, ⟨us, h2, h3⟩, -, -, h4⟩ := (Props.C09_update_storage_layout C vars ws false a ha hg.nodup).1 ⟨hloc, hv⟩
  rw [hb] at h1 hu
  cases Except.ok.inj h1
  have e := Except.ok.inj hu
  have hf' : Rep C ws false f b := by
    rw [e]
    exact ⟨hg.nodup, rfl, fun v hm => hf.len v ((hv v).2 hm), rfl⟩
  refine ⟨hf'.isAssignment, hf'.layout, ?_, h4⟩
  rw [hf'.storage]
  obtain ⟨v, hm⟩ := List.exists_mem_of_ne_nil _ hne
  intro h0
  have h5 := List.flatMap_eq_nil_iff.1 h0 v (mem_grouped.2 ((hv v).1 hm))
  have h6 := hf.len v hm
  rw [h5] at h6
  have := hpos v.ty
  simp only [List.length_nil, dimOf, Bool.false_eq_true, if_false] at h6
  omega

end Jaxfg
