/- The nonlinear solvers when conjugate gradients return NaN. -/
import Verif.Lemmas.CgScalar
import Verif.Lemmas.Stationary
import Verif.Lemmas.SolverSolve

namespace Jaxfg
open Spec
open Ext (fin nan)
open Props (cooWF_T)

theorem neg_nan : -nan = nan := rfl
theorem nan_div (x : Ext) : nan / x = nan := by cases x <;> rfl
theorem nan_sub (x : Ext) : nan - x = nan := by cases x <;> rfl
theorem maximum_nan_left (x : Ext) : Scal.maximum nan x = nan := by cases x <;> rfl
theorem maximum_nan_right (x : Ext) : Scal.maximum x nan = nan := by cases x <;> rfl

theorem sumSq_nan {l : List Ext} (h : nan ∈ l) : sumSq l = nan :=
  sum_nan (List.mem_map.2 ⟨nan, h, nan_mul _⟩)

theorem vecNorm_nan {l : List Ext} (h : nan ∈ l) : vecNorm l = nan := by
  unfold vecNorm; rw [sumSq_nan h]; rfl

theorem jnpMax_ok {l : List Ext} (h : l ≠ []) : ∃ m, jnpMax l = .ok m := by
  cases l with
  | nil => exact absurd rfl h
  | cons x l => exact ⟨_, rfl⟩

theorem foldl_maximum_nan (l : List Ext) : l.foldl Scal.maximum nan = nan := by
  induction l with
  | nil => rfl
  | cons x l ih => rw [List.foldl_cons, maximum_nan_left, ih]

theorem jnpMax_nan {l : List Ext} (h : nan ∈ l) : jnpMax l = .ok nan := by
  cases l with
  | nil => simp at h
  | cons x l =>
    show Except.ok (l.foldl Scal.maximum x) = _
    congr 1
    induction l generalizing x with
    | nil =>
      simp only [List.mem_cons, List.not_mem_nil, or_false] at h
      exact h.symm
    | cons y l ih =>
      rw [List.foldl_cons]
      rcases List.mem_cons.1 h with h | h
      · rw [← h, maximum_nan_left, foldl_maximum_nan]
      rcases List.mem_cons.1 h with h | h
      · rw [← h, maximum_nan_right, foldl_maximum_nan]
      · exact ih _ (List.mem_cons.2 (.inr h))

theorem foldl_add_nan (u : List (Nat × Ext)) : u.foldl (fun s p => s + p.2) nan = nan := by
  induction u with
  | nil => rfl
  | cons p u ih => rw [List.foldl_cons, nan_add, ih]

/-- An update by NaN inside the vector leaves a NaN. -/
theorem scatterAdd_nan {l : List Ext} {upd : List (Nat × Ext)} {i : Nat} (hi : i < l.length) (h : (i, nan) ∈ upd) :
    nan ∈ scatterAdd l upd := by
  unfold scatterAdd
  have aux : ∀ (upd : List (Nat × Ext)) (l : List Ext) (hi : i < l.length), (l[i] = nan ∨ (i, nan) ∈ upd) →
      nan ∈ upd.foldl (fun acc p => acc.modify p.1 (· + p.2)) l := by
    intro upd
    induction upd with
    | nil =>
      intro l hi h
      rcases h with h | h
      · rw [← h]; exact List.getElem_mem _
      · simp at h
    | cons p upd ih =>
      intro l hi h
      rw [List.foldl_cons]
      apply ih _ (by simpa using hi)
      rw [List.getElem_modify]
      rcases h with h | h
      · left; rw [h]; split
        · exact nan_add _
        · rfl
      · rcases List.mem_cons.1 h with h | h
        · left; rw [← h]; simp [add_nan]
        · exact .inr h
  exact aux upd l hi (.inr h)

theorem matmul_any_ok {A : Coo Ext} (h : CooWF A) {x : List Ext} (hx : x.length = A.shape.2) :
    ∃ y, A.matmul x = .ok y ∧ y.length = A.shape.1 := by
  obtain ⟨h1, h2, -, -⟩ := h
  unfold Coo.matmul
  simp only [hx, decide_true, pyAssert_true, py_bind_ok]
  rw [if_neg (by omega), if_neg (by omega)]
  exact ⟨_, rfl, by simp [length_scatterAdd]⟩

/-- The product with a vector of NaN has a NaN, if the matrix has a value. -/
theorem matmul_nan {A : Coo Ext} (h : CooWF A) (hne : A.values ≠ []) :
    ∃ y, A.matmul (List.replicate A.shape.2 nan) = .ok y ∧ y.length = A.shape.1 ∧ nan ∈ y := by
  obtain ⟨h1, h2, h3, h4⟩ := h
  unfold Coo.matmul
  simp only [List.length_replicate, decide_true, pyAssert_true, py_bind_ok]
  rw [if_neg (by omega), if_neg (by omega)]
  refine ⟨_, rfl, by simp [length_scatterAdd], ?_⟩
  have hp : 0 < A.values.length := List.length_pos_iff.2 hne
  have hc : A.cols[0]'(by omega) < A.shape.2 := h4 _ (List.getElem_mem _)
  refine scatterAdd_nan (i := A.rows[0]'(by omega)) (by simpa using h3 _ (List.getElem_mem _)) ?_
  have hlen : 0 < (A.rows.zip (List.zipWith (· * ·) A.values (gather (List.replicate A.shape.2 nan) A.cols))).length := by
    simp [gather]; omega
  have e : (A.rows.zip (List.zipWith (· * ·) A.values (gather (List.replicate A.shape.2 nan) A.cols)))[0] = (A.rows[0]'(by omega), nan) := by
    simp only [List.getElem_zip, List.getElem_zipWith, gather, List.getElem_map, List.length_replicate, Prod.mk.injEq, true_and]
    rw [List.getD_eq_getElem?_getD, List.getElem?_replicate, if_pos (by omega)]
    exact mul_nan _
  rw [← e]
  exact List.getElem_mem _

/-- A right-hand side with a NaN ends conjugate gradients at the start. -/
theorem cgSolve_nan {A : Coo Ext} (h : CooWF A) {b : List Ext} (hb : b.length = A.shape.2) (hn : nan ∈ b) (l tol : Ext) :
    cgSolveS A b l tol = .ok (List.replicate A.shape.2 (fin 0)) := by
  have hv : vdotS b b = nan := by
    apply sum_nan
    obtain ⟨i, hi, he⟩ := List.getElem_of_mem hn
    have : (List.zipWith (· * ·) b b)[i]'(by simpa using hi) = nan := by rw [List.getElem_zipWith, he, nan_mul]
    rw [← this]; exact List.getElem_mem _
  obtain ⟨y, y1, y2⟩ := matmul_any_ok h (x := List.replicate A.shape.2 0) (by simp)
  obtain ⟨z, z1, z2⟩ := matmul_any_ok (cooWF_T h) (x := y) y2
  unfold cgSolveS cgS
  simp only [hb, List.length_replicate]
  have hop : ∀ d, ∃ w, ataFunctionS A d l (List.replicate A.shape.2 0) = .ok w := by
    intro d
    unfold ataFunctionS
    rw [y1, py_bind_ok, z1, py_bind_ok]
    exact ⟨_, rfl⟩
  obtain ⟨w, hw⟩ := hop (ataDiagonalsS A A.shape.2)
  rw [hw, hv, mul_nan, maximum_nan_left]
  simp only [py_bind_ok]
  have hloop : ∀ q op M s, cgLoopS (S := Ext) op M nan q s = .ok s := by
    intro q op M s
    cases q with
    | zero => rfl
    | succ q => unfold cgLoopS; rw [nan_lt]; rfl
  rw [hloop]
  rfl

/-- A loop whose steps keep an invariant and are stopped by the counter only. -/
theorem whileLoop_counter {S : Type} {σ : Type} {base : σ → State S} {step : σ → Py (σ × List (Msg S))} {N : Int} {P : σ → Prop}
    {Q : Msg S → Prop}
    (hstep : ∀ s, P s → ∃ s' l, step s = .ok (s', l) ∧ P s' ∧ (∀ m ∈ l, Q m) ∧ (base s').iterations = (base s).iterations + 1 ∧
      (base s').done = decide (((base s).iterations : Int) ≥ N - 1)) :
    ∀ (fuel : Nat) (s : σ), P s → (base s).done = false → 1 ≤ fuel → N - (base s).iterations ≤ fuel →
      ∃ t log, whileLoop (fun s => (base s).done) step fuel s = .ok (some (t, log)) ∧ P t ∧
        ((base t).iterations : Int) = max (((base s).iterations : Int) + 1) N ∧ ∀ m ∈ log, Q m := by
  intro fuel
  induction fuel with
  | zero => intro s _ _ h; omega
  | succ fuel ih =>
    intro s hs hd _ hN
    obtain ⟨s', l, h1, h2, h3, h4, h5⟩ := hstep s hs
    unfold whileLoop
    simp only [hd, Bool.false_eq_true, if_false, h1, py_bind_ok]
    by_cases hc : ((base s).iterations : Int) ≥ N - 1
    · rw [decide_eq_true hc] at h5
      rw [whileLoop_done (done := fun s => (base s).done) h5]
      refine ⟨s', l, by simp, h2, ?_, h3⟩
      rw [h4]; push_cast; omega
    · rw [decide_eq_false hc] at h5
      obtain ⟨t, log, g1, g2, g3, g4⟩ := ih s' h2 h5 (by omega) (by omega)
      rw [g1]
      refine ⟨t, l ++ log, by simp, g2, ?_, ?_⟩
      · rw [g3, h4]; push_cast; omega
      · intro m hm
        rcases List.mem_append.1 hm with hm | hm
        · exact h3 m hm
        · exact g4 m hm

section
variable {CE : Ty → VarClass Ext} {gE : GraphOps Ext} {C : Ty → VarClass ℝ} {g : GraphOps ℝ} {ws : List Var}

theorem Lifts.make (h : Lifts CE gE C g) (vars : List Var) (loc : Bool) : Layout.make CE vars loc = Layout.make C vars loc := by
  unfold Layout.make
  have : Jaxfg.dimOf CE loc = Jaxfg.dimOf C loc := funext fun t => h.dimOf loc t
  rw [this]

theorem Lifts.isAssignment (h : Lifts CE gE C g) {a : Assign ℝ} (ha : IsAssignmentOf C ws a) : IsAssignmentOf CE ws (a.map fin) := by
  refine ⟨ha.1, ?_, ?_⟩
  · rw [h.make]; exact ha.2.1
  · show (a.storage.map fin).length = _
    rw [List.length_map]; exact ha.2.2

/-- Retraction of assignments that may hold NaN by a delta that may hold NaN does not raise. -/
theorem Lifts.retract_any (h : Lifts CE gE C g) (hCE : GoodClasses CE) (hg : SaneGraph C g ws) {a : Assign Ext}
    (ha : IsAssignmentOf CE ws a) (hl : a.layout = g.layout) {d : List Ext} (hd : d.length = g.localLayout.dim) :
    ∃ b, a.manifoldRetract CE ⟨d, gE.localLayout⟩ = .ok b ∧ b.layout = a.layout ∧ IsAssignmentOf CE ws b := by
  have hδ : IsAssignmentOf CE ws ⟨d, gE.localLayout⟩ := by
    refine ⟨ha.1, ?_, ?_⟩
    · simp only [h.localLayout, hg.localLayout, make_localFlag, h.make]
    · simp only [h.localLayout]; exact hd
  obtain ⟨b, h1, h2, h3, -⟩ := Props.C11_retract_per_variable CE hCE ws a ⟨d, gE.localLayout⟩ ha
    (by rw [hl, hg.layout]; rfl) hδ (by simp only [h.localLayout, hg.localLayout, make_localFlag])
  exact ⟨b, h1, h2, h3⟩

/-- The tests for convergence do not raise. -/
theorem Lifts.converged_any (h : Lifts CE gE C g) (hCE : GoodClasses CE) (hg : SaneGraph C g ws) {p : State Ext}
    (ha : IsAssignmentOf CE ws p.assignments) (hl : p.assignments.layout = g.layout) (hne : p.assignments.storage ≠ [])
    (t : Criteria Ext) (c : Ext) (delta : List Ext) {ng : List Ext} (hng : ng.length = g.localLayout.dim) :
    ∃ conv, t.converged CE p c ⟨delta, gE.localLayout⟩ ng = .ok conv := by
  unfold Criteria.converged Criteria.convergedGradient
  obtain ⟨b, h1, h2, h3⟩ := h.retract_any hCE hg ha hl hng
  rw [h1]
  simp only [py_bind_ok]
  have hbl : b.storage.length = p.assignments.storage.length := by rw [h3.2.2, h2, ← ha.2.2]
  obtain ⟨m, hm⟩ := jnpMax_ok (l := List.zipWith (· - ·) p.assignments.storage b.storage) (by
    intro h0
    have := congrArg List.length h0
    simp only [List.length_zipWith, hbl, min_self, List.length_nil, List.length_eq_zero_iff] at this
    exact hne this)
  rw [hm]
  exact ⟨_, rfl⟩

end

end Jaxfg
