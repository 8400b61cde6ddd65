/- C35, C37: the direct linear solver. -/
import Verif.Lemmas.LinSolve

namespace Jaxfg.Props
open Matrix Jaxfg Spec

/-- **C35.** Whatever `A` is, for `lambda ≥ 0` the matrix that CHOLMOD factorizes is positive definite, the solve succeeds, its
answer is the unique solution of the damped normal equations, and it is a descent direction. `stale` is the behaviour of the
library for an analysis of another sparsity pattern; here the cache holds no analysis for this solver object, or one of the
pattern of this matrix (see C37). -/
theorem C35_cholmod (stale : Pattern → ScipyCoo ℝ → ℝ → List ℝ → Py (List ℝ)) (cache : CholmodCache) (addr : Nat)
    (A : Coo ℝ) (hA : CooWF A) (b : List ℝ) (hb : b.length = A.shape.2) (lambd : ℝ) (hl : 0 ≤ lambd)
    (hcache : ∀ p, cache.get? addr = some p → p = ((A.shape.2, A.shape.1), (A.cols.zip A.rows).toFinset)) :
    let M := cooMatrix A A.shape.1 A.shape.2
    let H := Mᵀ * M + (lambd + 1 / 100000) • (1 : Matrix (Fin A.shape.2) (Fin A.shape.2) ℝ)
    H.PosDef ∧ ∃ x, (cholmodSolve stale cache addr A b lambd).1 = .ok x ∧ x.length = A.shape.2 ∧
      H *ᵥ vec x A.shape.2 = vec b A.shape.2 ∧ (∀ y, H *ᵥ y = vec b A.shape.2 → y = vec x A.shape.2) ∧
      (vec b A.shape.2 ≠ 0 → 0 < vec b A.shape.2 ⬝ᵥ vec x A.shape.2) := by
  intro M H
  have hpos : 0 < lambd + 1 / 100000 := by positivity
  have hH : H.PosDef := normalMatrix_posDef M hpos
  have hu : IsUnit H.det := (Matrix.isUnit_iff_isUnit_det _).1 hH.isUnit
  refine ⟨hH, List.ofFn (H⁻¹ *ᵥ vec b A.shape.2), ?_, by simp, ?_, ?_, ?_⟩
  · unfold cholmodSolve
    rw [asScipy_ok (cooWF_T hA)]
    simp only [cholmodAnalysis]
    cases hc : cache.get? addr with
    | none => exact cholmodFactorSolve_ok stale hb hpos
    | some p =>
      simp only
      rw [hcache p hc]
      exact cholmodFactorSolve_ok stale hb hpos
  all_goals
    have hv : vec (List.ofFn (H⁻¹ *ᵥ vec b A.shape.2)) A.shape.2 = H⁻¹ *ᵥ vec b A.shape.2 := vec_ofVec _
    rw [hv]
  · rw [mulVec_mulVec, mul_nonsing_inv _ hu, one_mulVec]
  · intro y hy
    rw [← hy, mulVec_mulVec, nonsing_inv_mul _ hu, one_mulVec]
  · intro hne
    simpa using hH.inv.dotProduct_mulVec_pos hne

example : CooWF (⟨[1, 1], [0, 1], [0, 0], (2, 2)⟩ : Coo ℝ) ∧ ([1, 0] : List ℝ).length = 2 ∧
    cooMatrix (⟨[1, 1], [0, 1], [0, 0], (2, 2)⟩ : Coo ℝ) 2 2 *ᵥ ![0, 1] = 0 := by
  refine ⟨?_, rfl, ?_⟩
  · unfold CooWF; simp
  · funext i; fin_cases i <;> simp [cooMatrix, entries, mulVec, dotProduct]

/-! ### C37 -/

/-- A call of `solve_subproblem` of the solver object at address `addr`. -/
structure CholmodCall where
  addr : Nat
  A : Coo ℝ
  b : List ℝ
  lambd : ℝ

/-- The sparsity pattern of the matrix of a call. -/
def CholmodCall.pattern (c : CholmodCall) : Pattern := ((c.A.shape.2, c.A.shape.1), (c.A.cols.zip c.A.rows).toFinset)

/-- The cache after a history of calls in one process (object creation and destruction do not touch the cache). -/
noncomputable def cacheAfter (stale : Pattern → ScipyCoo ℝ → ℝ → List ℝ → Py (List ℝ)) (calls : List CholmodCall) : CholmodCache :=
  calls.foldl (fun cache c => (cholmodSolve stale cache c.addr c.A c.b c.lambd).2) .empty

theorem get?_set_self {K V : Type _} [DecidableEq K] (d : PyDict K V) (k k' : K) (v : V) (h : d.get? k = none) :
    (d.set k v).get? k' = if k' = k then some v else d.get? k' := by
  have hc : d.contains k = false := by simp [PyDict.contains, h]
  unfold PyDict.set PyDict.get?
  rw [hc]
  simp only [Bool.false_eq_true, if_false, List.lookup_append]
  by_cases hk : k' = k
  · subst hk
    unfold PyDict.get? at h
    rw [h]; simp
  · simp [hk]
    cases d.items.lookup k' <;> simp [List.lookup, beq_eq_false_iff_ne.2 hk]

/-- Every analysis in the cache is the pattern of the first well-formed matrix solved at the address. -/
theorem cacheAfter_spec (stale : Pattern → ScipyCoo ℝ → ℝ → List ℝ → Py (List ℝ)) (calls : List CholmodCall)
    (hwf : ∀ c ∈ calls, CooWF c.A) (addr : Nat) :
    (cacheAfter stale calls).get? addr = ((calls.filter (·.addr = addr)).head?).map (·.pattern) := by
  unfold cacheAfter
  induction calls using List.reverseRecOn with
  | nil => rfl
  | append_singleton calls c ih =>
    have ih := ih fun c hc => hwf c (by simp [hc])
    rw [List.foldl_append, List.foldl_cons, List.foldl_nil]
    generalize calls.foldl (fun cache c => (cholmodSolve stale cache c.addr c.A c.b c.lambd).2) .empty = cache at ih ⊢
    have hc : CooWF c.A := hwf c (by simp)
    unfold cholmodSolve
    rw [asScipy_ok (cooWF_T hc)]
    simp only [cholmodAnalysis, List.filter_append, List.head?_append, List.filter_cons, List.filter_nil]
    by_cases ha : c.addr = addr
    · subst ha
      simp only [decide_true, if_true, List.head?_cons]
      cases hg : cache.get? c.addr with
      | some p =>
        simp only [hg] at ih ⊢
        cases hh : (calls.filter (·.addr = c.addr)).head? with
        | none => rw [hh] at ih; simp at ih
        | some c' => rw [hh] at ih; simpa using ih
      | none =>
        rw [hg] at ih
        cases hh : (calls.filter (·.addr = c.addr)).head? with
        | none => simp only [get?_set_self _ _ _ _ hg, if_true]; rfl
        | some c' => rw [hh] at ih; simp at ih
    · simp only [ha, decide_false, Bool.false_eq_true, if_false, List.head?_nil, Option.or_none]
      rw [← ih]
      cases hg : cache.get? c.addr with
      | some p => simp only
      | none => simp only [get?_set_self _ _ _ _ hg, if_neg (Ne.symm ha)]

/-- **C37 (partial).** In every history of calls in which each object address is used with a single sparsity pattern, the
answer of a call is the answer in a fresh process, and does not depend on what CHOLMOD does with a wrong analysis. The full
statement drops the hypothesis `hsame`; it is false, see `C37_stale_analysis`. -/
theorem C37_history_partial (stale stale' : Pattern → ScipyCoo ℝ → ℝ → List ℝ → Py (List ℝ)) (calls : List CholmodCall)
    (c : CholmodCall) (hwf : ∀ c' ∈ c :: calls, CooWF c'.A) (hsame : ∀ c' ∈ calls, c'.addr = c.addr → c'.pattern = c.pattern) :
    (cholmodSolve stale (cacheAfter stale calls) c.addr c.A c.b c.lambd).1 = (cholmodSolve stale' .empty c.addr c.A c.b c.lambd).1 := by
  have hc : CooWF c.A := hwf c (by simp)
  have hspec := cacheAfter_spec stale calls (fun c hc => hwf c (by simp [hc])) c.addr
  have hfresh : (PyDict.empty : CholmodCache).get? c.addr = none := rfl
  have hmatch : ∀ b beta, cholmodFactorSolve stale c.pattern ⟨c.A.T.values, c.A.T.rows, c.A.T.cols, c.A.T.shape⟩ beta b =
      cholmodFactorSolve stale' c.pattern ⟨c.A.T.values, c.A.T.rows, c.A.T.cols, c.A.T.shape⟩ beta b := by
    intro b beta
    have hp : c.pattern = ScipyCoo.pattern ⟨c.A.T.values, c.A.T.rows, c.A.T.cols, c.A.T.shape⟩ := rfl
    unfold cholmodFactorSolve
    rw [if_pos hp, if_pos hp]
  unfold cholmodSolve
  rw [asScipy_ok (cooWF_T hc)]
  simp only [cholmodAnalysis, hfresh]
  cases hg : (cacheAfter stale calls).get? c.addr with
  | none => exact hmatch _ _
  | some p =>
    rw [hg] at hspec
    cases hh : (calls.filter (·.addr = c.addr)).head? with
    | none => rw [hh] at hspec; simp at hspec
    | some c' =>
      rw [hh] at hspec
      have hm : c' ∈ calls.filter (·.addr = c.addr) := List.mem_of_mem_head? hh
      rw [List.mem_filter] at hm
      have : p = c.pattern := by
        simp only [Option.map_some, Option.some.injEq] at hspec
        rw [hspec]
        exact hsame c' hm.1 (by simpa using hm.2)
      subst this
      exact hmatch _ _

/-- Two calls with one sparsity pattern at one address, and one with another pattern at another address. -/
example : let c₁ : CholmodCall := ⟨7, ⟨[2], [0], [0], (1, 1)⟩, [1], 0⟩
    let c₂ : CholmodCall := ⟨8, ⟨[1, 1], [0, 0], [0, 1], (1, 2)⟩, [1, 1], 0⟩
    (∀ c' ∈ [c₁, c₁, c₂], CooWF c'.A) ∧ ∀ c' ∈ [c₁, c₂], c'.addr = c₁.addr → c'.pattern = c₁.pattern := by
  intro c₁ c₂
  constructor
  · simp [c₁, c₂, CooWF]
  · simp [c₁, c₂]

/-- **C37, negation.** A solver object at an address that an earlier solver object used for another sparsity pattern is given
the earlier object's analysis: the answer is whatever CHOLMOD does with a wrong analysis, although in a fresh process the same
call returns the solution `1 / (1 + 1e-5)`. -/
theorem C37_stale_analysis : ∃ (c₁ c₂ : CholmodCall), CooWF c₁.A ∧ CooWF c₂.A ∧ c₁.addr = c₂.addr ∧
    (∀ stale, (cholmodSolve stale (cacheAfter stale [c₁]) c₂.addr c₂.A c₂.b c₂.lambd).1 =
      stale c₁.pattern ⟨[1], [0], [0], (1, 1)⟩ (0 + 1 / 100000) [1]) ∧
    (∀ stale, ∃ x, (cholmodSolve stale .empty c₂.addr c₂.A c₂.b c₂.lambd).1 = .ok [x] ∧ (1 + 1 / 100000) * x = 1) ∧
    (∃ stale : Pattern → ScipyCoo ℝ → ℝ → List ℝ → Py (List ℝ),
      (cholmodSolve stale (cacheAfter stale [c₁]) c₂.addr c₂.A c₂.b c₂.lambd).1 ≠
        (cholmodSolve stale .empty c₂.addr c₂.A c₂.b c₂.lambd).1) := by
  have hw1 : CooWF (⟨[1, 1], [0, 0], [0, 1], (1, 2)⟩ : Coo ℝ) := by unfold CooWF; simp
  have hw2 : CooWF (⟨[1], [0], [0], (1, 1)⟩ : Coo ℝ) := by unfold CooWF; simp
  have h2 : ∀ stale : Pattern → ScipyCoo ℝ → ℝ → List ℝ → Py (List ℝ), ∃ x,
      (cholmodSolve stale .empty 7 ⟨[1], [0], [0], (1, 1)⟩ [1] 0).1 = .ok [x] ∧ (1 + 1 / 100000) * x = 1 := by
    intro stale
    obtain ⟨-, x, hx, hlen, hsol, -⟩ := C35_cholmod stale .empty 7 ⟨[1], [0], [0], (1, 1)⟩ hw2 [1] rfl 0 le_rfl
      (by intro p hp; simp [PyDict.empty, PyDict.get?] at hp)
    match x, hlen with
    | [y], _ =>
      refine ⟨y, hx, ?_⟩
      have := congrFun hsol 0
      simp [mulVec, dotProduct, cooMatrix, entries, Spec.vec, Matrix.mul_apply] at this
      rw [one_div]; exact this
  have h1 : ∀ stale : Pattern → ScipyCoo ℝ → ℝ → List ℝ → Py (List ℝ),
      (cholmodSolve stale (cacheAfter stale [⟨7, ⟨[1, 1], [0, 0], [0, 1], (1, 2)⟩, [1, 1], 0⟩]) 7 ⟨[1], [0], [0], (1, 1)⟩ [1] 0).1 =
      stale ((2, 1), {(0, 0), (1, 0)}) ⟨[1], [0], [0], (1, 1)⟩ (0 + 1 / 100000) [1] := by
    intro stale
    have hspec := cacheAfter_spec stale [⟨7, ⟨[1, 1], [0, 0], [0, 1], (1, 2)⟩, [1, 1], 0⟩] (by simpa using hw1) 7
    unfold cholmodSolve
    rw [asScipy_ok (cooWF_T hw2)]
    simp only [cholmodAnalysis, hspec]
    simp [cholmodFactorSolve, CholmodCall.pattern, ScipyCoo.pattern, Coo.T]
  refine ⟨⟨7, ⟨[1, 1], [0, 0], [0, 1], (1, 2)⟩, [1, 1], 0⟩, ⟨7, ⟨[1], [0], [0], (1, 1)⟩, [1], 0⟩, hw1, hw2, rfl, ?_, h2, ?_⟩
  · intro stale
    rw [h1]
    simp [CholmodCall.pattern]
  · refine ⟨fun _ _ _ _ => .error .value, ?_⟩
    obtain ⟨x, hx, -⟩ := h2 fun _ _ _ _ => .error .value
    rw [h1, hx]
    simp

end Jaxfg.Props
