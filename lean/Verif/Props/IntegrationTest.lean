/- C106: the integration test. -/
import Verif.Lemmas.IntegrationTest
import Verif.Lemmas.ExamplePoly
import Verif.Spec.Linearize
import Mathlib.Analysis.SpecialFunctions.Sqrt
import Mathlib.Analysis.Calculus.Deriv.Abs

namespace Jaxfg.Props
open Spec Integration
open Ext (fin)

/-- **C106, the Jacobians.** The Jacobians of both factors are the derivatives of their residuals, unless the `b` of the second variable
is 7. -/
theorem C106_jacobians (u v : Var) (p q b r s d : ℝ) :
    JacobiansCorrect integrationFactorClasses integrationClasses (integrationUni u) [integrationValue p q b] ∧
    (d ≠ 7 → JacobiansCorrect integrationFactorClasses integrationClasses (integrationBi u v)
      [integrationValue p q b, integrationValue r s d]) := by
  have hlin : ∀ a x c : ℝ, HasDerivAt (fun t : ℝ => a + t * x - c) x 0 := fun a x c => by
    have := (((hasDerivAt_id (0 : ℝ)).mul_const x).const_add a).sub_const c
    simpa using this
  have hlin2 : ∀ a x c y : ℝ, HasDerivAt (fun t : ℝ => a + t * x - (c + t * y)) (x - y) 0 := fun a x c y => by
    have := (((hasDerivAt_id (0 : ℝ)).mul_const x).const_add a).sub (((hasDerivAt_id (0 : ℝ)).mul_const y).const_add c)
    simp only [one_mul] at this
    exact this
  constructor
  · intro δs hδ
    obtain ⟨δ, δs', h1, h2, rfl⟩ := List.forall₂_cons_left_iff.1 hδ
    obtain rfl := List.forall₂_nil_left_iff.1 h2
    have h1 : δ.length = 3 := h1
    match δ, h1 with
    | [x, y, z], _ =>
      suffices H : HasDerivAt (fun t : ℝ => vec [p + t * x - 2, q + t * y - 3, b + t * z - 2, b + t * z - 7] 4)
        (Matrix.mulVec (arrMat ⟨[4, 3], [1, 0, 0, 0, 1, 0, 0, 0, 1, 0, 0, 1]⟩ 4 3) (vec [x, y, z] 3) + (0 : Fin 4 → ℝ)) 0 from H
      rw [hasDerivAt_pi]
      intro i
      have key : (Matrix.mulVec (arrMat (⟨[4, 3], [1, 0, 0, 0, 1, 0, 0, 0, 1, 0, 0, 1]⟩ : Arr ℝ) 4 3) (vec [x, y, z] 3) + 0) = vec [x, y, z, z] 4 := by
        funext i
        fin_cases i <;> simp [Matrix.mulVec, dotProduct, Fin.sum_univ_succ, arrMat, vec]
      rw [key]
      fin_cases i
      · exact hlin p x 2
      · exact hlin q y 3
      · exact hlin b z 2
      · exact hlin b z 7
  · intro hd δs hδ
    obtain ⟨δ, δs', h1, h2, rfl⟩ := List.forall₂_cons_left_iff.1 hδ
    obtain ⟨δ', δs', h3, h4, rfl⟩ := List.forall₂_cons_left_iff.1 h2
    obtain rfl := List.forall₂_nil_left_iff.1 h4
    have h1 : δ.length = 3 := h1
    have h3 : δ'.length = 3 := h3
    match δ, h1, δ', h3 with
    | [x, y, z], _, [x', y', z'], _ =>
      obtain ⟨m, hm⟩ : ∃ m : ℝ, m = SignType.sign (d - 7) / (2 * Real.sqrt |d - 7|) := ⟨_, rfl⟩
      have hsq : HasDerivAt (fun t : ℝ => Real.sqrt |d + t * z' - 7|) (m * z') 0 := by
        have e1 := hlin d z' 7
        have hne : d + 0 * z' - 7 ≠ 0 := by simpa [sub_eq_zero] using hd
        have e2 := (hasDerivAt_abs hne).comp (0 : ℝ) e1
        have e3 := HasDerivAt.sqrt e2 (by simpa using hne)
        have : m * z' = (SignType.sign (d + 0 * z' - 7) * z') / (2 * Real.sqrt |d + 0 * z' - 7|) := by
          rw [hm]; simp; ring
        rw [this]
        exact e3
      suffices H : HasDerivAt (fun t : ℝ => vec [p + t * x - (s + t * y'), q + t * y - (r + t * x'), b + t * z - (d + t * z'),
          Real.sqrt |d + t * z' - 7|] 4)
        (Matrix.mulVec (arrMat ⟨[4, 3], [1, 0, 0, 0, 1, 0, 0, 0, 1, 0, 0, 0]⟩ 4 3) (vec [x, y, z] 3) +
          (Matrix.mulVec (arrMat ⟨[4, 3], [0, -1, 0, -1, 0, 0, 0, 0, -1, 0, 0, SignType.sign (d - 7) / (2 * Real.sqrt |d - 7|)]⟩ 4 3)
            (vec [x', y', z'] 3) + (0 : Fin 4 → ℝ))) 0 from H
      rw [← hm, hasDerivAt_pi]
      intro i
      have key : Matrix.mulVec (arrMat (⟨[4, 3], [1, 0, 0, 0, 1, 0, 0, 0, 1, 0, 0, 0]⟩ : Arr ℝ) 4 3) (vec [x, y, z] 3) +
          (Matrix.mulVec (arrMat (⟨[4, 3], [0, -1, 0, -1, 0, 0, 0, 0, -1, 0, 0, m]⟩ : Arr ℝ) 4 3) (vec [x', y', z'] 3) + 0) =
          vec [x - y', y - x', z - z', m * z'] 4 := by
        funext i
        fin_cases i <;> simp [Matrix.mulVec, dotProduct, Fin.sum_univ_succ, arrMat, vec, sub_eq_add_neg]
      rw [key]
      fin_cases i
      · exact hlin2 p x s y'
      · exact hlin2 q y r x'
      · exact hlin2 b z d z'
      · exact hsq

/-- **C106, the objective.** The test builds a graph for its two variables. Whatever values the two variables have, stored in whatever
order, the cost is at least 117/8; it is 117/8 only if they are `(2, 3), 19/4` and `(3, 2), 21/4`. -/
theorem C106_objective (next : Nat) : ∃ g a, integrationProblem next = .ok (g, a) ∧
    ∀ e vars, IsAssignmentOf integrationClasses vars e → e.layout.localFlag = false → vars.Perm (integrationVariables next) →
      ∀ p q b r s d : ℝ, e.getValue integrationClasses ⟨0, next⟩ = .ok (integrationValue p q b) →
        e.getValue integrationClasses ⟨0, next + 1⟩ = .ok (integrationValue r s d) →
        ∃ c rs, g.computeCost integrationFactorClasses integrationClasses e = .ok (c, rs) ∧ 117 / 8 ≤ c ∧
          (c = 117 / 8 ↔ integrationValue p q b = integrationValue 2 3 (19 / 4) ∧ integrationValue r s d = integrationValue 3 2 (21 / 4)) := by
  refine ⟨_, _, Integration.problem_eq next, fun e vars he hl hp p q b r s d h0 h1 => ?_⟩
  have hwf := Integration.factors_wf next
  obtain ⟨g', hg', hG⟩ := graph_ok (F := integrationFactorClasses) hwf (by simp)
  obtain rfl : g' = G next := Except.ok.inj (hg'.symm.trans (Integration.make_eq next))
  obtain ⟨val, hval⟩ : ∃ val : Var → Value ℝ, val = fun v => if v = v0 next then integrationValue p q b else integrationValue r s d := ⟨_, rfl⟩
  have e0 : val (v0 next) = integrationValue p q b := by rw [hval]; simp
  have e1 : val (v1 next) = integrationValue r s d := by rw [hval]; simp [Integration.v_ne]
  have hmem : ∀ v, v ∈ vars ↔ v = v0 next ∨ v = v1 next := by
    intro v
    rw [hp.mem_iff]
    simp [integrationVariables, v0, v1]
  have hH : Holds integrationClasses [f0 next, f1 next] vars val e := by
    refine ⟨he, hl, fun v => ?_, fun v hv => ?_⟩
    · rw [hmem, Integration.mem_vars]
    · rcases (hmem v).1 hv with rfl | rfl
      · rw [e0]; exact h0
      · rw [e1]; exact h1
  obtain ⟨w, hw, hsum⟩ := Integration.whitened_eq next val _ _ _ _ _ _ e0 e1
  have hcost := cost_ok integrationFactorClasses integrationClasses Integration.good (by simp) hwf hG hH hw
  rw [hsum] at hcost
  have hge := Integration.objective_ge p q b r s d
  refine ⟨_, _, hcost, hge.1, fun h => ?_, fun h => ?_⟩
  · obtain ⟨rfl, rfl, rfl, rfl, rfl, rfl⟩ := hge.2 h
    exact ⟨rfl, rfl⟩
  · simp only [integrationValue, Value.mk.injEq, List.cons.injEq, Arr.mk.injEq, true_and, and_true] at h
    obtain ⟨⟨⟨rfl, rfl⟩, rfl⟩, ⟨rfl, rfl⟩, rfl⟩ := h
    rw [abs_of_neg (by norm_num)]
    norm_num

/-- **C106, the solution.** `graph.solve(initial_assignments)`, that is Gauss-Newton with CHOLMOD and default settings from the default
values, stops after four iterations. The printed cost is 25 at first; in the end it is `117/8` up to `7e-7`. The returned values are less
than `1e-3` from the minimum. The assertion of the test holds. This holds for the first call and for later ones, when CHOLMOD has kept its
analysis of the Jacobian. The derivative of `sqrt(abs(v2.b - 7))` is only taken where `v2.b < 7`. -/
theorem C106_solution (next : Nat) : ∃ g a, integrationProblem next = .ok (g, a) ∧
    ∀ (stale : Pattern → ScipyCoo ℝ → ℝ → List ℝ → Py (List ℝ)) (cache : Nat → CholmodCache) (addr : Nat) CE gE sE,
      (∀ i p, (cache i).get? addr = some p → p = ((g.localLayout.dim, g.residualDim), (g.jacobianCoords.map Prod.swap).toFinset)) →
      Lifts CE gE integrationClasses (g.ops integrationFactorClasses integrationClasses) →
      LiftsGN sE (GaussNewton.defaults fun A b l i => (cholmodSolve stale (cache i) addr A b l).1) →
      ∃ (o : Assign ℝ) (p q b r s d c₁ c₂ c₃ c₄ : ℝ),
        (∀ fuel, 4 ≤ fuel → sE.solve CE gE fuel (a.map fin) = .ok (some (o.map fin,
          [.iteration 0 (some 100) (fin 25) none, .iteration 1 (some 100) (fin c₁) none, .iteration 2 (some 100) (fin c₂) none,
            .iteration 3 (some 100) (fin c₃) none, .terminated 4 (fin c₄)]))) ∧
        o.layout = a.layout ∧ o.getValue integrationClasses ⟨0, next⟩ = .ok (integrationValue p q b) ∧
        o.getValue integrationClasses ⟨0, next + 1⟩ = .ok (integrationValue r s d) ∧
        |p - 2| ≤ 1 / 10 ^ 16 ∧ |q - 3| ≤ 1 / 10 ^ 16 ∧ |b - 19 / 4| ≤ 1 / 2500 ∧ |r - 3| ≤ 1 / 10 ^ 16 ∧ |s - 2| ≤ 1 / 10 ^ 16 ∧
        |d - 21 / 4| ≤ 1 / 1000 ∧ 117 / 8 ≤ c₄ ∧ c₄ ≤ 117 / 8 + 7 / 10 ^ 7 ∧ c₄ < c₃ ∧ c₃ < c₂ ∧ c₂ < c₁ ∧ c₁ < 14.65 ∧
        integrationAssert g a o = .ok () := by
  refine ⟨_, _, Integration.problem_eq next, fun stale cache addr CE gE sE hc hl hs => ?_⟩
  have hcache : ∀ i, Integration.CacheOK (cache i) addr := hc
  have ha : at_ next 1 2 3 1 2 3 = start.at_ next := by
    simp only [Gap.at_, start, Integration.at_]
    norm_num
  have hx0 : start.excess = 83 / 8 := by simp only [Gap.excess, start]; norm_num
  obtain ⟨e1, t1, s1⟩ := Integration.step_eq hl hcache hs 0 (by norm_num) start (by simp only [start]; norm_num)
  have n1 := step1 t1
  have m1 := excess_near n1 (by norm_num)
  obtain ⟨e2, t2, s2⟩ := Integration.step_eq hl hcache hs 1 (by norm_num) e1 (by linarith [n1.h])
  have n2 := step2 n1 t2
  have m2 := excess_near n2 (by norm_num)
  obtain ⟨e3, t3, s3⟩ := Integration.step_eq hl hcache hs 2 (by norm_num) e2 (by linarith [n2.h])
  have n3 := step3 n2 t3
  have m3 := excess_near n3 (by norm_num)
  obtain ⟨e4, t4, s4⟩ := Integration.step_eq hl hcache hs 3 (by norm_num) e3 (by linarith [n3.h])
  have n4 := step4 n3 t4
  have m4 := excess_near n4 (by norm_num)
  norm_num at m1 m2 m3 m4
  -- the cost test
  have hcost : ∀ k (e e' : Gap), e'.excess ≤ e.excess → 0 ≤ e.excess → e.excess ≤ 11 → 3 / 10000 ≤ e.excess - e'.excess →
      costTest Criteria.defaults (e.state next k false) (117 / 8 + e'.excess) = false := by
    intro k e e' h1 h2 h3 h4
    unfold costTest
    refine decide_eq_false fun h => absurd h.2 ?_
    simp only [Gap.state, Criteria.defaults, not_lt]
    rw [abs_of_nonpos (by linarith), le_div_iff₀ (by linarith)]
    linarith
  have hpar : ∀ k (e e' : Gap), |e.p| ≤ 1 → |e.q| ≤ 1 → |e.b| ≤ 2 → |e.r| ≤ 2 → |e.s| ≤ 1 → |e.d| ≤ 3 → 1 / 100 ≤ |e'.d - e.d| →
      parameterTest Criteria.defaults (e.state next k false) (e'.sub e) = false := by
    intro k e e' h1 h2 h3 h4 h5 h6 h7
    unfold parameterTest
    refine decide_eq_false fun h => ?_
    simp only [Gap.state, Criteria.defaults] at h
    have k1 : 1 / 100 ≤ nrm (e'.sub e) := by
      refine h7.trans (Real.abs_le_sqrt ?_)
      simp only [Gap.sub, sqNorm, List.map_cons, List.map_nil, List.sum_cons, List.sum_nil]
      have := sq_nonneg (e'.p - e.p)
      have := sq_nonneg (e'.q - e.q)
      have := sq_nonneg (e'.b - e.b)
      have := sq_nonneg (e'.r - e.r)
      have := sq_nonneg (e'.s - e.s)
      linarith
    have k2 : nrm (e.at_ next).storage ≤ 100 := by
      rw [nrm, Real.sqrt_le_left (by norm_num)]
      simp only [Gap.at_, Integration.at_, sqNorm, List.map_cons, List.map_nil, List.sum_cons, List.sum_nil]
      rw [abs_le] at h1 h2 h3 h4 h5 h6
      nlinarith
    linarith
  have hb : ∀ {e : Gap} {ε l h : ℝ}, e.Near ε l h → -1 / 5 ≤ l → h ≤ 0 → |e.b| ≤ 1 / 10 ∧ |e.d| ≤ 1 / 5 := by
    intro e ε l h hn h1 h2
    have := abs_le.1 hn.b
    exact ⟨abs_le.2 ⟨by linarith [hn.l, hn.h], by linarith [hn.l, hn.h]⟩, abs_le.2 ⟨by linarith [hn.l, hn.h], by linarith [hn.l, hn.h]⟩⟩
  obtain ⟨b1, d1⟩ := hb n1 (by norm_num) (by norm_num)
  obtain ⟨b2, d2⟩ := hb n2 (by norm_num) (by norm_num)
  replace s1 := s1 (by linarith [n1.h]) false (by
    rw [hcost _ _ _ (by linarith) (by linarith) (by linarith) (by linarith),
      hpar _ _ _ (by norm_num [start]) (by norm_num [start]) (by norm_num [start, abs_le]) (by norm_num [start]) (by norm_num [start]) (by norm_num [start, abs_le]) (by
        refine le_trans ?_ (le_abs_self _)
        have := n1.l
        simp only [start]
        linarith)]
    rfl)
  replace s2 := s2 (by linarith [n2.h]) false (by
    rw [hcost _ _ _ (by linarith) (by linarith) (by linarith) (by linarith),
      hpar _ _ _ (by linarith [n1.p]) (by linarith [n1.q]) (by linarith) (by linarith [n1.r]) (by linarith [n1.s]) (by linarith) (by
        refine le_trans ?_ (le_abs_self _)
        linarith [n1.h, n2.l])]
    rfl)
  replace s3 := s3 (by linarith [n3.h]) false (by
    rw [hcost _ _ _ (by linarith) (by linarith) (by linarith) (by linarith),
      hpar _ _ _ (by linarith [n2.p]) (by linarith [n2.q]) (by linarith) (by linarith [n2.r]) (by linarith [n2.s]) (by linarith) (by
        refine le_trans ?_ (le_abs_self _)
        linarith [n2.h, n3.l])]
    rfl)
  replace s4 := s4 (by linarith [n4.h]) true (by
    have h1 : costTest Criteria.defaults (e3.state next 3 false) (117 / 8 + e4.excess) = true := by
      unfold costTest
      refine decide_eq_true ?_
      simp only [Gap.state, Criteria.defaults]
      refine ⟨by linarith, ?_⟩
      rw [abs_of_nonpos (by linarith), div_lt_iff₀ (by linarith)]
      linarith
    rw [h1]; rfl)
  refine ⟨e4.at_ next, 2 + e4.p, 3 + e4.q, 19 / 4 + e4.b, 3 + e4.r, 2 + e4.s, 21 / 4 + e4.d, 117 / 8 + e1.excess, 117 / 8 + e2.excess,
    117 / 8 + e3.excess, 117 / 8 + e4.excess, fun fuel hfuel => ?_, rfl, Integration.getValue0 .., Integration.getValue1 .., ?_, ?_, ?_, ?_, ?_, ?_,
    by linarith, by linarith, by linarith, by linarith, by linarith, ?_, ?_⟩
  · have hu : ∀ (x : Assign ℝ), x.layout = lay next false → (x.map fin).updateStorageLayout CE (lay next false) = .ok (x.map fin) := by
      intro x hx
      have : (x.map fin).layout = lay next false := hx
      simp only [Assign.updateStorageLayout, this, Integration.lay_refl]
      rfl
    have hlay : gE.layout = lay next false := hl.layout
    refine baseSolve_some.2 ⟨_, (start.state next 0 false).map fin, (e4.state next 4 true).map fin,
      ((([] ++ [.iteration 0 (some 100) (fin (117 / 8 + start.excess)) none]) ++ [.iteration 1 (some 100) (fin (117 / 8 + e1.excess)) none]) ++
        [.iteration 2 (some 100) (fin (117 / 8 + e2.excess)) none]) ++ [.iteration 3 (some 100) (fin (117 / 8 + e3.excess)) none],
      by rw [hlay]; exact hu _ rfl, ?_, ?_, hu _ rfl, ?_⟩
    · rw [initState_ok]
      refine ⟨_, _, (hl.cost _).trans (by rw [ha, Gap.cost _ _ (by simp only [start]; norm_num)]; rfl), ?_⟩
      rw [ha]
      rfl
    · have hr := (Runs.refl ((start.state next 0 false).map fin)).step (done := fun s => (id s : State Ext).done) rfl s1
      have hr2 := ((hr.step rfl s2).step rfl s3).step rfl s4
      have := whileLoop_of_runs hr2 hfuel (whileLoop_done rfl)
      simpa using this
    · have hv : sE.verbose = true := hs.verbose
      rw [hv, hx0]
      have : (117 / 8 + 83 / 8 : ℝ) = 25 := by norm_num
      rw [this]
      rfl
  · rw [add_sub_cancel_left]; exact n4.p.trans (by norm_num)
  · rw [add_sub_cancel_left]; exact n4.q.trans (by norm_num)
  · rw [add_sub_cancel_left]
    have := abs_le.1 n4.b
    exact abs_le.2 ⟨by linarith [n4.l, n4.h], by linarith [n4.l, n4.h]⟩
  · rw [add_sub_cancel_left]; exact n4.r.trans (by norm_num)
  · rw [add_sub_cancel_left]; exact n4.s.trans (by norm_num)
  · rw [add_sub_cancel_left]
    exact abs_le.2 ⟨by linarith [n4.l, n4.h], by linarith [n4.l, n4.h]⟩
  · norm_num; linarith
  · have hnll : (G next).computeJointNll integrationFactorClasses integrationClasses (e4.at_ next) false = .ok (117 / 8 + e4.excess) := by
      rw [Gap.at_, Integration.nll_eq, abs_of_nonpos (by linarith [n4.h]), Gap.excess]
      congr 1
      ring
    unfold integrationAssert
    rw [Integration.nll_eq, hnll]
    simp only [py_bind_ok]
    rw [pyAssert, if_pos]
    rw [abs_of_neg (by norm_num)]
    norm_num
    linarith

/-- Non-vacuity: the initial values are values as in `C106_objective`; a new solver, and its lift, are as in `C106_solution`. -/
example (next : Nat) : ∃ g a, integrationProblem next = .ok (g, a) ∧ IsAssignmentOf integrationClasses (integrationVariables next) a ∧
    a.layout.localFlag = false ∧ a.getValue integrationClasses ⟨0, next⟩ = .ok (integrationValue 1 2 3) ∧
    a.getValue integrationClasses ⟨0, next + 1⟩ = .ok (integrationValue 1 2 3) ∧
    (∃ CE gE, Lifts CE gE integrationClasses (g.ops integrationFactorClasses integrationClasses)) ∧
    (∀ L, ∃ sE, LiftsGN sE (GaussNewton.defaults L)) := by
  have hlay : (at_ next 1 2 3 1 2 3).layout = Layout.make integrationClasses (integrationVariables next) false :=
    (Integration.lay_eq next false).symm
  exact ⟨_, _, Integration.problem_eq next, ⟨by simp [integrationVariables], hlay, rfl⟩, rfl, Integration.getValue0 .., Integration.getValue1 ..,
    ⟨_, _, lifts_lift _ _⟩, fun L => ⟨_, liftsGN_lift _⟩⟩

end Jaxfg.Props
