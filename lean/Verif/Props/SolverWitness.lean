/-
Counterexamples to C42, C43 and C47, with the default settings of the library where possible, and examples that meet the hypotheses
of the theorems in Verif.Props.SolverReal and Verif.Props.SolverSpecial. All use a graph with one scalar variable and one factor with
a polynomial residual of degree two and unit noise (Verif.Lemmas.ExamplePoly).
-/
import Verif.Lemmas.ExamplePoly
import Verif.Lemmas.ExampleDeriv
import Verif.Props.SolverReal
import Verif.Props.SolverSpecial

namespace Jaxfg.Props
open Ext (fin)
open Spec

namespace Poly1
open Jaxfg.Poly

variable (stale : Pattern → ScipyCoo ℝ → ℝ → List ℝ → Py (List ℝ)) (addr : Nat)

/-- Variable classes and graph on `Ext`. -/
noncomputable abbrev CE : Ty → VarClass Ext := fun t => (Ex.C t).lift
noncomputable abbrev gE (p q s : ℝ) : GraphOps Ext := ((g p q s).ops F Ex.C).lift

theorem lifts (p q s : ℝ) : Lifts CE (gE p q s) Ex.C ((g p q s).ops F Ex.C) := lifts_lift _ _

/-- A Levenberg-Marquardt step. -/
theorem lm_step (S : LevenbergMarquardt ℝ) (hS : S.linear = chol stale addr) (hf : S.lambdaFactor ≠ 0) (p q s : ℝ) (k : Nat)
    {v c r lam j d v' r' : ℝ} (dn : Bool) (hl : 0 ≤ lam) (hj : j = q + 2 * s * v) (hd : d = j * -r / (j ^ 2 + lam + 1 / 100000))
    (hv : v' = v + d) (hr : r' = p + q * v' + s * v' ^ 2) (acc : Bool)
    (hacc : acc = Scal.le (fin S.stepQualityMin) (fin (r' ^ 2 - c) / fin ((j * d + r) ^ 2 - c))) :
    ∃ conv log, S.lift.step CE (gE p q s) (LMState.map fin ⟨⟨k, at_ v, c, [r], dn⟩, lam⟩) =
      .ok (LMState.map fin ⟨⟨k + 1, if acc then at_ v' else at_ v, if acc then r' ^ 2 else c, [r'],
        decide (S.maxIterations - 1 ≤ (k : Int)) || (acc && conv)⟩, nextLambda S acc lam⟩, log) := by
  obtain ⟨conv, hconv⟩ := converged_ok S.toCriteria k v c [r] dn (r' ^ 2) [d] (j * -r)
  refine ⟨conv, _, (lmStep_fin (lifts p q s) (liftsLM_lift S) hf).2
    ⟨⟨[j], [0], [0], (1, 1)⟩, [j * -r], [d], at_ v', r' ^ 2, [r'], [j * d], acc, conv, ?_, ?_, ?_, ?_, ?_, ?_, rfl, ?_, hconv, rfl, rfl⟩⟩
  · rw [hj]; exact jac_eq p q s v r
  · exact matmul_T_eq j (-r)
  · rw [hS, hd]; exact chol_eq stale addr j _ lam hl k
  · rw [hv]; exact retract_eq v d
  · rw [hr]; exact cost_eq p q s v'
  · exact matmul_eq j d
  · rw [hacc]
    simp [predicted, sqNorm]

/-- A dogleg step. -/
theorem dogleg_step (S : Dogleg ℝ) (hS : S.linear = chol stale addr) (p q s : ℝ) (k : Nat)
    {v c r ρ j gn d v' r' : ℝ} (dn : Bool) (hj : j = q + 2 * s * v) (hgn : gn = j * -r / (j ^ 2 + 0 + 1 / 100000))
    (hd : doglegStep (Coo.map fin ⟨[j], [0], [0], (1, 1)⟩) [fin (j * -r)] [fin gn] (fin ρ) = .ok [fin d])
    (hv : v' = v + d) (hr : r' = p + q * v' + s * v' ^ 2) :
    ∃ conv log, S.lift.step CE (gE p q s) (DoglegState.map fin ⟨⟨k, at_ v, c, [r], dn⟩, ρ⟩) =
      .ok ((doglegNextReal S ⟨⟨k, at_ v, c, [r], dn⟩, ρ⟩ [d] (at_ v') (r' ^ 2) [r'] (fin (r' ^ 2 - c) / fin ((j * d + r) ^ 2 - c))
        (Scal.le (fin S.stepQualityMin) (fin (r' ^ 2 - c) / fin ((j * d + r) ^ 2 - c))) conv).map fin, log) := by
  obtain ⟨conv, hconv⟩ := converged_ok S.toCriteria k v c [r] dn (r' ^ 2) [d] (j * -r)
  have h1 : ((g p q s).ops F Ex.C).jacobian (at_ v) [r] = .ok ⟨[j], [0], [0], (1, 1)⟩ := by rw [hj]; exact jac_eq p q s v r
  have h2 : (Coo.T ⟨[j], [0], [0], (1, 1)⟩).matmul [-r] = .ok [j * -r] := matmul_T_eq j (-r)
  have h3 : S.linear ⟨[j], [0], [0], (1, 1)⟩ [j * -r] 0 k = .ok [gn] := by rw [hS, hgn]; exact chol_eq stale addr j _ 0 le_rfl k
  refine ⟨conv, _, (doglegSolverStep_fin (lifts p q s) (liftsDogleg_lift S) ?_).2
    ⟨⟨[j], [0], [0], (1, 1)⟩, [j * -r], [gn], [d], at_ v', r' ^ 2, [r'], [j * d], _, conv, h1, h2, h3, hd, ?_, ?_, ?_, rfl, rfl, hconv,
      ?_, rfl⟩⟩
  · intro A ATb gn' dE e1 e2 e3 e4
    have e1' : ((g p q s).ops F Ex.C).jacobian (at_ v) [r] = .ok A := e1
    rw [h1] at e1'
    cases Except.ok.inj e1'
    have e2' : (Coo.T ⟨[j], [0], [0], (1, 1)⟩).matmul [-r] = .ok ATb := e2
    rw [h2] at e2'
    cases Except.ok.inj e2'
    rw [show S.linear ⟨[j], [0], [0], (1, 1)⟩ [j * -r] 0 k = .ok [gn] from h3] at e3
    cases Except.ok.inj e3
    have e4' : doglegStep (Coo.map fin ⟨[j], [0], [0], (1, 1)⟩) [fin (j * -r)] [fin gn] (fin ρ) = .ok dE := e4
    rw [hd] at e4'
    exact ⟨[d], (Except.ok.inj e4').symm⟩
  · rw [hv]; exact retract_eq v d
  · rw [hr]; exact cost_eq p q s v'
  · exact matmul_eq j d
  · simp [predicted, sqNorm]

/-- A Gauss-Newton step. -/
theorem gn_step (S : GaussNewton ℝ) (hS : S.linear = chol stale addr) (p q s : ℝ) (k : Nat)
    {v c r j d v' r' : ℝ} (dn : Bool) (hj : j = q + 2 * s * v) (hd : d = -(j * r) / (j ^ 2 + 0 + 1 / 100000))
    (hv : v' = v + d) (hr : r' = p + q * v' + s * v' ^ 2) :
    ∃ conv log, convergedTest Ex.C S.toCriteria ⟨k, at_ v, c, [r], dn⟩ (r' ^ 2) [d] llay [-(j * r)] = .ok conv ∧
      S.lift.step CE (gE p q s) (State.map fin ⟨k, at_ v, c, [r], dn⟩) =
      .ok (State.map fin ⟨k + 1, at_ v', r' ^ 2, [r'], decide (S.maxIterations - 1 ≤ (k : Int)) || conv⟩, log) := by
  obtain ⟨conv, hconv⟩ := converged_ok S.toCriteria k v c [r] dn (r' ^ 2) [d] (-(j * r))
  refine ⟨conv, _, hconv, (gnStep_fin (lifts p q s) (liftsGN_lift S)).2
    ⟨⟨[j], [0], [0], (1, 1)⟩, [j * r], [d], at_ v', r' ^ 2, [r'], conv, ?_, ?_, ?_, ?_, ?_, hconv, rfl, rfl⟩⟩
  · rw [hj]; exact jac_eq p q s v r
  · exact matmul_T_eq j r
  · rw [hS, hd]; exact chol_eq stale addr j _ 0 le_rfl k
  · rw [hv]; exact retract_eq v d
  · rw [hr]; exact cost_eq p q s v'

/-- Two steps of Levenberg-Marquardt with default settings and CHOLMOD, for the residual `1 + x + s x²` with
`s = 1000 (1 + 5.1e-4)²`, from `x = 0`. -/
theorem lm_run : ∃ (s r : ℝ) (st1 st2 : LMState Ext) (l1 l2 : List (Msg Ext)) (c : ℝ),
    let S := LevenbergMarquardt.defaults (chol stale addr)
    let st0 : LMState Ext := LMState.map fin ⟨⟨0, at_ 0, 1, [1], false⟩, S.lambdaInitial⟩
    S.lift.init (gE 1 1 s) ((at_ 0).map fin) = .ok st0 ∧ S.lift.step CE (gE 1 1 s) st0 = .ok (st1, l1) ∧
      st1 = LMState.map fin ⟨⟨1, at_ 0, 1, [r], false⟩, 1 / 1000⟩ ∧ r ≠ 1 ∧
      S.lift.step CE (gE 1 1 s) st1 = .ok (st2, l2) ∧ st2.cost = fin c ∧ 1 < c := by
  refine ⟨1000 * (100051 / 100000) ^ 2, 1000 + 51 / 100051, ?_⟩
  set S := LevenbergMarquardt.defaults (chol stale addr) with hS
  set s : ℝ := 1000 * (100051 / 100000) ^ 2 with hs
  set R : ℝ := 1000 + 51 / 100051 with hR
  have hq : S.stepQualityMin = 1 / 1000 := rfl
  obtain ⟨conv1, log1, e1⟩ := lm_step stale addr S rfl (by show (2 : ℝ) ≠ 0; norm_num) 1 1 s 0 (v := 0) (c := 1) (r := 1)
    (lam := S.lambdaInitial) (j := 1) (d := -(100000 / 100051)) (v' := -(100000 / 100051)) (r' := R) false
    (by show (0 : ℝ) ≤ 1 / 2000; norm_num) (by ring) (by show _ = 1 * -1 / (1 ^ 2 + 1 / 2000 + 1 / 100000); norm_num)
    (by norm_num) (by rw [hs, hR]; norm_num) false (by
      symm; rw [← Bool.not_eq_true, accept_fin, hq, hR]
      norm_num)
  have hlam : nextLambda S false S.lambdaInitial = 1 / 1000 := by
    show max (1 / 100000 : ℝ) (min (1 / 2000 * 2) 10000000000) = 1 / 1000
    norm_num
  rw [hlam] at e1
  obtain ⟨conv2, log2, e2⟩ := lm_step stale addr S rfl (by show (2 : ℝ) ≠ 0; norm_num) 1 1 s 1 (v := 0) (c := 1) (r := R)
    (lam := 1 / 1000) (j := 1) (d := -(R * (100000 / 100101))) (v' := -(R * (100000 / 100101)))
    (r' := 1 + 1 * -(R * (100000 / 100101)) + s * (-(R * (100000 / 100101))) ^ 2) false
    (by norm_num) (by ring) (by ring) (by norm_num) rfl true (by
      symm; rw [accept_fin, hq, hR, hs]
      left
      norm_num)
  refine ⟨_, _, _, _, (1 + 1 * -(R * (100000 / 100101)) + s * (-(R * (100000 / 100101))) ^ 2) ^ 2, ?_, e1, ?_, ?_, e2, ?_, ?_⟩
  · refine (lmInit_fin (lifts 1 1 s) (liftsLM_lift S)).2 ⟨1, [1], ?_, rfl⟩
    rw [cost_eq]; norm_num
  · rfl
  · rw [hR]; norm_num
  · rfl
  · rw [hR, hs]; norm_num

/-- Two dogleg steps with default settings and CHOLMOD, for the residual `1 + x + s x²` with `s = 5 (1 + 1e-5)²`, from `x = 0`. -/
theorem dogleg_run : ∃ (s r : ℝ) (st1 st2 : DoglegState Ext) (l1 l2 : List (Msg Ext)) (c : ℝ),
    let S := Dogleg.defaults (chol stale addr)
    let st0 : DoglegState Ext := DoglegState.map fin ⟨⟨0, at_ 0, 1, [1], false⟩, S.radiusInitial⟩
    S.lift.init (gE 1 1 s) ((at_ 0).map fin) = .ok st0 ∧ S.lift.step CE (gE 1 1 s) st0 = .ok (st1, l1) ∧
      st1 = DoglegState.map fin ⟨⟨1, at_ 0, 1, [r], false⟩, 1 / 2⟩ ∧ r ≠ 1 ∧
      S.lift.step CE (gE 1 1 s) st1 = .ok (st2, l2) ∧ st2.cost = fin c ∧ 1 < c := by
  refine ⟨5 * (100001 / 100000) ^ 2, 5 + 1 / 100001, ?_⟩
  set S := Dogleg.defaults (chol stale addr) with hS
  set s : ℝ := 5 * (100001 / 100000) ^ 2 with hs
  set R : ℝ := 5 + 1 / 100001 with hR
  have hq : S.stepQualityMin = 1 / 1000 := rfl
  have hRp : 0 < R := by rw [hR]; norm_num
  have nrm1 : ∀ y : ℝ, nrm [y] = |y| := by
    intro y
    unfold nrm sqNorm
    simp [Real.sqrt_sq_eq_abs]
  have hd1 : doglegStep (Coo.map fin ⟨[1], [0], [0], (1, 1)⟩) [fin (1 * -1)] [fin (-(100000 / 100001))] (fin S.radiusInitial) =
      .ok [fin (-(100000 / 100001))] := by
    have := (doglegStep_fin (coo_wf 1) (r := [1]) (b := [1 * -1]) (gn := [-(100000 / 100001)]) (matmul_T_eq 1 (-1)) rfl
      (ρ := S.radiusInitial) (by show (0 : ℝ) < 1; norm_num)).1 (by
        rw [nrm1]; show |(-(100000 / 100001) : ℝ)| ≤ 1; rw [abs_neg, abs_of_pos] <;> norm_num)
    exact this
  obtain ⟨conv1, log1, e1⟩ := dogleg_step stale addr S rfl 1 1 s 0 (v := 0) (c := 1) (r := 1)
    (ρ := S.radiusInitial) (j := 1) (gn := -(100000 / 100001)) (d := -(100000 / 100001)) (v' := -(100000 / 100001)) (r' := R) false
    (by ring) (by norm_num) hd1 (by norm_num) (by rw [hs, hR]; norm_num)
  have hacc1 : Scal.le (fin S.stepQualityMin) (fin (R ^ 2 - 1) / fin ((1 * -(100000 / 100001) + 1) ^ 2 - 1)) = false := by
    rw [← Bool.not_eq_true, accept_fin, hq, hR]
    norm_num
  have hrad : nextRadius (fin (R ^ 2 - 1) / fin ((1 * -(100000 / 100001) + 1) ^ 2 - 1)) S.radiusInitial [-(100000 / 100001)] = 1 / 2 := by
    unfold nextRadius
    rw [if_pos]
    · rfl
    · rw [fin_div (by norm_num), fin_lt, hR]
      norm_num
  have e1' : S.lift.step CE (gE 1 1 s) (DoglegState.map fin ⟨⟨0, at_ 0, 1, [1], false⟩, S.radiusInitial⟩) =
      .ok (DoglegState.map fin ⟨⟨1, at_ 0, 1, [R], false⟩, 1 / 2⟩, log1) := by
    rw [e1, hacc1]
    unfold doglegNextReal
    simp only [hrad]
    rfl
  have hd2 : doglegStep (Coo.map fin ⟨[1], [0], [0], (1, 1)⟩) [fin (1 * -R)] [fin (-(R * (100000 / 100001)))] (fin (1 / 2)) =
      .ok [fin (-(1 / 2))] := by
    have hn : 1 / 2 < nrm [-(R * (100000 / 100001))] := by
      rw [nrm1, abs_neg, abs_of_pos (by positivity), hR]; norm_num
    have hm : cooMatrix (⟨[1], [0], [0], (1, 1)⟩ : Coo ℝ) 1 1 0 0 = 1 := by
      simp [cooMatrix, entries]
    have hdes : descent (cooMatrix (⟨[1], [0], [0], (1, 1)⟩ : Coo ℝ) 1 1) (Spec.vec [R] 1) = fun _ => -R := by
      funext i
      fin_cases i
      simp only [descent, Matrix.mulVec, dotProduct, Fin.sum_univ_one, Matrix.transpose_apply, Fin.zero_eta, hm, Pi.neg_apply, one_mul]
      rfl
    have hfit := (doglegStep_fin (coo_wf 1) (r := [R]) (b := [1 * -R]) (gn := [-(R * (100000 / 100001))]) (matmul_T_eq 1 (-R)) rfl
      (ρ := 1 / 2) (by norm_num)).2 hn (by
        intro h0
        have h0' : (fun _ : Fin 1 => -R) = 0 := hdes.symm.trans h0
        have := congrFun h0' 0
        simp at this
        exact hRp.ne' this)
    obtain ⟨d, h1, h2, h3, h4⟩ := hfit
    match d, h2 with
    | [y], _ =>
      rw [nrm1] at h3
      have hy : y < 0 ∨ y = -(1 / 2) := by
        left
        have key : ((fun _ : Fin 1 => -R) ⬝ᵥ (fun _ : Fin 1 => -R)) /
          ((cooMatrix (⟨[1], [0], [0], (1, 1)⟩ : Coo ℝ) 1 1).mulVec (fun _ : Fin 1 => -R) ⬝ᵥ
            (cooMatrix (⟨[1], [0], [0], (1, 1)⟩ : Coo ℝ) 1 1).mulVec (fun _ : Fin 1 => -R)) = 1 := by
          simp only [Matrix.mulVec, dotProduct, Fin.sum_univ_one, hm, one_mul]
          exact div_self (by positivity)
        rcases h4 with ⟨t, t1, t2, t3⟩ | ⟨t, t1, t2, t3⟩
        · have t4 : Spec.vec [y] 1 = t • ((_ / _ : ℝ) • descent (cooMatrix (⟨[1], [0], [0], (1, 1)⟩ : Coo ℝ) 1 1) (Spec.vec [R] 1)) := t3
          rw [hdes, key] at t4
          have := congrFun t4 0
          have e : y = t * (1 * -R) := this
          nlinarith
        · have t4 : Spec.vec [y] 1 = ((_ / _ : ℝ) • descent (cooMatrix (⟨[1], [0], [0], (1, 1)⟩ : Coo ℝ) 1 1) (Spec.vec [R] 1)) +
            t • (Spec.vec [-(R * (100000 / 100001))] 1 -
              ((_ / _ : ℝ) • descent (cooMatrix (⟨[1], [0], [0], (1, 1)⟩ : Coo ℝ) 1 1) (Spec.vec [R] 1))) := t3
          rw [hdes, key] at t4
          have := congrFun t4 0
          have e : y = 1 * -R + t * (-(R * (100000 / 100001)) - 1 * -R) := this
          rw [e]
          have : 0 ≤ (1 - t) * (R - R * (100000 / 100001)) := mul_nonneg (by linarith) (by nlinarith)
          nlinarith
      have hy2 : y = -(1 / 2) := by
        rcases hy with hy | hy
        · rw [abs_of_neg hy] at h3; linarith
        · exact hy
      rw [hy2] at h1
      exact h1
  obtain ⟨conv2, log2, e2⟩ := dogleg_step stale addr S rfl 1 1 s 1 (v := 0) (c := 1) (r := R)
    (ρ := 1 / 2) (j := 1) (gn := -(R * (100000 / 100001))) (d := -(1 / 2)) (v' := -(1 / 2)) (r' := 1 / 2 + s / 4) false
    (by ring) (by ring) hd2 (by norm_num) (by ring)
  have hacc2 : Scal.le (fin S.stepQualityMin) (fin ((1 / 2 + s / 4) ^ 2 - 1) / fin ((1 * -(1 / 2) + R) ^ 2 - 1)) = true := by
    rw [accept_fin, hq, hR, hs]
    left
    norm_num
  rw [hacc2] at e2
  refine ⟨_, _, _, _, (1 / 2 + s / 4) ^ 2, ?_, e1', rfl, ?_, e2, rfl, ?_⟩
  · refine (doglegInit_fin (lifts 1 1 s) (liftsDogleg_lift S)).2 ⟨1, [1], ?_, rfl⟩
    rw [cost_eq]; norm_num
  · rw [hR]; norm_num
  · rw [hs]; norm_num

end Poly1

open Poly1
open Jaxfg.Poly (F f g at_ chol)

section
variable (stale : Pattern → ScipyCoo ℝ → ℝ → List ℝ → Py (List ℝ)) (addr : Nat)

/-- **C42** is false for Levenberg-Marquardt with default settings: there are a graph with one variable and one (well-formed) factor,
and initial assignments, such that after one step, which is rejected, the recorded residual, which the next step uses, is not that
of the recorded assignments. -/
theorem C42_stale_residual : ∃ fs G a st st' log,
    let S := LevenbergMarquardt.defaults (chol stale addr)
    (∀ f ∈ fs, FactorWF F Ex.C f) ∧ Graph.make Ex.C fs = .ok G ∧ IsAssignmentOf Ex.C (Graph.variablesOf fs) a ∧
      S.lift.init (G.ops F Ex.C).lift (a.map fin) = .ok st ∧
      Runs (fun s => s.done) (S.lift.step CE (G.ops F Ex.C).lift) 1 st st' log ∧ st'.done = false ∧
      ∃ c r, (G.ops F Ex.C).lift.computeCost st'.assignments = .ok (c, r) ∧ st'.cost = c ∧ st'.residual ≠ r := by
  obtain ⟨s, r, st1, st2, l1, l2, c, h1, h2, rfl, h4, -⟩ := lm_run stale addr
  refine ⟨[f 1 1 s], g 1 1 s, at_ 0, _, _, _, ?_, Jaxfg.Poly.make_eq 1 1 s, Jaxfg.Poly.at_assignment 0, h1, .step (.refl _) rfl h2, rfl,
    fin 1, [fin 1], ?_, rfl, ?_⟩
  · simpa using Jaxfg.Poly.f_wf 1 1 s
  · refine ((lifts 1 1 s).cost (at_ 0)).trans ?_
    rw [Jaxfg.Poly.cost_eq]
    simp [Except.map]
  · intro h
    have h' : [fin r] = [fin 1] := h
    exact h4 (fin_injective (List.cons.inj h').1)

/-- **C42** is false for dogleg with default settings, in the same way. -/
theorem C42_stale_residual_dogleg : ∃ fs G a st st' log,
    let S := Dogleg.defaults (chol stale addr)
    (∀ f ∈ fs, FactorWF F Ex.C f) ∧ Graph.make Ex.C fs = .ok G ∧ IsAssignmentOf Ex.C (Graph.variablesOf fs) a ∧
      S.lift.init (G.ops F Ex.C).lift (a.map fin) = .ok st ∧
      Runs (fun s => s.done) (S.lift.step CE (G.ops F Ex.C).lift) 1 st st' log ∧ st'.done = false ∧
      ∃ c r, (G.ops F Ex.C).lift.computeCost st'.assignments = .ok (c, r) ∧ st'.cost = c ∧ st'.residual ≠ r := by
  obtain ⟨s, r, st1, st2, l1, l2, c, h1, h2, rfl, h4, -⟩ := dogleg_run stale addr
  refine ⟨[f 1 1 s], g 1 1 s, at_ 0, _, _, _, ?_, Jaxfg.Poly.make_eq 1 1 s, Jaxfg.Poly.at_assignment 0, h1, .step (.refl _) rfl h2, rfl,
    fin 1, [fin 1], ?_, rfl, ?_⟩
  · simpa using Jaxfg.Poly.f_wf 1 1 s
  · refine ((lifts 1 1 s).cost (at_ 0)).trans ?_
    rw [Jaxfg.Poly.cost_eq]
    simp [Except.map]
  · intro h
    have h' : [fin r] = [fin 1] := h
    exact h4 (fin_injective (List.cons.inj h').1)

/-- **C43** is false for Levenberg-Marquardt with default settings and CHOLMOD: there is a graph with one variable and one
well-formed factor where the cost is 1 at the start and larger after two iterations. -/
theorem C43_levenberg_marquardt_increases : ∃ fs G a st st' log c,
    let S := LevenbergMarquardt.defaults (chol stale addr)
    (∀ f ∈ fs, FactorWF F Ex.C f) ∧ Graph.make Ex.C fs = .ok G ∧ IsAssignmentOf Ex.C (Graph.variablesOf fs) a ∧
      S.lift.init (G.ops F Ex.C).lift (a.map fin) = .ok st ∧
      Runs (fun s => s.done) (S.lift.step CE (G.ops F Ex.C).lift) 2 st st' log ∧ st.cost = fin 1 ∧ st'.cost = fin c ∧ 1 < c := by
  obtain ⟨s, r, st1, st2, l1, l2, c, h1, h2, rfl, h4, h5, h6, h7⟩ := lm_run stale addr
  exact ⟨[f 1 1 s], g 1 1 s, at_ 0, _, _, _, c, by simpa using Jaxfg.Poly.f_wf 1 1 s, Jaxfg.Poly.make_eq 1 1 s,
    Jaxfg.Poly.at_assignment 0, h1, .step (.step (.refl _) rfl h2) rfl h5, rfl, h6, h7⟩

/-- **C43** is false for dogleg with default settings and CHOLMOD. -/
theorem C43_dogleg_increases : ∃ fs G a st st' log c,
    let S := Dogleg.defaults (chol stale addr)
    (∀ f ∈ fs, FactorWF F Ex.C f) ∧ Graph.make Ex.C fs = .ok G ∧ IsAssignmentOf Ex.C (Graph.variablesOf fs) a ∧
      S.lift.init (G.ops F Ex.C).lift (a.map fin) = .ok st ∧
      Runs (fun s => s.done) (S.lift.step CE (G.ops F Ex.C).lift) 2 st st' log ∧ st.cost = fin 1 ∧ st'.cost = fin c ∧ 1 < c := by
  obtain ⟨s, r, st1, st2, l1, l2, c, h1, h2, rfl, h4, h5, h6, h7⟩ := dogleg_run stale addr
  exact ⟨[f 1 1 s], g 1 1 s, at_ 0, _, _, _, c, by simpa using Jaxfg.Poly.f_wf 1 1 s, Jaxfg.Poly.make_eq 1 1 s,
    Jaxfg.Poly.at_assignment 0, h1, .step (.step (.refl _) rfl h2) rfl h5, rfl, h6, h7⟩

/-- Default settings with the gradient test switched on from the first step. -/
noncomputable def eager : GaussNewton ℝ := { GaussNewton.defaults (chol stale addr) with gradientToleranceStartStep := 0 }

/-- **C47** is false: Gauss-Newton with default settings, except that the gradient test is on from the first step, stops after its
first step although the cost has grown from 1 to more than 3 (relative change over the tolerance), the gradient `Aᵀr` has absolute
value 1 (over the tolerance), and the step is longer than the parameter tolerance allows. -/
theorem C47_signed_gradient : ∃ fs G a st st' log A c c' d,
    (∀ f ∈ fs, FactorWF F Ex.C f) ∧ Graph.make Ex.C fs = .ok G ∧ IsAssignmentOf Ex.C (Graph.variablesOf fs) a ∧
      (G.ops F Ex.C).computeCost a = .ok (c, [-1]) ∧ (G.ops F Ex.C).jacobian a [-1] = .ok A ∧
      A.T.matmul [-1] = .ok [-1] ∧ (eager stale addr).linear A [1] 0 0 = .ok [d] ∧
      initState (G.ops F Ex.C).lift (a.map fin) = .ok st ∧ (eager stale addr).lift.step CE (G.ops F Ex.C).lift st = .ok (st', log) ∧
      st'.cost = fin c' ∧ st'.iterations < (eager stale addr).maxIterations ∧
      ¬ |c' - c| / c < (eager stale addr).costTolerance ∧ ¬ |(-1 : ℝ)| < (eager stale addr).gradientTolerance ∧
      ¬ √(sqNorm [d]) < (√(sqNorm a.storage) + (eager stale addr).parameterTolerance) * (eager stale addr).parameterTolerance ∧
      st'.done = true := by
  obtain ⟨conv, log, h1, h2⟩ := gn_step stale addr (eager stale addr) rfl (-1) 1 2 0 (v := 0) (c := 1) (r := -1) (j := 1)
    (d := 100000 / 100001) (v' := 100000 / 100001) (r' := -1 + 1 * (100000 / 100001) + 2 * (100000 / 100001) ^ 2) false
    (by ring) (by norm_num) (by norm_num) rfl
  refine ⟨[f (-1) 1 2], g (-1) 1 2, at_ 0, _, _, _, ⟨[1], [0], [0], (1, 1)⟩, 1, _, 100000 / 100001,
    by simpa using Jaxfg.Poly.f_wf (-1) 1 2, Jaxfg.Poly.make_eq _ _ _, Jaxfg.Poly.at_assignment 0, ?_, ?_, ?_, ?_,
    (initState_fin (lifts (-1) 1 2)).2 ⟨1, [-1], ?_, rfl⟩, h2, rfl, ?_, ?_, ?_, ?_, ?_⟩
  · rw [Jaxfg.Poly.cost_eq]; norm_num
  · rw [Jaxfg.Poly.jac_eq]; norm_num
  · rw [Jaxfg.Poly.matmul_T_eq]; norm_num
  · refine (Jaxfg.Poly.chol_eq stale addr 1 1 0 le_rfl 0).trans ?_
    norm_num
  · rw [Jaxfg.Poly.cost_eq]; norm_num
  · show ((0 + 1 : Nat) : Int) < 100; norm_num
  · show ¬ _ < (1 / 100000 : ℝ)
    rw [abs_of_pos] <;> norm_num
  · show ¬ _ < (1 / 1000000000 : ℝ); norm_num
  · show ¬ _ < (_ + (1 / 10000000 : ℝ)) * (1 / 10000000)
    have e1 : sqNorm (at_ 0).storage = 0 := by simp [at_, sqNorm]
    have e2 : sqNorm [(100000 / 100001 : ℝ)] = (100000 / 100001) ^ 2 := by simp [sqNorm]
    rw [e1, e2, Real.sqrt_zero, Real.sqrt_sq (by norm_num)]
    norm_num
  · show (decide ((100 : Int) - 1 ≤ ((0 : Nat) : Int)) || conv) = true
    have hc := (convergedTest_ok h1).2 (Or.inr (Or.inl ?_))
    · rw [hc]; rfl
    · refine ⟨by show (0 : Int) ≤ ((0 : Nat) : Int); decide, at_ (0 + -(1 * -1)), rfl, ?_⟩
      intro y hy
      have hy' : y = 0 - (0 + -(1 * -1)) := by simpa [at_] using hy
      show y < 1 / 1000000000
      rw [hy']; norm_num

end

/-! ### Examples for the theorems about solvers -/

section
variable (stale : Pattern → ScipyCoo ℝ → ℝ → List ℝ → Py (List ℝ)) (addr : Nat)

/-- The hypotheses of `C43_levenberg_marquardt_partial` and `C47_levenberg_marquardt_partial` can be met: `1 + x + s x²` for every
`s`, default settings. -/
example (s : ℝ) : SaneGraph Ex.C ((g 1 1 s).ops F Ex.C) [Ex.x] ∧ ZeroRetract Ex.C ∧
    LiftsLM (LevenbergMarquardt.defaults (chol stale addr)).lift (LevenbergMarquardt.defaults (chol stale addr)) ∧
    AllJacobians Ex.C ((g 1 1 s).ops F Ex.C) [Ex.x] (SolvesRegular (LevenbergMarquardt.defaults (chol stale addr)).linear) ∧
    ∃ st, (LevenbergMarquardt.defaults (chol stale addr)).lift.init (gE 1 1 s) ((at_ 0).map fin) = .ok st :=
  ⟨Jaxfg.Poly.sane 1 1 s, Jaxfg.Poly.zeroRetract, liftsLM_lift _, cholmod_graph (Jaxfg.Poly.sane 1 1 s) stale addr,
    _, (lmInit_fin (lifts 1 1 s) (liftsLM_lift _)).2 ⟨_, _, Jaxfg.Poly.cost_eq _ _ _ _, rfl⟩⟩

/-- The hypotheses of `C43_dogleg_partial`, `C46_radius` and `C47_dogleg_partial`. -/
example (s : ℝ) : SaneGraph Ex.C ((g 1 1 s).ops F Ex.C) [Ex.x] ∧ ZeroRetract Ex.C ∧
    LiftsDogleg (Dogleg.defaults (chol stale addr)).lift (Dogleg.defaults (chol stale addr)) ∧
    ZeroAtZero (Dogleg.defaults (chol stale addr)).linear ∧
    AllJacobians Ex.C ((g 1 1 s).ops F Ex.C) [Ex.x] (SolvesRegular (Dogleg.defaults (chol stale addr)).linear) ∧
    ∃ st, (Dogleg.defaults (chol stale addr)).lift.init (gE 1 1 s) ((at_ 0).map fin) = .ok st :=
  ⟨Jaxfg.Poly.sane 1 1 s, Jaxfg.Poly.zeroRetract, liftsDogleg_lift _, cholmod_zeroAtZero stale addr,
    cholmod_graph (Jaxfg.Poly.sane 1 1 s) stale addr,
    _, (doglegInit_fin (lifts 1 1 s) (liftsDogleg_lift _)).2 ⟨_, _, Jaxfg.Poly.cost_eq _ _ _ _, rfl⟩⟩

/-- `C48`: `x = 0` is a stationary point of `1 + x²`, with cost 1 and Jacobian 0; the three solvers with CHOLMOD and default settings
return it. -/
example (fuel : Nat) (hf : 100 ≤ fuel) :
    (∃ log, (GaussNewton.defaults (chol stale addr)).lift.solve CE (gE 1 0 1) fuel ((at_ 0).map fin) = .ok (some ((at_ 0).map fin, log))) ∧
    (∃ log, (LevenbergMarquardt.defaults (chol stale addr)).lift.solve CE (gE 1 0 1) fuel ((at_ 0).map fin) =
      .ok (some ((at_ 0).map fin, log))) ∧
    ∃ log, (Dogleg.defaults (chol stale addr)).lift.solve CE (gE 1 0 1) fuel ((at_ 0).map fin) = .ok (some ((at_ 0).map fin, log)) := by
  have hrest : AtRest ((g 1 0 1).ops F Ex.C) (at_ 0) ((1 + 0 * 0 + 1 * 0 ^ 2) ^ 2) [1 + 0 * 0 + 1 * 0 ^ 2] ⟨[0 + 2 * 1 * 0], [0], [0], (1, 1)⟩ :=
    ⟨Jaxfg.Poly.cost_eq _ _ _ _, Jaxfg.Poly.jac_eq _ _ _ _ _, _, Jaxfg.Poly.matmul_T_eq _ _, by simp⟩
  obtain ⟨h1, h2⟩ := cholmod_regular stale .empty addr (Jaxfg.Poly.coo_wf (0 + 2 * 1 * 0)) (fun p hp => by cases hp)
  have hpos : ∀ t, 0 < (Ex.C t).paramDim := fun t => by rw [Ex.paramDim]; omega
  have hb : (at_ 0).updateStorageLayout Ex.C ((g 1 0 1).ops F Ex.C).layout = .ok (at_ 0) := rfl
  refine ⟨?_, ?_, ?_⟩
  · exact ⟨_, (C48_gauss_newton (lifts 1 0 1) (Jaxfg.Poly.sane 1 0 1) Jaxfg.Poly.zeroRetract (liftsGN_lift _)
      (by show (0 : ℝ) < 1 / 10000000; norm_num) (Jaxfg.Poly.at_assignment 0) (fun v => Iff.rfl) hpos (by simp) hb hrest h1 h2 fuel).trans
      (by rw [if_neg (by omega)])⟩
  · obtain ⟨log, hlog⟩ := C48_levenberg_marquardt (lifts 1 0 1) (Jaxfg.Poly.sane 1 0 1) Jaxfg.Poly.zeroRetract
      (liftsLM_lift (LevenbergMarquardt.defaults (chol stale addr)))
      (by show (0 : ℝ) < 1 / 2000; norm_num) (by show (1 : ℝ) ≤ 2; norm_num) (by show (0 : ℝ) < 1 / 100000; norm_num)
      (Jaxfg.Poly.at_assignment 0) (fun v => Iff.rfl) hpos (by simp) hb hrest h1 h2
    exact ⟨_, (hlog fuel).trans (by rw [if_neg (by show ¬ (fuel : Int) < max 1 100; omega)])⟩
  · obtain ⟨log, hlog⟩ := C48_dogleg (lifts 1 0 1) (Jaxfg.Poly.sane 1 0 1) Jaxfg.Poly.zeroRetract
      (liftsDogleg_lift (Dogleg.defaults (chol stale addr)))
      (by show (0 : ℝ) < 1; norm_num)
      (Jaxfg.Poly.at_assignment 0) (fun v => Iff.rfl) hpos (by simp) hb hrest h1 h2
    exact ⟨_, (hlog fuel).trans (by rw [if_neg (by show ¬ (fuel : Int) < max 1 100; omega)])⟩

/-- Assignments in the order of the graph. -/
theorem at_of {a : Assign ℝ} (h : IsAssignmentOf Ex.C [Ex.x] a) (hl : a.layout = Jaxfg.Poly.lay) : ∃ v, a = at_ v := by
  have h2 := h.2.2
  rw [hl] at h2
  have h3 : a.storage.length = 1 := h2
  match hs : a.storage, h3 with
  | [v], _ => exact ⟨v, by cases a; simp_all [at_]⟩

/-- The residual `p + q x` is affine. -/
theorem affine (p q : ℝ) : AffineGraph Ex.C ((g p q 0).ops F Ex.C) [Ex.x] := by
  have haff : AffineFactor F Ex.C (f p q 0) := by
    have hd : rdim (f p q 0) = 1 := noiseDim_eq (show NoiseWF (f p q 0).noise 1 1 from ⟨⟨rfl, rfl⟩, rfl⟩)
    intro vals δs hv hδ
    generalize rdim _ = n at hd ⊢
    subst hd
    match vals, hv, δs, hδ with
    | [x0], .cons h1 .nil, [d], .cons h3 .nil =>
      funext i
      obtain ⟨e1, e2⟩ := Ex.retract_entry h1 (d := d) (by rw [h3, Ex.localDim]) (i := 0) (by omega)
      have hm : (arrMat (⟨[1, 1], [q + 2 * 0 * x0.flatten.getD 0 0]⟩ : Arr ℝ) 1 1).mulVec (Spec.vec d 1) 0 = q * d.getD 0 0 := by
        simp [Matrix.mulVec, dotProduct, arrMat, Spec.vec]
      rw [Subsingleton.elim i 0]
      show p + q * ((Ex.C 0).retract x0 d).flatten.getD 0 0 + 0 * ((Ex.C 0).retract x0 d).flatten.getD 0 0 ^ 2 =
        (p + q * x0.flatten.getD 0 0 + 0 * x0.flatten.getD 0 0 ^ 2) +
          ((arrMat (⟨[1, 1], [q + 2 * 0 * x0.flatten.getD 0 0]⟩ : Arr ℝ) 1 1).mulVec (Spec.vec d 1) + 0) 0
      rw [Pi.add_apply, hm]
      have e2' : ((Ex.C 0).retract x0 d).flatten.getD 0 0 = x0.flatten.getD 0 0 + d.getD 0 0 := e2
      rw [e2']
      simp only [Pi.zero_apply]
      ring
  exact affine_graph Ex.good (fs := [f p q 0]) (by simpa using Jaxfg.Poly.f_wf p q 0) (by simp) (by simp [f, NoiseGaussian]) (by simpa using haff)
      (Jaxfg.Poly.make_eq p q 0)

/-- `C50`: the residual `p + q x` with `q ≠ 0`, and conjugate gradients with tolerance zero. Every execution of Gauss-Newton, with any
criteria, is at the minimum of the cost after one or more steps. -/
example (p q : ℝ) (hq : q ≠ 0) (t : Criteria ℝ) (v : ℝ) (k : Nat) {st st' : State Ext} {log : List (Msg Ext)}
    (hi : initState (gE p q 0) ((at_ v).map fin) = .ok st)
    (hr : Runs (fun s => s.done) ((GaussNewton.lift { t with verbose := true, linear := fun A b l _ => cgSolve A b l 0 }).step CE (gE p q 0))
      (k + 1) st st' log) :
    ∃ (b : Assign ℝ) (c : ℝ) (r : List ℝ), st'.assignments = b.map fin ∧ st'.cost = fin c ∧
      ((g p q 0).ops F Ex.C).computeCost b = .ok (c, r) ∧
      ∀ e c' r', IsAssignmentOf Ex.C [Ex.x] e → e.layout = Jaxfg.Poly.lay → ((g p q 0).ops F Ex.C).computeCost e = .ok (c', r') → c ≤ c' := by
  have hA := affine p q
  have hL : AllJacobians Ex.C ((g p q 0).ops F Ex.C) [Ex.x] (SolvesNormal fun A b l _ => cgSolve A b l 0) := by
    intro a a' c r A h1 h2 h3 h4 h5 h6
    obtain ⟨v, rfl⟩ := at_of h1 h2
    obtain ⟨v', rfl⟩ := at_of h3 h4
    rw [Jaxfg.Poly.cost_eq] at h5
    obtain ⟨-, rfl⟩ := Prod.mk.inj (Except.ok.inj h5)
    rw [Jaxfg.Poly.jac_eq] at h6
    cases Except.ok.inj h6
    refine (cg_regular (Jaxfg.Poly.coo_wf _) (by simp) ?_).2.1
    intro y hy
    have hy0 := congrFun hy 0
    have hm : cooMatrix (⟨[q + 2 * 0 * v], [0], [0], (1, 1)⟩ : Coo ℝ) 1 1 0 0 = q := by
      simp [cooMatrix, entries]
    have hy1 : cooMatrix (⟨[q + 2 * 0 * v], [0], [0], (1, 1)⟩ : Coo ℝ) 1 1 0 0 * y 0 = 0 := by
      simpa [Matrix.mulVec, dotProduct] using hy0
    rw [hm] at hy1
    funext i
    rw [Subsingleton.elim i 0]
    exact (mul_eq_zero.1 hy1).resolve_left hq
  exact C50_gauss_newton (lifts p q 0) (Jaxfg.Poly.sane p q 0) hA (fun v _ => rfl) (liftsGN_lift _) hL
    (Jaxfg.Poly.at_assignment v) rfl hi hr

end

end Jaxfg.Props
