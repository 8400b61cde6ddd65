/- Two problems on which the solvers take corresponding steps. -/
import Verif.Lemmas.SolverRuns
import Verif.Lemmas.SolverSolve
import Verif.Lemmas.DoglegStep
import Verif.Lemmas.Stationary

namespace Jaxfg
open Spec
open Ext (fin)

/-! ### Loops -/

section
variable {S : Type} {σ σ' : Type}

theorem whileLoop_sim {done : σ → Bool} {done' : σ' → Bool} {step : σ → Py (σ × List (Msg S))} {step' : σ' → Py (σ' × List (Msg S))}
    {Rel : σ → σ' → Prop} (hd : ∀ {s s'}, Rel s s' → done' s' = done s)
    (hs : ∀ {s s' t l}, Rel s s' → done s = false → step s = .ok (t, l) → ∃ t', step' s' = .ok (t', l) ∧ Rel t t') :
    ∀ (fuel : Nat) {s s' t l}, Rel s s' → whileLoop done step fuel s = .ok (some (t, l)) →
      ∃ t', whileLoop done' step' fuel s' = .ok (some (t', l)) ∧ Rel t t' := by
  intro fuel
  induction fuel with
  | zero =>
    intro s s' t l hr h
    unfold whileLoop at h ⊢
    rw [hd hr]
    cases hds : done s with
    | true =>
      simp only [hds, if_true, Except.ok.injEq, Option.some.injEq, Prod.mk.injEq] at h
      obtain ⟨rfl, rfl⟩ := h
      exact ⟨s', rfl, hr⟩
    | false => simp [hds] at h
  | succ fuel ih =>
    intro s s' t l hr h
    unfold whileLoop at h ⊢
    rw [hd hr]
    cases hds : done s with
    | true =>
      simp only [hds, if_true, Except.ok.injEq, Option.some.injEq, Prod.mk.injEq] at h
      obtain ⟨rfl, rfl⟩ := h
      exact ⟨s', rfl, hr⟩
    | false =>
      simp only [hds, Bool.false_eq_true, if_false, py_bind_eq_ok, py_return_eq_ok] at h ⊢
      obtain ⟨⟨u, l1⟩, h1, r, h2, h3⟩ := h
      cases r with
      | none => simp at h3
      | some p =>
        obtain ⟨w, l2⟩ := p
        simp only [Option.map_some, Option.some.injEq, Prod.mk.injEq] at h3
        obtain ⟨rfl, rfl⟩ := h3
        obtain ⟨u', h4, h5⟩ := hs hr hds h1
        obtain ⟨t', h6, h7⟩ := ih h5 h2
        exact ⟨t', ⟨(u', l1), h4, _, h6, rfl⟩, h7⟩

theorem forLoop_sim {step : σ → Py (σ × List (Msg S))} {step' : σ' → Py (σ' × List (Msg S))}
    {Rel : σ → σ' → Prop} (hs : ∀ {s s' t l}, Rel s s' → step s = .ok (t, l) → ∃ t', step' s' = .ok (t', l) ∧ Rel t t') :
    ∀ (n : Nat) {s s' t l}, Rel s s' → forLoop step n s = .ok (t, l) → ∃ t', forLoop step' n s' = .ok (t', l) ∧ Rel t t' := by
  intro n
  induction n with
  | zero =>
    intro s s' t l hr h
    unfold forLoop at h ⊢
    simp only [Except.ok.injEq, Prod.mk.injEq] at h
    obtain ⟨rfl, rfl⟩ := h
    exact ⟨s', rfl, hr⟩
  | succ n ih =>
    intro s s' t l hr h
    unfold forLoop at h ⊢
    simp only [py_bind_eq_ok, py_return_eq_ok, Prod.mk.injEq] at h ⊢
    obtain ⟨⟨u, l1⟩, h1, ⟨w, l2⟩, h2, rfl, rfl⟩ := h
    obtain ⟨u', h4, h5⟩ := hs hr h1
    obtain ⟨t', h6, h7⟩ := ih h5 h2
    exact ⟨t', ⟨(u', l1), h4, (t', l2), h6, rfl, rfl⟩, h7⟩

end

/-! ### Corresponding problems -/

/-- Residuals that correspond and that the first problem has computed. -/
def Made (g : GraphOps ℝ) (R : Assign ℝ → Assign ℝ → Prop) (Q : List ℝ → List ℝ → Prop) (r r' : List ℝ) : Prop :=
  Q r r' ∧ ∃ a a' c, R a a' ∧ g.computeCost a = .ok (c, r)

/-- Corresponding assignments (`R`), residuals (`Q`), vectors of local coordinates (`D`) and Jacobians (`J`) of two problems. -/
structure Sim (C C' : Ty → VarClass ℝ) (g g' : GraphOps ℝ) (L L' : LinSolver ℝ) (R : Assign ℝ → Assign ℝ → Prop)
    (Q D : List ℝ → List ℝ → Prop) (J : Coo ℝ → Coo ℝ → Prop) : Prop where
  cost : ∀ {a a' c r}, R a a' → g.computeCost a = .ok (c, r) → ∃ r', g'.computeCost a' = .ok (c, r') ∧ Q r r'
  jac : ∀ {a a' r r' A}, R a a' → Made g R Q r r' → g.jacobian a r = .ok A → ∃ A', g'.jacobian a' r' = .ok A' ∧ J A A'
  grad : ∀ {A A' r r' z}, J A A' → Q r r' → A.T.matmul r = .ok z → ∃ z', A'.T.matmul r' = .ok z' ∧ D z z'
  mul : ∀ {A A' d d' y}, J A A' → D d d' → A.matmul d = .ok y → ∃ y', A'.matmul d' = .ok y' ∧ Q y y'
  linear : ∀ {A A' b b' l i x}, J A A' → D b b' → L A b l i = .ok x → ∃ x', L' A' b' l i = .ok x' ∧ D x x'
  retract : ∀ {a a' d d' b}, R a a' → D d d' → a.manifoldRetract C ⟨d, g.localLayout⟩ = .ok b →
    ∃ b', a'.manifoldRetract C' ⟨d', g'.localLayout⟩ = .ok b' ∧ R b b'
  size : ∀ {a a'}, R a a' → a'.storage.length = a.storage.length
  wf : ∀ {A A'}, J A A' → CooWF A ∧ CooWF A'
  qlen : ∀ {y y' r r'}, Q y y' → Q r r' → y.length = r.length → y'.length = r'.length
  qneg : ∀ {r r'}, Q r r' → Q (r.map fun x => -x) (r'.map fun x => -x)
  qpred : ∀ {y y' r r'}, Q y y' → Q r r' → predicted y' r' = predicted y r
  qsq : ∀ {y y'}, Q y y' → sqNorm y' = sqNorm y
  dlen : ∀ {d d'}, D d d' → d'.length = d.length
  dneg : ∀ {d d'}, D d d' → D (d.map fun x => -x) (d'.map fun x => -x)
  dmul : ∀ {d d'} (c : ℝ), D d d' → D (d.map fun x => c * x) (d'.map fun x => c * x)
  dadd : ∀ {d d' e e'}, D d d' → D e e' → D (List.zipWith (· + ·) d e) (List.zipWith (· + ·) d' e')
  dsub : ∀ {d d' e e'}, D d d' → D e e' → D (List.zipWith (· - ·) d e) (List.zipWith (· - ·) d' e')
  ddot : ∀ {d d' e e'}, D d d' → D e e' → (List.zipWith (· * ·) d' e').sum = (List.zipWith (· * ·) d e).sum

/-- Corresponding states. If `K` holds, the flags agree as well. -/
structure StateSim (K : Prop) (R : Assign ℝ → Assign ℝ → Prop) (Q : List ℝ → List ℝ → Prop) (p p' : State ℝ) : Prop where
  iterations : p'.iterations = p.iterations
  cost : p'.cost = p.cost
  assignments : R p.assignments p'.assignments
  residual : Q p.residual p'.residual
  done : K → p'.done = p.done

/-- Whether the tests of the two problems give the same answers. -/
def TestSim (K : Prop) (C C' : Ty → VarClass ℝ) (g g' : GraphOps ℝ) (R : Assign ℝ → Assign ℝ → Prop)
    (Q D : List ℝ → List ℝ → Prop) (t : Criteria ℝ) (P : State ℝ → Prop) : Prop :=
  ∀ {p p' c d d' z z' conv}, P p → StateSim K R (Made g R Q) p p' → D d d' → D z z' → convergedTest C t p c d g.localLayout z = .ok conv →
    ∃ conv', convergedTest C' t p' c d' g'.localLayout z' = .ok conv' ∧ (K → conv' = conv)

section
variable {CE CE' : Ty → VarClass Ext} {gE gE' : GraphOps Ext} {C C' : Ty → VarClass ℝ} {g g' : GraphOps ℝ}
  {L L' : LinSolver ℝ} {R : Assign ℝ → Assign ℝ → Prop} {Q D : List ℝ → List ℝ → Prop} {J : Coo ℝ → Coo ℝ → Prop} {K : Prop}
  {P : State ℝ → Prop}

theorem Sim.dsq (h : Sim C C' g g' L L' R Q D J) {d d' : List ℝ} (hd : D d d') : sqNorm d' = sqNorm d := by
  have := h.ddot hd hd
  have e : ∀ l : List ℝ, (List.zipWith (· * ·) l l).sum = sqNorm l := by
    intro l
    induction l with
    | nil => rfl
    | cons x l ih => simp only [List.zipWith_cons_cons, List.sum_cons, ih, sqNorm, List.map_cons]; ring
  rwa [e, e] at this

theorem Sim.dnrm (h : Sim C C' g g' L L' R Q D J) {d d' : List ℝ} (hd : D d d') : nrm d' = nrm d := by
  unfold nrm; rw [h.dsq hd]

/-- Tests that depend on the coordinates only through the sizes of the vectors exist in both problems or in none. -/
theorem Sim.tests (h : Sim C C' g g' L L' R Q D J) (t : Criteria ℝ) : TestSim False C C' g g' R Q D t fun _ => True := by
  intro p p' c d d' z z' conv _ hp hd hz hc
  unfold convergedTest gradientTest at hc ⊢
  simp only [py_bind_eq_ok, py_return_eq_ok] at hc ⊢
  obtain ⟨b, ⟨m, h1, h2⟩, -⟩ := hc
  obtain ⟨m', h3, h4⟩ := h.retract hp.assignments hz h1
  have l1 := (manifoldRetract_shape h1).2
  have l2 := (manifoldRetract_shape h3).2
  have l3 := h.size hp.assignments
  have hne : List.zipWith (· - ·) p'.assignments.storage m'.storage ≠ [] := by
    intro h0
    have : (List.zipWith (· - ·) p'.assignments.storage m'.storage).length = 0 := by rw [h0]; rfl
    rw [List.length_zipWith, l2, l3, min_self] at this
    have e : List.zipWith (· - ·) p.assignments.storage m.storage = [] := List.eq_nil_of_length_eq_zero (by
      rw [List.length_zipWith, l1, this, min_self])
    rw [e] at h2
    simp at h2
  obtain ⟨x, xs, hx⟩ := List.exists_cons_of_ne_nil hne
  exact ⟨_, ⟨_, ⟨m', h3, by rw [hx]⟩, rfl⟩, fun hf => hf.elim⟩

/-- Gauss-Newton steps from corresponding states. -/
theorem Sim.gnStep (h : Sim C C' g g' L L' R Q D J) (hl : Lifts CE gE C g) (hl' : Lifts CE' gE' C' g') {sE sE' : GaussNewton Ext}
    {s : GaussNewton ℝ} (hs : LiftsGN sE { s with linear := L }) (hs' : LiftsGN sE' { s with linear := L' })
    (hT : TestSim K C C' g g' R Q D s.toCriteria P) {p p' : State ℝ} (hP : P p) (hp : StateSim K R (Made g R Q) p p') {q : State Ext}
    {log : List (Msg Ext)} (hq : sE.step CE gE (p.map fin) = .ok (q, log)) :
    ∃ u u' : State ℝ, q = u.map fin ∧ sE'.step CE' gE' (p'.map fin) = .ok (u'.map fin, log) ∧ StateSim K R (Made g R Q) u u' ∧
      u.iterations = p.iterations + 1 ∧ (u.done = false → (p.iterations : Int) < s.maxIterations - 1) := by
  obtain ⟨A, ATr, d, b, c, r, conv, h1, h2, h3, h4, h5, h6, rfl, rfl⟩ := (gnStep_fin hl hs).1 hq
  obtain ⟨A', j1, hA⟩ := h.jac hp.assignments hp.residual h1
  obtain ⟨z', j2, hz⟩ := h.grad hA hp.residual.1 h2
  obtain ⟨d', j3, hd⟩ := h.linear hA (h.dneg hz) h3
  obtain ⟨b', j4, hb⟩ := h.retract hp.assignments hd h4
  obtain ⟨r', j5, hr0⟩ := h.cost hb h5
  have hr : Made g R Q r r' := ⟨hr0, b, b', c, hb, h5⟩
  obtain ⟨conv', j6, hc⟩ := hT hP hp hd (h.dneg hz) h6
  refine ⟨_, _, rfl, (gnStep_fin hl' hs').2 ⟨A', z', d', b', c, r', conv', j1, j2, by rw [hp.iterations]; exact j3, j4, j5, j6, rfl, ?_⟩,
    ⟨by simp [hp.iterations], rfl, hb, hr, fun hK => ?_⟩, rfl, ?_⟩
  · rw [hp.iterations, hp.cost]
  · rw [hp.iterations, hc hK]
  · intro hf
    simp only [Bool.or_eq_false_iff, decide_eq_false_iff_not] at hf
    have := hf.1
    omega

/-- Steps of the fixed-iteration solver from corresponding states. -/
theorem Sim.fixedStep (h : Sim C C' g g' L L' R Q D J) (hl : Lifts CE gE C g) (hl' : Lifts CE' gE' C' g') {sE sE' : FixedIteration Ext}
    (hs : LiftsSolver sE.linear L) (hs' : LiftsSolver sE'.linear L') (hv : sE'.verbose = sE.verbose)
    (hi : sE'.iterations = sE.iterations) {p p' : State ℝ} (hp : StateSim True R (Made g R Q) p p') {q : State Ext}
    {log : List (Msg Ext)} (hq : sE.step CE gE (p.map fin) = .ok (q, log)) :
    ∃ u u' : State ℝ, q = u.map fin ∧ sE'.step CE' gE' (p'.map fin) = .ok (u'.map fin, log) ∧ StateSim True R (Made g R Q) u u' := by
  obtain ⟨A, ATr, d, b, c, r, h1, h2, h3, h4, h5, rfl, rfl⟩ := (fixedStep_fin hl hs).1 hq
  obtain ⟨A', j1, hA⟩ := h.jac hp.assignments hp.residual h1
  obtain ⟨z', j2, hz⟩ := h.grad hA hp.residual.1 h2
  obtain ⟨d', j3, hd⟩ := h.linear hA (h.dneg hz) h3
  obtain ⟨b', j4, hb⟩ := h.retract hp.assignments hd h4
  obtain ⟨r', j5, hr0⟩ := h.cost hb h5
  have hr : Made g R Q r r' := ⟨hr0, b, b', c, hb, h5⟩
  refine ⟨_, _, rfl, (fixedStep_fin hl' hs').2 ⟨A', z', d', b', c, r', j1, j2, by rw [hp.iterations]; exact j3, j4, j5, rfl, ?_⟩,
    ⟨by simp [hp.iterations], rfl, hb, hr, fun _ => ?_⟩⟩
  · rw [hp.iterations, hp.cost, hv]
  · rw [hp.iterations, hi]

/-- Corresponding states of Levenberg-Marquardt. -/
def LMSim (K : Prop) (R : Assign ℝ → Assign ℝ → Prop) (Q : List ℝ → List ℝ → Prop) (p p' : LMState ℝ) : Prop :=
  StateSim K R Q p.toState p'.toState ∧ p'.lambd = p.lambd

/-- Levenberg-Marquardt steps from corresponding states. -/
theorem Sim.lmStep (h : Sim C C' g g' L L' R Q D J) (hl : Lifts CE gE C g) (hl' : Lifts CE' gE' C' g')
    {sE sE' : LevenbergMarquardt Ext} {s : LevenbergMarquardt ℝ} (hs : LiftsLM sE { s with linear := L })
    (hs' : LiftsLM sE' { s with linear := L' }) (hf : s.lambdaFactor ≠ 0)
    (hT : TestSim K C C' g g' R Q D s.toCriteria P) {p p' : LMState ℝ} (hP : P p.toState) (hp : LMSim K R (Made g R Q) p p')
    {q : LMState Ext} {log : List (Msg Ext)} (hq : sE.step CE gE (p.map fin) = .ok (q, log)) :
    ∃ u u' : LMState ℝ, q = u.map fin ∧ sE'.step CE' gE' (p'.map fin) = .ok (u'.map fin, log) ∧ LMSim K R (Made g R Q) u u' ∧
      u.iterations = p.iterations + 1 ∧ (u.done = false → (p.iterations : Int) < s.maxIterations - 1) := by
  obtain ⟨hp, hlam⟩ := hp
  obtain ⟨A, ATr, d, b, c, r, As, acc, conv, h1, h2, h3, h4, h5, h6, h7, hacc, h8, rfl, rfl⟩ := (lmStep_fin hl hs hf).1 hq
  obtain ⟨A', j1, hA⟩ := h.jac hp.assignments hp.residual h1
  obtain ⟨z', j2, hz⟩ := h.grad hA (h.qneg hp.residual.1) h2
  obtain ⟨d', j3, hd⟩ := h.linear hA hz h3
  obtain ⟨b', j4, hb⟩ := h.retract hp.assignments hd h4
  obtain ⟨r', j5, hr0⟩ := h.cost hb h5
  have hr : Made g R Q r r' := ⟨hr0, b, b', c, hb, h5⟩
  obtain ⟨As', j6, hAs⟩ := h.mul hA hd h6
  obtain ⟨conv', j8, hc⟩ := hT hP hp hd hz h8
  have hit : p'.iterations = p.iterations := hp.iterations
  have hco : p'.cost = p.cost := hp.cost
  refine ⟨_, _, rfl, (lmStep_fin hl' hs' hf).2 ⟨A', z', d', b', c, r', As', acc, conv', j1, j2,
    by rw [hit, hlam]; exact j3, j4, j5, j6, ?_, ?_, j8, rfl, ?_⟩, ⟨⟨?_, ?_, ?_, hr, fun hK => ?_⟩, ?_⟩, rfl, ?_⟩
  · exact h.qlen hAs hp.residual.1 h7
  · rw [hacc, h.qpred hAs hp.residual.1, hco]
  · rw [hit, hco, hlam]
  · simp [lmNextReal, hit]
  · simp [lmNextReal, hco]
  · simp only [lmNextReal]; split
    · exact hb
    · exact hp.assignments
  · simp [lmNextReal, hit, hc hK]
  · simp [lmNextReal, hlam, nextLambda]
  · intro hf
    simp only [lmNextReal, Bool.or_eq_false_iff, decide_eq_false_iff_not] at hf
    have := hf.1
    omega

open Matrix in
/-- The dogleg step outside the trust region, as a formula. -/
theorem doglegStep_formula {A : Coo ℝ} (hA : CooWF A) {r b gn Ab : List ℝ} (hb : A.T.matmul (r.map fun x => -x) = .ok b)
    (hAb : A.matmul b = .ok Ab) (hgn : gn.length = A.shape.2) {ρ : ℝ} (hρ : 0 < ρ) (hout : ρ < nrm gn) (hne : ¬ ∀ y ∈ b, y = 0) :
    let a := b.map fun x => sqNorm b / sqNorm Ab * x
    let v := List.zipWith (· - ·) gn a
    let c := (List.zipWith (· * ·) a v).sum
    let β := (-c + √(c * c + sqNorm v * (ρ * ρ - sqNorm a))) / sqNorm v
    doglegStep (A.map fin) (b.map fin) (gn.map fin) (fin ρ) =
      .ok ((if ρ ≤ nrm a then a.map fun x => ρ / nrm a * x else List.zipWith (· + ·) a (v.map fun x => β * x)).map fin) := by
  intro a v c β
  obtain ⟨hr, hbl, hbv⟩ := descent_ok hA hb
  obtain ⟨-, h2, h3⟩ := matmul_vec hA hAb
  have hlen : ¬ (gn.map fin).length ≠ (b.map fin).length := by simp [hgn, hbl]
  have hm : (A.map fin).matmul (b.map fin) = .ok (Ab.map fin) := by rw [fin_matmul, hAb]; rfl
  have hg : descent (cooMatrix A A.shape.1 A.shape.2) (Spec.vec r A.shape.1) ≠ 0 := by
    intro h0
    rw [← hbv] at h0
    exact hne ((mem_zero_vec hbl).2 h0)
  have hP : 0 < sqNorm Ab := by
    rw [sqNorm_eq h2, h3, hbv]; exact image_descent_pos hg
  have hG : 0 < sqNorm b := by rw [sqNorm_eq hbl, hbv]; exact dot_self_pos hg
  have hal : a.length = A.shape.2 := by simp [a, hbl]
  have hane : Spec.vec a A.shape.2 ≠ 0 := by
    rw [vec_smul_list hbl, hbv]
    exact smul_ne_zero (div_pos hG hP).ne' hg
  have hapos : 0 < nrm a := by rw [nrm_eq hal]; exact Real.sqrt_pos.2 (dot_self_pos hane)
  have hstep : doglegStep (A.map fin) (b.map fin) (gn.map fin) (fin ρ) = .ok (
      if Scal.le (fin ρ) (fin (nrm a)) = true then (a.map fin).map fun x => fin ρ / fin (nrm a) * x
      else List.zipWith (· + ·) (a.map fin) ((List.zipWith (· - ·) (gn.map fin) (a.map fin)).map
        fun x => doglegBeta (a.map fin) (gn.map fin) (fin ρ) * x)) := by
    unfold doglegStep
    rw [hm]
    simp only [py_bind_ok, hlen, if_false, fin_vecNorm, py_pure, fin_sumSq]
    rw [fin_div hP.ne', fin_map_mul, if_neg (by rw [fin_le]; linarith), fin_vecNorm]
  rw [hstep]
  by_cases hsd : ρ ≤ nrm a
  · rw [if_pos ((fin_le _ _).2 hsd), if_pos hsd, fin_div hapos.ne', fin_map_mul]
  · obtain ⟨hK, hD, ho, hbeta⟩ := doglegBeta_fin hal hgn hρ (not_le.1 hsd) hout
    have ec : c = Spec.vec a A.shape.2 ⬝ᵥ (Spec.vec gn A.shape.2 - Spec.vec a A.shape.2) := by
      have := vdot_eq (a := a) (b := List.zipWith (· - ·) gn a) hal (by simp [hal, hgn])
      unfold vdot at this
      rw [← vec_sub_list hgn hal]; exact this
    have eD : sqNorm v = (Spec.vec gn A.shape.2 - Spec.vec a A.shape.2) ⬝ᵥ (Spec.vec gn A.shape.2 - Spec.vec a A.shape.2) := by
      rw [sqNorm_eq (n := A.shape.2) (by simp [v, hal, hgn]), vec_sub_list hgn hal]
    rw [if_neg (by rw [fin_le]; exact hsd), if_neg hsd, hbeta, fin_zipWith_sub, fin_map_mul, fin_zipWith_add]
    simp only [β, ec, eD, sqNorm_eq hal]
    rfl

/-- Corresponding states of the dogleg solver. -/
def DoglegSim (K : Prop) (R : Assign ℝ → Assign ℝ → Prop) (Q : List ℝ → List ℝ → Prop) (p p' : DoglegState ℝ) : Prop :=
  StateSim K R Q p.toState p'.toState ∧ p'.radius = p.radius ∧ 0 < p.radius

theorem Sim.zero (h : Sim C C' g g' L L' R Q D J) {d d' : List ℝ} (hd : D d d') : (∀ y ∈ d', y = 0) ↔ ∀ y ∈ d, y = 0 := by
  have key : ∀ l : List ℝ, (∀ y ∈ l, y = 0) ↔ sqNorm l = 0 := by
    intro l
    rw [sqNorm_eq rfl, mem_zero_vec rfl, dotProduct_self_eq_zero]
  rw [key, key, h.dsq hd]

/-- Corresponding problems have corresponding dogleg steps. -/
theorem Sim.dogleg (h : Sim C C' g g' L L' R Q D J) (hL : ZeroAtZero L) {A A' : Coo ℝ} (hA : J A A') {r r' b b' gn gn' : List ℝ}
    (hb : A.T.matmul (r.map fun x => -x) = .ok b) (hb' : A'.T.matmul (r'.map fun x => -x) = .ok b') (hbb : D b b')
    {l : ℝ} {i : Nat} (hgn : L A b l i = .ok gn) (hgg : D gn gn') {ρ : ℝ} (hρ : 0 < ρ) {dE : List Ext}
    (hd : doglegStep (A.map fin) (b.map fin) (gn.map fin) (fin ρ) = .ok dE) :
    ∃ d d', dE = d.map fin ∧ doglegStep (A'.map fin) (b'.map fin) (gn'.map fin) (fin ρ) = .ok (d'.map fin) ∧ D d d' := by
  obtain ⟨wA, wA'⟩ := h.wf hA
  obtain ⟨-, hbl, -⟩ := descent_ok wA hb
  obtain ⟨-, hbl', -⟩ := descent_ok wA' hb'
  have hlen : gn.length = A.shape.2 := by
    by_contra hne
    unfold doglegStep at hd
    simp only [py_bind_eq_ok] at hd
    obtain ⟨x, -, h2⟩ := hd
    rw [if_pos (by simpa [hbl] using hne)] at h2
    simp at h2
  have hlen' : gn'.length = A'.shape.2 := by
    rw [h.dlen hgg, hlen, ← hbl, ← hbl', h.dlen hbb]
  by_cases hfit : nrm gn ≤ ρ
  · refine ⟨gn, gn', ?_, (doglegStep_fin wA' hb' hlen' hρ).1 (by rw [h.dnrm hgg]; exact hfit), hgg⟩
    rw [(doglegStep_fin wA hb hlen hρ).1 hfit] at hd
    exact (Except.ok.inj hd).symm
  · have hout := not_le.1 hfit
    have hne : ¬ ∀ y ∈ b, y = 0 := by
      intro h0
      have := (mem_zero_vec hlen).1 (hL A b l i gn h0 hgn)
      apply hfit
      rw [nrm_eq hlen, this]
      simp [hρ.le]
    obtain ⟨Ab, m1, -, -⟩ := matmul_ok wA hbl
    obtain ⟨Ab', m2, hQ⟩ := h.mul hA hbb m1
    have f1 := doglegStep_formula wA hb m1 hlen hρ hout hne
    have f2 := doglegStep_formula wA' hb' m2 hlen' hρ (by rw [h.dnrm hgg]; exact hout) (by rw [h.zero hbb]; exact hne)
    rw [hd] at f1
    refine ⟨_, _, Except.ok.inj f1, f2, ?_⟩
    have ha := h.dmul (sqNorm b / sqNorm Ab) hbb
    rw [h.dsq hbb, h.qsq hQ]
    have hv := h.dsub hgg ha
    rw [h.dnrm ha, h.ddot ha hv, h.dsq hv, h.dsq ha]
    split
    · exact h.dmul _ ha
    · exact h.dadd ha (h.dmul _ hv)

/-- Dogleg steps from corresponding states. -/
theorem Sim.doglegStep (h : Sim C C' g g' L L' R Q D J) (hl : Lifts CE gE C g) (hl' : Lifts CE' gE' C' g')
    {sE sE' : Dogleg Ext} {s : Dogleg ℝ} (hs : LiftsDogleg sE { s with linear := L })
    (hs' : LiftsDogleg sE' { s with linear := L' }) (hL : ZeroAtZero L)
    (hT : TestSim K C C' g g' R Q D s.toCriteria P) {p p' : DoglegState ℝ} (hP : P p.toState) (hp : DoglegSim K R (Made g R Q) p p')
    {q : DoglegState Ext} {log : List (Msg Ext)} (hq : sE.step CE gE (p.map fin) = .ok (q, log)) :
    ∃ u u' : DoglegState ℝ, q = u.map fin ∧ sE'.step CE' gE' (p'.map fin) = .ok (u'.map fin, log) ∧ DoglegSim K R (Made g R Q) u u' ∧
      u.iterations = p.iterations + 1 ∧ (u.done = false → (p.iterations : Int) < s.maxIterations - 1) := by
  obtain ⟨hp, hlam, hρ⟩ := hp
  have hfin : ∀ A ATb gn dE, g.jacobian p.assignments p.residual = .ok A → A.T.matmul (p.residual.map fun x => -x) = .ok ATb →
      L A ATb 0 p.iterations = .ok gn → Jaxfg.doglegStep (A.map fin) (ATb.map fin) (gn.map fin) (fin p.radius) = .ok dE →
      ∃ d : List ℝ, dE = d.map fin := by
    intro A ATb gn dE h1 h2 h3 h4
    obtain ⟨A', j1, hA⟩ := h.jac hp.assignments hp.residual h1
    obtain ⟨z', j2, hz⟩ := h.grad hA (h.qneg hp.residual.1) h2
    obtain ⟨gn', j3, hd⟩ := h.linear hA hz h3
    obtain ⟨d, -, hd, -⟩ := h.dogleg hL hA h2 j2 hz h3 hd hρ h4
    exact ⟨d, hd⟩
  obtain ⟨A, ATr, gn, d, b, c, r, As, q, conv, h1, h2, h3, hdog, h4, h5, h6, h7, hqe, h8, rfl, rfl⟩ :=
    (doglegSolverStep_fin hl hs hfin).1 hq
  obtain ⟨A', j1, hA⟩ := h.jac hp.assignments hp.residual h1
  obtain ⟨z', j2, hz⟩ := h.grad hA (h.qneg hp.residual.1) h2
  obtain ⟨gn', j3, hgn⟩ := h.linear hA hz h3
  obtain ⟨d0, d', hd0, jd, hd⟩ := h.dogleg hL hA h2 j2 hz h3 hgn hρ hdog
  obtain rfl : d = d0 := List.map_injective_iff.2 fin_injective hd0
  obtain ⟨b', j4, hb⟩ := h.retract hp.assignments hd h4
  obtain ⟨r', j5, hr0⟩ := h.cost hb h5
  have hr : Made g R Q r r' := ⟨hr0, b, b', c, hb, h5⟩
  obtain ⟨As', j6, hAs⟩ := h.mul hA hd h6
  obtain ⟨conv', j8, hc⟩ := hT hP hp hd hz h8
  have hit : p'.iterations = p.iterations := hp.iterations
  have hco : p'.cost = p.cost := hp.cost
  have hfin' : ∀ A ATb gn dE, g'.jacobian p'.assignments p'.residual = .ok A → A.T.matmul (p'.residual.map fun x => -x) = .ok ATb →
      L' A ATb 0 p'.iterations = .ok gn → Jaxfg.doglegStep (A.map fin) (ATb.map fin) (gn.map fin) (fin p'.radius) = .ok dE →
      ∃ d : List ℝ, dE = d.map fin := by
    intro B z gn dE k1 k2 k3 k4
    rw [j1] at k1; cases k1
    rw [j2] at k2; cases k2
    rw [hit, j3] at k3; cases k3
    rw [hlam, jd] at k4; cases k4
    exact ⟨d', rfl⟩
  refine ⟨_, _, rfl, (doglegSolverStep_fin hl' hs' hfin').2 ⟨A', z', gn', d', b', c, r', As', q, conv', j1, j2,
    by rw [hit]; exact j3, by rw [hlam]; exact jd, j4, j5, j6, ?_, ?_, j8, rfl, ?_⟩, ⟨⟨?_, ?_, ?_, hr, fun hK => ?_⟩, ?_, ?_⟩, rfl, ?_⟩
  · exact h.qlen hAs hp.residual.1 h7
  · rw [hqe, h.qpred hAs hp.residual.1, hco]
  · rw [hit, hco, hlam]
  · simp [doglegNextReal, hit]
  · simp [doglegNextReal, hco]
  · simp only [doglegNextReal]; split
    · exact hb
    · exact hp.assignments
  · simp [doglegNextReal, hit, hc hK]
  · simp [doglegNextReal, hlam, nextRadius, h.dnrm hd]
  · exact nextRadius_pos hρ
  · intro hf
    simp only [doglegNextReal, Bool.or_eq_false_iff, decide_eq_false_iff_not] at hf
    have := hf.1
    omega

/-! ### Whole calls -/

/-- Iterations that are reached: the first, and those below the limit. -/
def InBounds (t : Criteria ℝ) (p : State ℝ) : Prop := p.iterations = 0 ∨ (p.iterations : Int) < t.maxIterations

theorem inBounds_next {t : Criteria ℝ} {p u : State ℝ} (h1 : u.iterations = p.iterations + 1)
    (h2 : u.done = false → (p.iterations : Int) < t.maxIterations - 1) (hd : u.done = false) : InBounds t u := by
  right; rw [h1]; have := h2 hd; push_cast; omega

theorem baseSolve_sim {σ σ' : Type} {verbose : Bool} {base : σ → State Ext} {base' : σ' → State Ext} {init : Assign Ext → Py σ}
    {init' : Assign Ext → Py σ'} {step : σ → Py (σ × List (Msg Ext))} {step' : σ' → Py (σ' × List (Msg Ext))}
    (hl : Lifts CE gE C g) (hl' : Lifts CE' gE' C' g') {Rel : σ → σ' → Prop} {O : Assign ℝ → Assign ℝ → Prop} {a a' : Assign ℝ}
    (hin : ∀ {b}, a.updateStorageLayout C g.layout = .ok b → ∃ b', a'.updateStorageLayout C' g'.layout = .ok b' ∧ R b b')
    (hout : ∀ {b b' o}, R b b' → b.updateStorageLayout C a.layout = .ok o →
      ∃ o', b'.updateStorageLayout C' a'.layout = .ok o' ∧ O o o')
    (hinit : ∀ {b b' st}, R b b' → init (b.map fin) = .ok st → ∃ st', init' (b'.map fin) = .ok st' ∧ Rel st st')
    (hd : ∀ {s s'}, Rel s s' → ∃ p p' : State ℝ, base s = p.map fin ∧ base' s' = p'.map fin ∧ StateSim True R (Made g R Q) p p')
    (hs : ∀ {s s' t l}, Rel s s' → (base s).done = false → step s = .ok (t, l) → ∃ t', step' s' = .ok (t', l) ∧ Rel t t')
    {fuel : Nat} {out : Assign Ext} {log : List (Msg Ext)}
    (h : baseSolve CE gE verbose base init step fuel (a.map fin) = .ok (some (out, log))) :
    ∃ o o', out = o.map fin ∧ baseSolve CE' gE' verbose base' init' step' fuel (a'.map fin) = .ok (some (o'.map fin, log)) ∧ O o o' := by
  obtain ⟨b, st, st', l, h1, h2, h3, h4, rfl⟩ := baseSolve_some.1 h
  rw [hl.layout, hl.updateStorageLayout] at h1
  obtain ⟨b0, k1, rfl⟩ := py_map_eq_ok.1 h1
  obtain ⟨b', k2, hb⟩ := hin k1
  obtain ⟨u, k3, hu⟩ := hinit hb h2
  have hdone : ∀ {s s'}, Rel s s' → (base' s').done = (base s).done := by
    intro s s' hr
    obtain ⟨p, p', e1, e2, e3⟩ := hd hr
    rw [e1, e2]; exact e3.done trivial
  obtain ⟨u', k4, hu'⟩ := whileLoop_sim (done := fun s => (base s).done) (done' := fun s => (base' s).done) (Rel := Rel)
    hdone hs fuel hu h3
  obtain ⟨p, p', e1, e2, e3⟩ := hd hu'
  rw [e1] at h4
  have h4' : (p.assignments.map fin).updateStorageLayout CE a.layout = .ok out := h4
  rw [hl.updateStorageLayout] at h4'
  obtain ⟨o, k5, rfl⟩ := py_map_eq_ok.1 h4'
  obtain ⟨o', k6, ho⟩ := hout e3.assignments k5
  refine ⟨o, o', rfl, baseSolve_some.2 ⟨b'.map fin, u, u', l, ?_, k3, k4, ?_, ?_⟩, ho⟩
  · rw [hl'.layout, hl'.updateStorageLayout, k2]; rfl
  · rw [e2]
    show (p'.assignments.map fin).updateStorageLayout CE' a'.layout = _
    rw [hl'.updateStorageLayout, k6]; rfl
  · rw [e1, e2]
    show _ ++ hcbPrint verbose (.terminated p.iterations (fin p.cost)) = _ ++ hcbPrint verbose (.terminated p'.iterations (fin p'.cost))
    rw [e3.iterations, e3.cost]

variable {O : Assign ℝ → Assign ℝ → Prop} {a a' : Assign ℝ} {fuel : Nat} {out : Assign Ext} {log : List (Msg Ext)}

theorem Sim.gnSolve (h : Sim C C' g g' L L' R Q D J) (hl : Lifts CE gE C g) (hl' : Lifts CE' gE' C' g') {sE sE' : GaussNewton Ext}
    {s : GaussNewton ℝ} (hs : LiftsGN sE { s with linear := L }) (hs' : LiftsGN sE' { s with linear := L' })
    (hT : TestSim True C C' g g' R Q D s.toCriteria (InBounds s.toCriteria))
    (hin : ∀ {b}, a.updateStorageLayout C g.layout = .ok b → ∃ b', a'.updateStorageLayout C' g'.layout = .ok b' ∧ R b b')
    (hout : ∀ {b b' o}, R b b' → b.updateStorageLayout C a.layout = .ok o →
      ∃ o', b'.updateStorageLayout C' a'.layout = .ok o' ∧ O o o')
    (hq : sE.solve CE gE fuel (a.map fin) = .ok (some (out, log))) :
    ∃ o o', out = o.map fin ∧ sE'.solve CE' gE' fuel (a'.map fin) = .ok (some (o'.map fin, log)) ∧ O o o' := by
  unfold GaussNewton.solve at hq ⊢
  rw [hs'.verbose]; rw [hs.verbose] at hq
  refine baseSolve_sim hl hl' (Rel := fun st st' => ∃ p p' : State ℝ, st = p.map fin ∧ st' = p'.map fin ∧ StateSim True R (Made g R Q) p p' ∧
    (p.done = false → InBounds s.toCriteria p)) (R := R) (Q := Q) hin hout ?_ ?_ ?_ hq
  · intro b b' st hb hi
    obtain ⟨c, r, hc, rfl⟩ := (initState_fin hl).1 hi
    obtain ⟨r', hc', hr0⟩ := h.cost hb hc
    have hr : Made g R Q r r' := ⟨hr0, _, _, c, hb, hc⟩
    exact ⟨_, (initState_fin hl').2 ⟨c, r', hc', rfl⟩, _, _, rfl, rfl, ⟨rfl, rfl, hb, hr, fun _ => rfl⟩, fun _ => .inl rfl⟩
  · rintro _ _ ⟨p, p', rfl, rfl, h1, -⟩
    exact ⟨p, p', rfl, rfl, h1⟩
  · rintro _ _ t l ⟨p, p', rfl, rfl, h1, h2⟩ hd hst
    obtain ⟨u, u', rfl, e1, e2, e3, e4⟩ := h.gnStep hl hl' hs hs' hT (h2 hd) h1 hst
    exact ⟨_, e1, u, u', rfl, rfl, e2, inBounds_next e3 e4⟩

theorem Sim.lmSolve (h : Sim C C' g g' L L' R Q D J) (hl : Lifts CE gE C g) (hl' : Lifts CE' gE' C' g')
    {sE sE' : LevenbergMarquardt Ext} {s : LevenbergMarquardt ℝ} (hs : LiftsLM sE { s with linear := L })
    (hs' : LiftsLM sE' { s with linear := L' }) (hf : s.lambdaFactor ≠ 0)
    (hT : TestSim True C C' g g' R Q D s.toCriteria (InBounds s.toCriteria))
    (hin : ∀ {b}, a.updateStorageLayout C g.layout = .ok b → ∃ b', a'.updateStorageLayout C' g'.layout = .ok b' ∧ R b b')
    (hout : ∀ {b b' o}, R b b' → b.updateStorageLayout C a.layout = .ok o →
      ∃ o', b'.updateStorageLayout C' a'.layout = .ok o' ∧ O o o')
    (hq : sE.solve CE gE fuel (a.map fin) = .ok (some (out, log))) :
    ∃ o o', out = o.map fin ∧ sE'.solve CE' gE' fuel (a'.map fin) = .ok (some (o'.map fin, log)) ∧ O o o' := by
  unfold LevenbergMarquardt.solve at hq ⊢
  rw [hs'.verbose]; rw [hs.verbose] at hq
  refine baseSolve_sim hl hl' (Rel := fun st st' => ∃ p p' : LMState ℝ, st = p.map fin ∧ st' = p'.map fin ∧ LMSim True R (Made g R Q) p p' ∧
    (p.done = false → InBounds s.toCriteria p.toState)) (R := R) (Q := Q) hin hout ?_ ?_ ?_ hq
  · intro b b' st hb hi
    obtain ⟨c, r, hc, rfl⟩ := (lmInit_fin hl hs).1 hi
    obtain ⟨r', hc', hr0⟩ := h.cost hb hc
    have hr : Made g R Q r r' := ⟨hr0, _, _, c, hb, hc⟩
    exact ⟨_, (lmInit_fin hl' hs').2 ⟨c, r', hc', rfl⟩, _, _, rfl, rfl, ⟨⟨rfl, rfl, hb, hr, fun _ => rfl⟩, rfl⟩, fun _ => .inl rfl⟩
  · rintro _ _ ⟨p, p', rfl, rfl, h1, -⟩
    exact ⟨p.toState, p'.toState, rfl, rfl, h1.1⟩
  · rintro _ _ t l ⟨p, p', rfl, rfl, h1, h2⟩ hd hst
    obtain ⟨u, u', rfl, e1, e2, e3, e4⟩ := h.lmStep hl hl' hs hs' hf hT (h2 hd) h1 hst
    exact ⟨_, e1, u, u', rfl, rfl, e2, inBounds_next (u := u.toState) (p := p.toState) e3 e4⟩

theorem Sim.doglegSolve (h : Sim C C' g g' L L' R Q D J) (hl : Lifts CE gE C g) (hl' : Lifts CE' gE' C' g')
    {sE sE' : Dogleg Ext} {s : Dogleg ℝ} (hs : LiftsDogleg sE { s with linear := L })
    (hs' : LiftsDogleg sE' { s with linear := L' }) (hL : ZeroAtZero L) (hρ : 0 < s.radiusInitial)
    (hT : TestSim True C C' g g' R Q D s.toCriteria (InBounds s.toCriteria))
    (hin : ∀ {b}, a.updateStorageLayout C g.layout = .ok b → ∃ b', a'.updateStorageLayout C' g'.layout = .ok b' ∧ R b b')
    (hout : ∀ {b b' o}, R b b' → b.updateStorageLayout C a.layout = .ok o →
      ∃ o', b'.updateStorageLayout C' a'.layout = .ok o' ∧ O o o')
    (hq : sE.solve CE gE fuel (a.map fin) = .ok (some (out, log))) :
    ∃ o o', out = o.map fin ∧ sE'.solve CE' gE' fuel (a'.map fin) = .ok (some (o'.map fin, log)) ∧ O o o' := by
  unfold Dogleg.solve at hq ⊢
  rw [hs'.verbose]; rw [hs.verbose] at hq
  refine baseSolve_sim hl hl' (Rel := fun st st' => ∃ p p' : DoglegState ℝ, st = p.map fin ∧ st' = p'.map fin ∧
    DoglegSim True R (Made g R Q) p p' ∧ (p.done = false → InBounds s.toCriteria p.toState)) (R := R) (Q := Q) hin hout ?_ ?_ ?_ hq
  · intro b b' st hb hi
    obtain ⟨c, r, hc, rfl⟩ := (doglegInit_fin hl hs).1 hi
    obtain ⟨r', hc', hr0⟩ := h.cost hb hc
    have hr : Made g R Q r r' := ⟨hr0, _, _, c, hb, hc⟩
    exact ⟨_, (doglegInit_fin hl' hs').2 ⟨c, r', hc', rfl⟩, _, _, rfl, rfl, ⟨⟨rfl, rfl, hb, hr, fun _ => rfl⟩, rfl, hρ⟩, fun _ => .inl rfl⟩
  · rintro _ _ ⟨p, p', rfl, rfl, h1, -⟩
    exact ⟨p.toState, p'.toState, rfl, rfl, h1.1⟩
  · rintro _ _ t l ⟨p, p', rfl, rfl, h1, h2⟩ hd hst
    obtain ⟨u, u', rfl, e1, e2, e3, e4⟩ := h.doglegStep hl hl' hs hs' hL hT (h2 hd) h1 hst
    exact ⟨_, e1, u, u', rfl, rfl, e2, inBounds_next (u := u.toState) (p := p.toState) e3 e4⟩

theorem Sim.fixedSolve (h : Sim C C' g g' L L' R Q D J) (hl : Lifts CE gE C g) (hl' : Lifts CE' gE' C' g')
    {sE sE' : FixedIteration Ext} (hs : LiftsSolver sE.linear L) (hs' : LiftsSolver sE'.linear L') (hv : sE'.verbose = sE.verbose)
    (hi : sE'.iterations = sE.iterations) (hu : sE'.unroll = sE.unroll) (ha : R a a')
    (hq : sE.solve CE gE fuel (a.map fin) = .ok (some (out, log))) :
    ∃ o o', out = o.map fin ∧ sE'.solve CE' gE' fuel (a'.map fin) = .ok (some (o'.map fin, log)) ∧ R o o' := by
  obtain ⟨st, st', l, h1, h2, rfl, rfl⟩ := fixedSolve_some.1 hq
  obtain ⟨c, r, hc, rfl⟩ := (initState_fin hl).1 h1
  obtain ⟨r', hc', hr0⟩ := h.cost ha hc
  have hr : Made g R Q r r' := ⟨hr0, _, _, c, ha, hc⟩
  let Rel : State Ext → State Ext → Prop := fun st st' => ∃ p p' : State ℝ, st = p.map fin ∧ st' = p'.map fin ∧ StateSim True R (Made g R Q) p p'
  have h0 : Rel (State.map fin ⟨0, a, c, r, false⟩) (State.map fin ⟨0, a', c, r', false⟩) :=
    ⟨_, _, rfl, rfl, rfl, rfl, ha, hr, fun _ => rfl⟩
  have hstep : ∀ {s s' t l}, Rel s s' → sE.step CE gE s = .ok (t, l) → ∃ t', sE'.step CE' gE' s' = .ok (t', l) ∧ Rel t t' := by
    rintro _ _ t l ⟨p, p', rfl, rfl, k1⟩ hst
    obtain ⟨u, u', rfl, e1, e2⟩ := h.fixedStep hl hl' hs hs' hv hi k1 hst
    exact ⟨_, e1, u, u', rfl, rfl, e2⟩
  have key : ∃ t', (if sE'.unroll then (forLoop (sE'.step CE' gE') sE'.iterations.toNat (State.map fin ⟨0, a', c, r', false⟩)).map some
        else whileLoop (fun s => s.done) (sE'.step CE' gE') fuel (State.map fin ⟨0, a', c, r', false⟩)) = .ok (some (t', l)) ∧
      Rel st' t' := by
    rw [hu, hi]
    cases hun : sE.unroll with
    | true =>
      simp only [hun, if_true] at h2 ⊢
      obtain ⟨x, k1, k2⟩ := py_map_eq_ok.1 h2
      cases k2
      obtain ⟨t', k3, k4⟩ := forLoop_sim hstep _ h0 k1
      exact ⟨t', by rw [k3]; rfl, k4⟩
    | false =>
      simp only [hun, Bool.false_eq_true, if_false] at h2 ⊢
      refine whileLoop_sim (Rel := Rel) ?_ (fun hr _ hst => hstep hr hst) fuel h0 h2
      rintro _ _ ⟨p, p', rfl, rfl, k1⟩
      exact k1.done trivial
  obtain ⟨t', k1, p, p', rfl, rfl, k2⟩ := key
  refine ⟨p.assignments, p'.assignments, rfl, fixedSolve_some.2 ⟨_, _, l, (initState_fin hl').2 ⟨c, r', hc', rfl⟩, k1, rfl, ?_⟩,
    k2.assignments⟩
  show _ ++ hcbPrint _ (.terminated p.iterations (fin p.cost)) = _ ++ hcbPrint _ (.terminated p'.iterations (fin p'.cost))
  rw [hv, k2.iterations, k2.cost]

end

end Jaxfg
