/- Solvers whose linear solver agrees with a solver on real numbers wherever they call it. -/
import Verif.Lemmas.SolverRuns
import Verif.Lemmas.Progress
import Verif.Lemmas.LinearRate
import Verif.Props.Sparse
import Verif.Spec.CgFinite

namespace Jaxfg
open Spec
open Ext (fin)

/-- `LE` is `L` on the Jacobians in `P`, right-hand sides `-Aᵀ r` and nonnegative damping. -/
def AgreesOn (g : GraphOps ℝ) (P : Assign ℝ → Prop) (LE : LinSolver Ext) (L : LinSolver ℝ) : Prop :=
  ∀ a r A b, P a → ResidualIn g P r → g.jacobian a r = .ok A → A.T.matmul (r.map fun x => -x) = .ok b → ∀ l, 0 ≤ l → ∀ i,
    LE (A.map fin) (b.map fin) (fin l) i = (L A b l i).map (List.map fin)

theorem whileLoop_congr {S σ : Type} {done : σ → Bool} {step step' : σ → Py (σ × List (Msg S))} (I : σ → Prop)
    (h : ∀ s, I s → done s = false → step s = step' s) (hI : ∀ s s' log, I s → done s = false → step' s = .ok (s', log) → I s') :
    ∀ (fuel : Nat) (s : σ), I s → whileLoop done step fuel s = whileLoop done step' fuel s
  | 0, _, _ => rfl
  | fuel + 1, s, hs => by
    unfold whileLoop
    cases hd : done s with
    | true => rfl
    | false =>
      rw [h s hs hd]
      cases hst : step' s with
      | error e => rfl
      | ok p =>
        obtain ⟨s', log⟩ := p
        simp only [py_bind_ok]
        rw [whileLoop_congr I h hI fuel s' (hI s s' log hs hd hst)]

theorem forLoop_congr {S σ : Type} {step step' : σ → Py (σ × List (Msg S))} (I : σ → Prop)
    (h : ∀ s, I s → step s = step' s) (hI : ∀ s s' log, I s → step' s = .ok (s', log) → I s') :
    ∀ (n : Nat) (s : σ), I s → forLoop step n s = forLoop step' n s
  | 0, _, _ => rfl
  | n + 1, s, hs => by
    unfold forLoop
    rw [h s hs]
    cases hst : step' s with
    | error e => rfl
    | ok p =>
      obtain ⟨s', log⟩ := p
      simp only [py_bind_ok]
      rw [forLoop_congr I h hI n s' (hI s s' log hs hst)]

section
variable {CE : Ty → VarClass Ext} {gE : GraphOps Ext} {C : Ty → VarClass ℝ} {g : GraphOps ℝ} {P : Assign ℝ → Prop}
  {LE : LinSolver Ext} {L : LinSolver ℝ}

/-- The linear solve after the gradient is negated. -/
theorem AgreesOn.neg (hA : AgreesOn g P LE L) (hP : NoZeroColumns C g P) {a : Assign ℝ} {r : List ℝ} {A : Coo ℝ} {b : List ℝ} (ha : P a) (hr : ResidualIn g P r)
    (hj : g.jacobian a r = .ok A) (hb : A.T.matmul r = .ok b) (i : Nat) :
    LE (A.map fin) ((b.map fin).map fun x => -x) (Scal.lit 0) i = (LinSolver.lift L) (A.map fin) ((b.map fin).map fun x => -x) (Scal.lit 0) i := by
  obtain ⟨hwf, -⟩ := hP.columns a r A ha hr hj
  rw [fin_map_neg, fin_lit_zero, liftsSolver_lift L]
  exact hA a r A _ ha hr hj (matmul_neg (Props.cooWF_T hwf) hb) 0 le_rfl i

theorem gn_step_agrees (h : Lifts CE gE C g) (hP : NoZeroColumns C g P) (hA : AgreesOn g P LE L) (sE : GaussNewton Ext)
    (p : State ℝ) (hp : P p.assignments) (hr : ResidualIn g P p.residual) :
    ({ sE with linear := LE } : GaussNewton Ext).step CE gE (p.map fin) =
      ({ sE with linear := LinSolver.lift L } : GaussNewton Ext).step CE gE (p.map fin) := by
  unfold GaussNewton.step
  have j1 : gE.jacobian (p.map fin).assignments (p.map fin).residual = (g.jacobian p.assignments p.residual).map (Coo.map fin) :=
    h.jacobian _ _
  rw [j1]
  cases hj : g.jacobian p.assignments p.residual with
  | error e => rfl
  | ok A =>
    have e1 : ((Except.ok A : Py (Coo ℝ)).map (Coo.map fin)) = .ok (A.map fin) := rfl
    rw [e1]
    simp only [py_bind_ok]
    have e2 : (A.map fin).T.matmul (p.map fin).residual = (A.T.matmul p.residual).map (List.map fin) := fin_matmul A.T p.residual
    rw [e2]
    cases hb : A.T.matmul p.residual with
    | error e => rfl
    | ok b =>
      have e3 : ((Except.ok b : Py (List ℝ)).map (List.map fin)) = .ok (b.map fin) := rfl
      rw [e3]
      simp only [py_bind_ok]
      rw [hA.neg hP hp hr hj hb]

theorem fixed_step_agrees (h : Lifts CE gE C g) (hP : NoZeroColumns C g P) (hA : AgreesOn g P LE L) (sE : FixedIteration Ext)
    (p : State ℝ) (hp : P p.assignments) (hr : ResidualIn g P p.residual) :
    ({ sE with linear := LE } : FixedIteration Ext).step CE gE (p.map fin) =
      ({ sE with linear := LinSolver.lift L } : FixedIteration Ext).step CE gE (p.map fin) := by
  unfold FixedIteration.step
  have j1 : gE.jacobian (p.map fin).assignments (p.map fin).residual = (g.jacobian p.assignments p.residual).map (Coo.map fin) :=
    h.jacobian _ _
  rw [j1]
  cases hj : g.jacobian p.assignments p.residual with
  | error e => rfl
  | ok A =>
    have e1 : ((Except.ok A : Py (Coo ℝ)).map (Coo.map fin)) = .ok (A.map fin) := rfl
    rw [e1]
    simp only [py_bind_ok]
    have e2 : (A.map fin).T.matmul (p.map fin).residual = (A.T.matmul p.residual).map (List.map fin) := fin_matmul A.T p.residual
    rw [e2]
    cases hb : A.T.matmul p.residual with
    | error e => rfl
    | ok b =>
      have e3 : ((Except.ok b : Py (List ℝ)).map (List.map fin)) = .ok (b.map fin) := rfl
      rw [e3]
      simp only [py_bind_ok]
      rw [hA.neg hP hp hr hj hb]

theorem lm_step_agrees (h : Lifts CE gE C g) (hA : AgreesOn g P LE L) (sE : LevenbergMarquardt Ext)
    (p : LMState ℝ) (hp : P p.assignments) (hr : ResidualIn g P p.residual) (hl : 0 ≤ p.lambd) :
    ({ sE with linear := LE } : LevenbergMarquardt Ext).step CE gE (p.map fin) =
      ({ sE with linear := LinSolver.lift L } : LevenbergMarquardt Ext).step CE gE (p.map fin) := by
  unfold LevenbergMarquardt.step
  have j1 : gE.jacobian (p.map fin).assignments (p.map fin).residual = (g.jacobian p.assignments p.residual).map (Coo.map fin) :=
    h.jacobian _ _
  rw [j1]
  cases hj : g.jacobian p.assignments p.residual with
  | error e => rfl
  | ok A =>
    have e1 : ((Except.ok A : Py (Coo ℝ)).map (Coo.map fin)) = .ok (A.map fin) := rfl
    rw [e1]
    simp only [py_bind_ok]
    have e2 : (A.map fin).T.matmul ((p.map fin).residual.map fun x => -x) = (A.T.matmul (p.residual.map fun x => -x)).map (List.map fin) := by
      have : (p.map fin).residual = p.residual.map fin := rfl
      rw [this, fin_map_neg]
      exact fin_matmul A.T _
    rw [e2]
    cases hb : A.T.matmul (p.residual.map fun x => -x) with
    | error e => rfl
    | ok b =>
      have e3 : ((Except.ok b : Py (List ℝ)).map (List.map fin)) = .ok (b.map fin) := rfl
      rw [e3]
      simp only [py_bind_ok]
      have e4 : (p.map fin).lambd = fin p.lambd := rfl
      rw [e4, hA _ _ _ _ hp hr hj hb _ hl, liftsSolver_lift L]
      rfl

theorem dogleg_step_agrees (h : Lifts CE gE C g) (hA : AgreesOn g P LE L) (sE : Dogleg Ext)
    (p : DoglegState ℝ) (hp : P p.assignments) (hr : ResidualIn g P p.residual) :
    ({ sE with linear := LE } : Dogleg Ext).step CE gE (p.map fin) =
      ({ sE with linear := LinSolver.lift L } : Dogleg Ext).step CE gE (p.map fin) := by
  unfold Dogleg.step
  have j1 : gE.jacobian (p.map fin).assignments (p.map fin).residual = (g.jacobian p.assignments p.residual).map (Coo.map fin) :=
    h.jacobian _ _
  rw [j1]
  cases hj : g.jacobian p.assignments p.residual with
  | error e => rfl
  | ok A =>
    have e1 : ((Except.ok A : Py (Coo ℝ)).map (Coo.map fin)) = .ok (A.map fin) := rfl
    rw [e1]
    simp only [py_bind_ok]
    have e2 : (A.map fin).T.matmul ((p.map fin).residual.map fun x => -x) = (A.T.matmul (p.residual.map fun x => -x)).map (List.map fin) := by
      have : (p.map fin).residual = p.residual.map fin := rfl
      rw [this, fin_map_neg]
      exact fin_matmul A.T _
    rw [e2]
    cases hb : A.T.matmul (p.residual.map fun x => -x) with
    | error e => rfl
    | ok b =>
      have e3 : ((Except.ok b : Py (List ℝ)).map (List.map fin)) = .ok (b.map fin) := rfl
      rw [e3]
      simp only [py_bind_ok]
      rw [fin_lit_zero, hA _ _ _ _ hp hr hj hb _ le_rfl, liftsSolver_lift L]

/-- `baseSolve` with two steps that agree. -/
theorem baseSolve_congr {σ : Type} {verbose : Bool} {base : σ → State Ext} {init : Assign Ext → Py σ}
    {step step' : σ → Py (σ × List (Msg Ext))} {fuel : Nat} {a : Assign Ext}
    (h : ∀ b st, a.updateStorageLayout CE gE.layout = .ok b → init b = .ok st →
      whileLoop (fun s => (base s).done) step fuel st = whileLoop (fun s => (base s).done) step' fuel st) :
    baseSolve CE gE verbose base init step fuel a = baseSolve CE gE verbose base init step' fuel a := by
  unfold baseSolve
  cases hb : a.updateStorageLayout CE gE.layout with
  | error e => rfl
  | ok b =>
    simp only [py_bind_ok]
    cases hi : init b with
    | error e => rfl
    | ok st =>
      simp only [py_bind_ok]
      rw [h b st hb hi]

end

end Jaxfg
