/-
Property C72 for the solver with a fixed number of steps, from assignments in any order: it returns, although it applies each step by
position (see C40). See Verif.Props.SolverReal for the setting: real arithmetic, inside a program that also knows infinities and NaNs.
-/
import Verif.Props.Progress
import Verif.Props.RetractAny
import Verif.Props.FixedOrder

namespace Jaxfg.Props
open Spec
open Ext (fin)

section
variable {F : Nat → FactorClass} {C : Ty → VarClass ℝ} {g : Graph}

/-- The graph converts the assignments itself. -/
theorem cost_converted {a b : Assign ℝ} (h : a.updateStorageLayout C g.layout = .ok b) (h' : b.updateStorageLayout C g.layout = .ok b) :
    (g.ops F C).computeCost a = (g.ops F C).computeCost b := by
  show g.computeCost F C a = g.computeCost F C b
  unfold Graph.computeCost Graph.computeWhitenedResidualVector
  rw [h, h']

theorem jacobian_converted {a b : Assign ℝ} (h : a.updateStorageLayout C g.layout = .ok b) (h' : b.updateStorageLayout C g.layout = .ok b)
    (r : List ℝ) : (g.ops F C).jacobian a r = (g.ops F C).jacobian b r := by
  show g.computeWhitenedResidualJacobian F C a r = g.computeWhitenedResidualJacobian F C b r
  unfold Graph.computeWhitenedResidualJacobian
  rw [h, h']

end

section
variable (F : Nat → FactorClass) (C : Ty → VarClass ℝ)

/-- **C72, a fixed number of steps from any order.** `FixedIterationGaussNewtonSolver` does not convert the assignments to the order of
the graph, so that it moves variables by the steps of others (C40). Still it returns from every order: one value for each variable, and
if retractions preserve a property that the initial values have, the returned values have it. -/
theorem C72_fixed_any_order (hC : GoodClasses C) (fs : List Factor) (hne : fs ≠ []) (hfs : ∀ f ∈ fs, FactorWF F C f)
    (hpos : ∀ f ∈ fs, ∀ v ∈ f.vars, 0 < (C v.ty).paramDim) (V : Var → Value ℝ → Prop)
    (hV : ∀ v x d, IsValueOf (C v.ty) x → V v x → d.length = (C v.ty).localDim → V v ((C v.ty).retract x d)) :
    ∃ g, Graph.make C fs = .ok g ∧ ∀ CE gE, Lifts CE gE C (g.ops F C) →
      ∀ vars val a, Holds C fs vars val a → (∀ v ∈ vars, V v (val v)) →
        ∀ (sE : FixedIteration Ext) L, LiftsSolver sE.linear L → AllJacobians C (g.ops F C) (Graph.variablesOf fs) (TotalSolver L) →
          ∃ o log val', Holds C fs vars val' o ∧ o.layout = a.layout ∧ (∀ v ∈ vars, V v (val' v)) ∧
            ∀ fuel : Nat, max 1 sE.iterations ≤ fuel → sE.solve CE gE fuel (a.map fin) = .ok (some (o.map fin, log)) := by
  obtain ⟨g, hg, hT⟩ := total_graph (F := F) hC hfs hne
  have hs := variablesOf_spec fs
  have hp : ∀ v ∈ Graph.variablesOf fs, 0 < (C v.ty).paramDim := fun v hv => by
    obtain ⟨f, hf, hv⟩ := (hs.2 v).1 hv; exact hpos f hf v hv
  refine ⟨g, hg, fun CE gE h vars val a ha hval sE L hsE hL => ?_⟩
  have hv : ∀ v, v ∈ vars ↔ v ∈ Graph.variablesOf fs := fun v => by rw [ha.sameVars, hs.2]
  have hcount : ∀ t, vars.countP (·.ty = t) ≤ (Graph.variablesOf fs).countP (·.ty = t) := fun t =>
    Nat.le_of_eq (((List.perm_ext_iff_of_nodup ha.assignment.1 hs.1).2 hv).countP_eq _)
  have hflag : a.layout.localFlag = false := ha.isGlobal
  -- what holds before every step
  obtain ⟨P, hP⟩ : ∃ P : State ℝ → Prop, P = fun q => IsAssignmentOf C vars q.assignments ∧ q.assignments.layout = a.layout ∧
      (g.ops F C).computeCost q.assignments = .ok (q.cost, q.residual) ∧
      ∀ v ∈ vars, ∃ x, q.assignments.getValue C v = .ok x ∧ V v x := ⟨_, rfl⟩
  have conv : ∀ b, IsAssignmentOf C vars b → b.layout = a.layout → ∃ b', b.updateStorageLayout C g.layout = .ok b' ∧
      IsAssignmentOf C (Graph.variablesOf fs) b' ∧ b'.layout = g.layout ∧ b'.updateStorageLayout C g.layout = .ok b' := by
    intro b hb hbl
    obtain ⟨b', h1, h2, h3⟩ := progress_in hT.sane hb (by rw [hbl]; exact hflag) hv hp
    refine ⟨b', h1, h2, h3, ?_⟩
    have : b'.layout = Layout.make C (Graph.variablesOf fs) false := h3.trans hT.sane.layout
    have e : g.layout = Layout.make C (Graph.variablesOf fs) false := hT.sane.layout
    unfold Assign.updateStorageLayout
    rw [this, e, layoutEq_refl C hs.1]
    rfl
  have cost : ∀ b, IsAssignmentOf C vars b → b.layout = a.layout → ∃ c r, (g.ops F C).computeCost b = .ok (c, r) := by
    intro b hb hbl
    obtain ⟨b', h1, h2, h3, h4⟩ := conv b hb hbl
    obtain ⟨c, r, hc⟩ := hT.cost b' h2 h3
    exact ⟨c, r, by rw [cost_converted h1 h4, hc]⟩
  have step : ∀ q, P q → ∃ (q' : State ℝ) (log : List (Msg Ext)), sE.step CE gE (q.map fin) = .ok (q'.map fin, log) ∧ P q' := by
    intro q hq
    rw [hP] at hq
    obtain ⟨q1, q2, q3, q4⟩ := hq
    obtain ⟨b', h1, h2, h3, h4⟩ := conv _ q1 q2
    have hc : (g.ops F C).computeCost b' = .ok (q.cost, q.residual) := by rw [← cost_converted h1 h4, q3]
    obtain ⟨A, hA, hsh⟩ := hT.jacobian b' b' _ _ h2 h3 h2 h3 hc
    obtain ⟨hwf, hsh2⟩ := hT.sane.jacobian b' b' _ _ A h2 h3 h2 h3 hc hA
    obtain ⟨y, k1, k2, -⟩ := matmul_ok (Props.cooWF_T hwf) (x := q.residual) hsh.symm
    have k2 : y.length = A.shape.2 := k2
    obtain ⟨d, k3, k4⟩ := hL b' b' _ _ A h2 h3 h2 h3 hc hA (y.map fun x => -x) 0 q.iterations (by simpa using k2) le_rfl
    have hδ : IsAssignmentOf C (Graph.variablesOf fs) ⟨d, (g.ops F C).localLayout⟩ :=
      ⟨hs.1, by simp only [hT.sane.localLayout, make_localFlag], k4.trans hsh2⟩
    have hδl : (⟨d, (g.ops F C).localLayout⟩ : Assign ℝ).layout.localFlag = true := by simp only [hT.sane.localLayout, make_localFlag]
    obtain ⟨b, m1, m2, m3, m4⟩ := C12_retract_by_position_partial C hC vars _ _ _ q1 (by rw [q2]; exact hflag) hδ hδl hcount
    obtain ⟨c, r, hcb⟩ := cost b m3 (m2.trans q2)
    refine ⟨_, _, (fixedStep_fin h hsE).2 ⟨A, y, d, b, c, r, (jacobian_converted h1 h4 _).trans hA, k1, k3, m1, hcb, rfl, rfl⟩, ?_⟩
    rw [hP]
    refine ⟨m3, m2.trans q2, hcb, fun v hv' => ?_⟩
    obtain ⟨k, hk⟩ := List.mem_iff_getElem?.1 (List.mem_filter.2 ⟨hv', by simp⟩ : v ∈ vars.filter (·.ty = v.ty))
    have hlt : k < ((Graph.variablesOf fs).filter (·.ty = v.ty)).length := by
      have h1 := hcount v.ty
      rw [List.countP_eq_length_filter, List.countP_eq_length_filter] at h1
      exact Nat.lt_of_lt_of_le (List.getElem?_eq_some_iff.1 hk).1 h1
    obtain ⟨x, e1, e2, e3⟩ := m4 v.ty k v _ hk (List.getElem?_eq_getElem hlt)
    obtain ⟨x', e4, e5⟩ := q4 v hv'
    obtain rfl : x = x' := Except.ok.inj (e1.symm.trans e4)
    refine ⟨_, e3, hV v x _ ?_ e5 e2⟩
    obtain ⟨f, hf⟩ := exists_rep q1
    rw [q2, hflag] at hf
    rw [hf.getValue_ok hv'] at e1
    rw [← Except.ok.inj e1]
    exact isValueOf_unravel (hC _).1 (hf.len _ hv')
  obtain ⟨c, r, hc⟩ := cost a ha.assignment rfl
  have hi := (initState_fin h (a := a)).2 ⟨c, r, hc, rfl⟩
  have h0 : P ⟨0, a, c, r, false⟩ := by
    rw [hP]
    exact ⟨ha.assignment, rfl, hc, fun v hv => ⟨_, ha.values v hv, hval v hv⟩⟩
  have hstep : ∀ st : State Ext, (∃ q : State ℝ, st = q.map fin ∧ P q) →
      ∃ st' log, sE.step CE gE st = .ok (st', log) ∧ ∃ q : State ℝ, st' = q.map fin ∧ P q := by
    rintro _ ⟨q, rfl, hq⟩
    obtain ⟨q', log, e1, e2⟩ := step q hq
    exact ⟨_, log, e1, q', rfl, e2⟩
  have hres : ∀ q : State ℝ, P q → ∃ val', Holds C fs vars val' q.assignments ∧ q.assignments.layout = a.layout ∧ ∀ v ∈ vars, V v (val' v) := by
    intro q hq
    rw [hP] at hq
    obtain ⟨q1, q2, -, q4⟩ := hq
    have : Nonempty (Value ℝ) := ⟨⟨0, []⟩⟩
    choose! val' h1 h2 using q4
    exact ⟨val', ⟨q1, by rw [q2]; exact hflag, ha.sameVars, h1⟩, q2, h2⟩
  cases hu : sE.unroll with
  | true =>
    obtain ⟨st', log, e1, q, rfl, hq⟩ := forLoop_progress hstep sE.iterations.toNat _ ⟨_, rfl, h0⟩
    obtain ⟨val', r1, r2, r3⟩ := hres q hq
    refine ⟨q.assignments, _, val', r1, r2, r3, fun fuel _ => fixedSolve_some.2 ⟨_, q.map fin, log, hi, ?_, rfl, rfl⟩⟩
    rw [hu, if_pos rfl, e1]; rfl
  | false =>
    rcases (fixed_counted (C := CE) (g := gE) sE).terminates (max 1 sE.iterations).toNat (s := State.map fin ⟨0, a, c, r, false⟩)
      rfl (by omega) (by simp only [id, State.map]; omega) with ⟨e, he⟩ | ⟨k, t, log, -, -, h5, -, h7⟩
    · exfalso
      have he := he _ le_rfl
      obtain ⟨o, ho, -⟩ := whileLoop_progress (done := fun s => (id s : State Ext).done) hstep (max 1 sE.iterations).toNat _
        ⟨_, rfl, h0⟩
      rw [ho] at he; cases he
    · obtain ⟨q, rfl, hq⟩ := h5.invariant (P := fun st => ∃ q : State ℝ, st = q.map fin ∧ P q) (fun s s' l hs hst => by
          obtain ⟨s2, l2, e1, e2⟩ := hstep s hs
          rw [hst] at e1; cases e1; exact e2) ⟨_, rfl, h0⟩
      obtain ⟨val', r1, r2, r3⟩ := hres q hq
      refine ⟨q.assignments, _, val', r1, r2, r3, fun fuel hf => fixedSolve_some.2 ⟨_, q.map fin, log, hi, ?_, rfl, rfl⟩⟩
      rw [hu, if_neg (by simp)]
      exact h7 fuel (by omega)

end

/-! ### Cases -/

namespace TwoPriors
open Ex (x y C F)

theorem reversed_holds (u v : ℝ) : Holds C fs [y, x] (fun w => if w = x then ⟨0, [⟨[1], [u]⟩]⟩ else ⟨0, [⟨[1], [v]⟩]⟩) (reversed u v) where
  assignment := ⟨by decide, rfl, rfl⟩
  isGlobal := rfl
  sameVars w := by
    have : (∃ f ∈ fs, w ∈ f.vars) ↔ w = x ∨ w = y := by simp [fs]
    rw [this]
    simp [or_comm]
  values w hw := by
    rcases (by simpa using hw : w = y ∨ w = x) with rfl | rfl <;> rfl

/-- Two priors, initial values in the other order than the graph's: the solver with a fixed number of steps returns. -/
example (stale : Pattern → ScipyCoo ℝ → ℝ → List ℝ → Py (List ℝ)) (addr : Nat) : ∃ g o log,
    Graph.make C fs = .ok g ∧ IsAssignmentOf C [y, x] o ∧ o.layout ≠ g.layout ∧
    (⟨false, LinSolver.lift fun A b l _ => (cholmodSolve stale .empty addr A b l).1, true, 10⟩ : FixedIteration Ext).solve
      (fun t => (C t).lift) (g.ops F C).lift 10 ((reversed 5 6).map fin) = .ok (some (o.map fin, log)) := by
  obtain ⟨g, hg, h⟩ := C72_fixed_any_order F C Ex.good fs (by simp [fs]) fs_wf (fun f hf v hv => by rw [Ex.paramDim]; omega) (fun _ _ => True)
    (fun _ _ _ _ _ _ => trivial)
  obtain ⟨g', hg', hL⟩ := C72_cholmod F C Ex.good fs (by simp [fs]) fs_wf stale addr
  obtain rfl : g' = g := Except.ok.inj (hg'.symm.trans hg)
  obtain ⟨o, log, val', h1, h2, -, h3⟩ := h _ _ (lifts_lift _ _) _ _ _ (reversed_holds 5 6) (fun _ _ => trivial)
    ⟨false, LinSolver.lift fun A b l _ => (cholmodSolve stale .empty addr A b l).1, true, 10⟩ _ (liftsSolver_lift fun A b l _ => (cholmodSolve stale .empty addr A b l).1) hL
  refine ⟨g', o, log, hg, h1.assignment, ?_, h3 10 (by norm_num)⟩
  obtain rfl : G = g' := Except.ok.inj (make_eq.symm.trans hg)
  rw [h2]
  intro e
  have := congrArg (fun l : Layout => l.indexFromVar.get? x) e
  cases this

/-- `N` iterations with conjugate gradients, with or without unrolling. -/
noncomputable def SN (unroll : Bool) (N : Nat) : FixedIteration Ext :=
  { verbose := false, linear := LinSolver.lift fun A b l _ => cgSolve A b l 0, unroll := unroll, iterations := N }

/-- The state after `k` steps, at `x = 1 + s` and `y = 2 - s`. -/
noncomputable def far (k : Nat) (s : ℝ) (d : Bool) : State ℝ := ⟨k, reversed (1 + s) (2 - s), 2 * s ^ 2, [s, -s], d⟩

/-- Each variable is moved by the step of the other: the errors double. -/
theorem far_step (unroll : Bool) (N k : Nat) (s : ℝ) (d : Bool) :
    (SN unroll N).step (fun t => (C t).lift) (G.ops F C).lift ((far k s d).map fin) =
      .ok ((far (k + 1) (2 * s) (decide (N ≤ k + 1))).map fin, []) := by
  have h := lifts_lift C (G.ops F C)
  refine (fixedStep_fin h (L := fun A b l _ => cgSolve A b l 0) (liftsSolver_lift fun A b l _ => cgSolve A b l 0)).2
    ⟨J, [s, -s], [-s, - -s], reversed (1 + 2 * s) (2 - 2 * s), 2 * (2 * s) ^ 2, [2 * s, -(2 * s)], jac_reversed _ _ _ _, matmul_T _ _,
      cg_eq _ _, ?_, ?_, ?_, rfl⟩
  · refine Eq.trans (b := .ok (reversed ((1 + s) + - -s) ((2 - s) + -s))) rfl ?_
    congr 2 <;> ring
  · rw [cost_reversed]
    congr 2
    · ring
    · congr 1
      · ring
      · congr 1; ring
  · have : (SN unroll N).iterations - 1 ≤ (k : Int) ↔ N ≤ k + 1 := by
      show (N : Int) - 1 ≤ (k : Int) ↔ _
      omega
    rw [← decide_eq_decide.2 this]
    rfl

/-- Any number of steps with this pattern. -/
theorem loop_of_steps {N : Nat} {unroll : Bool} {CE : Ty → VarClass Ext} {gE : GraphOps Ext} (hN : 0 < N) {st : Nat → Bool → State Ext}
    (hd : ∀ k d, (st k d).done = d)
    (h : ∀ k d, (SN unroll N).step CE gE (st k d) = .ok (st (k + 1) (decide (N ≤ k + 1)), [])) {a : Assign Ext}
    (hi : initState gE a = .ok (st 0 false)) {o : Assign Ext} (ho : ∀ d, (st N d).assignments = o) (fuel : Nat) (hf : N ≤ fuel) :
    (SN unroll N).solve CE gE fuel a = .ok (some (o, [])) := by
  have hit : (SN unroll N).iterations.toNat = N := rfl
  cases unroll with
  | true =>
    have key : ∀ n k d, ∃ d', forLoop ((SN true N).step CE gE) n (st k d) = .ok (st (k + n) d', []) := by
      intro n
      induction n with
      | zero => intro k d; exact ⟨d, rfl⟩
      | succ n ih =>
        intro k d
        obtain ⟨d', e⟩ := ih (k + 1) (decide (N ≤ k + 1))
        refine ⟨d', ?_⟩
        unfold forLoop
        rw [h]
        simp only [py_bind_ok, e]
        rw [show k + 1 + n = k + (n + 1) by omega]
        rfl
    obtain ⟨d', e⟩ := key N 0 false
    rw [Nat.zero_add] at e
    refine fixedSolve_some.2 ⟨_, st N d', [], hi, ?_, (ho d').symm, rfl⟩
    rw [hit, e]
    rfl
  | false =>
    have key : ∀ m k f, k + m = N → m ≤ f →
        whileLoop (fun s => s.done) ((SN false N).step CE gE) f (st k (decide (N ≤ k))) = .ok (some (st N true, [])) := by
      intro m
      induction m with
      | zero =>
        intro k f e _
        obtain rfl : k = N := by omega
        unfold whileLoop
        cases f <;> simp [hd]
      | succ m ih =>
        intro k f e hf
        obtain ⟨f, rfl⟩ : ∃ f', f = f' + 1 := ⟨f - 1, by omega⟩
        have hk : ¬ N ≤ k := by omega
        unfold whileLoop
        rw [hd, if_neg (by simpa using hk), h]
        simp only [py_bind_ok, ih (k + 1) f (by omega) (by omega)]
        rfl
    have e := key N 0 fuel (by omega) hf
    rw [decide_eq_false (by omega)] at e
    refine fixedSolve_some.2 ⟨_, st N true, [], hi, ?_, (ho _).symm, rfl⟩
    exact e

/-- The state after `k` steps in the order of the graph. -/
noncomputable def near (s : ℝ) (k : Nat) (d : Bool) : State ℝ :=
  if k = 0 then ⟨0, inOrder (1 + s) (2 - s), 2 * s ^ 2, [s, -s], d⟩ else ⟨k, inOrder 1 2, 0, [0, 0], d⟩

theorem near_step (unroll : Bool) (N k : Nat) (s : ℝ) (d : Bool) :
    (SN unroll N).step (fun t => (C t).lift) (G.ops F C).lift ((near s k d).map fin) =
      .ok ((near s (k + 1) (decide (N ≤ k + 1))).map fin, []) := by
  have h := lifts_lift C (G.ops F C)
  have hcost : (G.ops F C).computeCost (inOrder 1 2) = .ok (0, [0, 0]) := by rw [cost_inOrder]; norm_num
  have this : (SN unroll N).iterations - 1 ≤ (k : Int) ↔ N ≤ k + 1 := by
    show (N : Int) - 1 ≤ (k : Int) ↔ _
    omega
  have e : near s (k + 1) (decide (N ≤ k + 1)) = ⟨k + 1, inOrder 1 2, 0, [0, 0], decide ((SN unroll N).iterations - 1 ≤ (k : Int))⟩ := by
    rw [near, if_neg (by omega)]
    simp only [decide_eq_decide.2 this]
  rw [e]
  have hs := liftsSolver_lift fun A b l _ => cgSolve A b l 0
  by_cases hk : k = 0
  · subst hk
    refine (fixedStep_fin h (L := fun A b l _ => cgSolve A b l 0) hs).2 ⟨J, [s, -s], [-s, - -s], inOrder 1 2, 0, [0, 0],
      jac_inOrder _ _ _ _, matmul_T _ _, cg_eq _ _, ?_, hcost, rfl, rfl⟩
    refine Eq.trans (b := .ok (inOrder ((1 + s) + -s) ((2 - s) + - -s))) rfl ?_
    congr 2 <;> ring
  · rw [near, if_neg hk]
    refine (fixedStep_fin h (L := fun A b l _ => cgSolve A b l 0) hs).2 ⟨J, [0, 0], [-0, -0], inOrder 1 2, 0, [0, 0],
      jac_inOrder _ _ _ _, matmul_T _ _, cg_eq _ _, ?_, hcost, rfl, rfl⟩
    refine Eq.trans (b := .ok (inOrder (1 + -0) (2 + -0))) rfl ?_
    norm_num

end TwoPriors

open TwoPriors in
/-- **C40, how bad it is.** On the graph with the factors `x = 1` and `y = 2`, from `x = 1 + s` and `y = 2 - s`: if `x` is stored first,
as in the graph, any positive number of iterations ends at the minimum. If `y` is stored first, the error doubles with every iteration,
and the cost grows by the factor four. -/
theorem C40_fixed_iteration_diverges (unroll : Bool) (N fuel : Nat) (hN : 0 < N) (hf : N ≤ fuel) (s : ℝ) :
    Graph.make Ex.C fs = .ok G ∧
    (SN unroll N).solve (fun t => (Ex.C t).lift) (G.ops Ex.F Ex.C).lift fuel ((inOrder (1 + s) (2 - s)).map fin) =
      .ok (some ((inOrder 1 2).map fin, [])) ∧
    (SN unroll N).solve (fun t => (Ex.C t).lift) (G.ops Ex.F Ex.C).lift fuel ((reversed (1 + s) (2 - s)).map fin) =
      .ok (some ((reversed (1 + 2 ^ N * s) (2 - 2 ^ N * s)).map fin, [])) ∧
    (G.ops Ex.F Ex.C).computeCost (inOrder 1 2) = .ok (0, [0, 0]) ∧
    (G.ops Ex.F Ex.C).computeCost (reversed (1 + s) (2 - s)) = .ok (2 * s ^ 2, [s, -s]) ∧
    (G.ops Ex.F Ex.C).computeCost (reversed (1 + 2 ^ N * s) (2 - 2 ^ N * s)) = .ok (4 ^ N * (2 * s ^ 2), [2 ^ N * s, -(2 ^ N * s)]) := by
  have h := lifts_lift Ex.C (G.ops Ex.F Ex.C)
  have cost : ∀ t : ℝ, (G.ops Ex.F Ex.C).computeCost (reversed (1 + t) (2 - t)) = .ok (2 * t ^ 2, [t, -t]) := by
    intro t
    rw [cost_reversed]
    congr 2
    · ring
    · congr 1
      · ring
      · congr 1; ring
  have cost' : (G.ops Ex.F Ex.C).computeCost (inOrder (1 + s) (2 - s)) = .ok (2 * s ^ 2, [s, -s]) := by
    rw [cost_inOrder]
    congr 2
    · ring
    · congr 1
      · ring
      · congr 1; ring
  refine ⟨TwoPriors.make_eq, ?_, ?_, ?_, cost s, ?_⟩
  · refine loop_of_steps (st := fun k d => (near s k d).map fin) hN (fun k d => ?_) (fun k d => near_step ..) ?_ (fun d => ?_) fuel hf
    · unfold near; split <;> rfl
    · exact (initState_fin h).2 ⟨_, _, cost', rfl⟩
    · simp only [near, if_neg hN.ne']; rfl
  · refine loop_of_steps (st := fun k d => (far k (2 ^ k * s) d).map fin) hN (fun k d => rfl) (fun k d => ?_) ?_ (fun d => rfl) fuel hf
    · rw [far_step, pow_succ]
      congr 4
      ring
    · refine (initState_fin h).2 ⟨_, _, cost s, ?_⟩
      simp [far]
  · rw [cost_inOrder]; norm_num
  · rw [cost]
    congr 2
    rw [mul_pow, ← pow_mul, mul_comm N 2, pow_mul]
    ring

end Jaxfg.Props
