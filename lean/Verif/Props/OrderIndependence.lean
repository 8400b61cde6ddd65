/-
Property C73: solving does not depend on the order of the factors and of the stored variables. See Verif.Props.SolverReal for the
setting: real arithmetic, inside a program that also knows infinities and NaNs.
-/
import Verif.Lemmas.OrderSim
import Verif.Props.Equivariance
import Verif.Props.Linearize

namespace Jaxfg.Props
open Spec
open Ext (fin)

/-! ### Linear solvers -/

/-- **C73, CHOLMOD.** Whatever the matrix is, and for every damping, the direct solver returns the same solution if equations
and unknowns are listed in another order (for a factor without an analysis of another pattern, see C37). -/
theorem C73_cholmod (stale : Pattern → ScipyCoo ℝ → ℝ → List ℝ → Py (List ℝ)) (addr : Nat) :
    OrderFree fun A b l _ => (cholmodSolve stale .empty addr A b l).1 := cholmod_orderFree stale addr

/-- **C73, conjugate gradient.** The same for both iterative solvers and every tolerance, even if they stop early, for matrices
that list no position twice. (For a column of zeros the code divides by zero; the numbers of the model then mean nothing.) -/
theorem C73_conjugate_gradient (tolerance eta : ℝ) :
    OrderFreeDistinct (fun A b l i => cgSolve A b l (cgTolerance tolerance i)) ∧
    OrderFreeDistinct (fun A b l i => cgSolve A b l (inexactTolerance eta i)) :=
  ⟨cg_orderFree _, cg_orderFree _⟩

/-- A matrix, its rows and columns exchanged, and a right hand side. -/
example : Reordered (Equiv.swap (0 : Fin 2) 1) (Equiv.swap (0 : Fin 2) 1) (⟨[1, 2, 3], [0, 0, 1], [0, 1, 1], (2, 2)⟩ : Coo ℝ)
      ⟨[3, 1, 2], [0, 1, 1], [0, 1, 0], (2, 2)⟩ ∧ Permuted (Equiv.swap (0 : Fin 2) 1) [5, 7] [7, 5] := by
  refine ⟨⟨?_, ?_, rfl, rfl, ?_⟩, ⟨rfl, rfl, ?_⟩⟩
  · simp [CooWF]
  · simp [CooWF]
  · funext i j
    fin_cases i <;> fin_cases j <;> simp [cooMatrix, entries]
  · funext i
    fin_cases i <;> simp [vec]

/-! ### Nonlinear solvers -/

section
variable (F : Nat → FactorClass) (C : Ty → VarClass ℝ)

/-- **C73.** Solving from the same values gives the same values, whatever the order of the factors in the list and of the variables
in the two assignments: a solver that returns for one order returns for the other after the same number of steps, prints the
same lines, and its result, which keeps the order of its input, holds the same value of every variable. All termination
tests may be on. The linear solver must not depend on the order either (`C73_cholmod`), at least if no factor lists a variable
twice (`C73_conjugate_gradient`). The solver with a fixed number of steps does not convert the assignments, so they must
be in the order of the graph (see C40). -/
theorem C73_order_independent (hC : GoodClasses C) (fs fs' : List Factor) (hp : fs.Perm fs') (hne : fs ≠ [])
    (hfs : ∀ f ∈ fs, FactorWF F C f) (hpos : ∀ f ∈ fs, ∀ v ∈ f.vars, 0 < (C v.ty).paramDim) :
    ∃ g g', Graph.make C fs = .ok g ∧ Graph.make C fs' = .ok g' ∧
      ∀ CE gE gE', Lifts CE gE C (g.ops F C) → Lifts CE gE' C (g'.ops F C) →
      ∀ vars vars' val a a', SameValues C fs vars vars' val a a' →
        let O := fun o o' => o.layout = a.layout ∧ o'.layout = a'.layout ∧ ∃ val', SameValues C fs vars vars' val' o o'
        let Free := fun L : LinSolver ℝ => OrderFree L ∨ OrderFreeDistinct L ∧ ∀ f ∈ fs, f.vars.Nodup
        (∀ sE s, LiftsGN sE s → Free s.linear → SolvesAlike (sE.solve CE gE) (sE.solve CE gE') a a' O) ∧
        (∀ sE s, LiftsLM sE s → Free s.linear → s.lambdaFactor ≠ 0 → SolvesAlike (sE.solve CE gE) (sE.solve CE gE') a a' O) ∧
        (∀ sE s, LiftsDogleg sE s → Free s.linear → ZeroAtZero s.linear → 0 < s.radiusInitial →
          SolvesAlike (sE.solve CE gE) (sE.solve CE gE') a a' O) ∧
        (∀ (sE : FixedIteration Ext) L, LiftsSolver sE.linear L → Free L → a.layout = g.layout → a'.layout = g'.layout →
          SolvesAlike (sE.solve CE gE) (sE.solve CE gE') a a' O) := by
  obtain ⟨g, hg, hG⟩ := graph_ok (F := F) hfs hne
  have hfs' : ∀ f ∈ fs', FactorWF F C f := fun f hf => hfs f (hp.mem_iff.2 hf)
  have hne' : fs' ≠ [] := fun h => hne (by rw [h] at hp; exact hp.eq_nil)
  obtain ⟨g', hg', hG'⟩ := graph_ok (F := F) hfs' hne'
  refine ⟨g, g', hg, hg', fun CE gE gE' hl hl' vars vars' val a a' ha => ?_⟩
  have hnd : (∀ f ∈ fs, f.vars.Nodup) → g.jacobianCoords.Nodup ∧ g'.jacobianCoords.Nodup := by
    intro hn
    obtain ⟨g1, h1, -, -, h2, -⟩ := C19_coordinates F C hC fs hne hfs
    obtain ⟨g2, h3, -, -, h4, -⟩ := C19_coordinates F C hC fs' hne' hfs'
    rw [hg] at h1; rw [hg'] at h3
    cases h1; cases h3
    exact ⟨h2 hn, h4 fun f hf => hn f (hp.mem_iff.2 hf)⟩
  have sim := fun L hL => order_sim (L := L) hC hfs hne hp hG hG' hnd hL
  obtain ⟨b, b', u1, u2, hb⟩ := sameValues_in hC hpos (variablesOf_perm hp) hG hG' ha
  have hin : ∀ {x}, a.updateStorageLayout C (g.ops F C).layout = .ok x →
      ∃ x', a'.updateStorageLayout C (g'.ops F C).layout = .ok x' ∧ OrdR C fs fs' x x' := by
    intro x hx
    have hx : a.updateStorageLayout C g.layout = .ok x := hx
    rw [u1] at hx; cases hx
    exact ⟨b', u2, hb⟩
  have hout : ∀ {x x' o}, OrdR C fs fs' x x' → x.updateStorageLayout C a.layout = .ok o →
      ∃ o', x'.updateStorageLayout C a'.layout = .ok o' ∧
        (o.layout = a.layout ∧ o'.layout = a'.layout ∧ ∃ val', SameValues C fs vars vars' val' o o') := by
    intro x x' o hx ho
    obtain ⟨o1, o1', e1, e2, e3⟩ := sameValues_out hpos (variablesOf_perm hp) ha hx
    rw [e1] at ho; cases ho
    exact ⟨o1', e2, e3⟩
  refine ⟨fun sE s hs hL fuel out log h => ?_, fun sE s hs hL hf fuel out log h => ?_,
    fun sE s hs hL hz hr fuel out log h => ?_, fun sE L hs hL h1 h2 fuel out log h => ?_⟩
  · obtain ⟨ρ, σ, hS⟩ := sim _ hL
    exact hS.gnSolve hl hl' hs hs (order_tests (variablesOf_perm hp) hS _) hin hout h
  · obtain ⟨ρ, σ, hS⟩ := sim _ hL
    exact hS.lmSolve hl hl' hs hs hf (order_tests (variablesOf_perm hp) hS _) hin hout h
  · obtain ⟨ρ, σ, hS⟩ := sim _ hL
    exact hS.doglegSolve hl hl' hs hs hz hr (order_tests (variablesOf_perm hp) hS _) hin hout h
  · obtain ⟨ρ, σ, hS⟩ := sim _ hL
    have e1 : a.updateStorageLayout C g.layout = .ok a := by
      unfold Assign.updateStorageLayout; rw [h1, hG.layout, layoutEq_refl C (variablesOf_spec _).1]; rfl
    have e2 : a'.updateStorageLayout C g'.layout = .ok a' := by
      unfold Assign.updateStorageLayout; rw [h2, hG'.layout, layoutEq_refl C (variablesOf_spec _).1]; rfl
    rw [e1] at u1; rw [e2] at u2; cases u1; cases u2
    obtain ⟨o, o', k1, k2, val', s1, s2⟩ := hS.fixedSolve hl hl' hs hs rfl rfl rfl hb h
    have hv := variablesOf_spec fs
    have hv' := variablesOf_spec fs'
    have l1 : o.layout = a.layout := by rw [h1, hG.layout]; exact s1.1.layout
    have l2 : o'.layout = a'.layout := by rw [h2, hG'.layout]; exact s2.1.layout
    have m1 := s1.holds hv.2
    have m2 := s2.holds hv'.2
    have same : ∀ v, v ∈ vars ↔ v ∈ Graph.variablesOf fs := fun v => by rw [ha.left.sameVars, hv.2]
    have same' : ∀ v, v ∈ vars' ↔ v ∈ Graph.variablesOf fs' := fun v => by
      rw [ha.right.sameVars, ← hv.2, (variablesOf_perm hp).mem_iff]
    refine ⟨o, o', k1, k2, l1, l2, val', ⟨⟨ha.left.assignment.1, ?_, m1.assignment.2.2⟩, m1.isGlobal, ha.left.sameVars,
      fun v hv => m1.values v ((same v).1 hv)⟩, ⟨⟨ha.right.assignment.1, ?_, m2.assignment.2.2⟩, m2.isGlobal, ha.right.sameVars,
      fun v hv => m2.values v ((same' v).1 hv)⟩⟩
    · rw [l1]; exact ha.left.assignment.2.1
    · rw [l2]; exact ha.right.assignment.2.1

end

namespace PoseEx

/-- The pose graph of `PoseEx` and the same graph with its factors and stored variables in another order, solved from poses that
do not satisfy the measurements: both runs return, with the same lines and the same values. -/
example (stale : Pattern → ScipyCoo ℝ → ℝ → List ℝ → Py (List ℝ)) (addr : Nat) : ∃ g g' a a' o o' val log,
    let s' := (GaussNewton.defaults fun A b l _ => (cholmodSolve stale .empty addr A b l).1).lift
    Graph.make C fs = .ok g ∧ Graph.make C [turn, prior, step] = .ok g' ∧
    SameValues C fs [x, y, r, s] [s, y, r, x] (poseValue K (pose false)) a a' ∧
    s'.solve (fun t => (C t).lift) (g.ops F C).lift 100 (a.map fin) = .ok (some (o.map fin, log)) ∧
    s'.solve (fun t => (C t).lift) (g'.ops F C).lift 100 (a'.map fin) = .ok (some (o'.map fin, log)) ∧
    SameValues C fs [x, y, r, s] [s, y, r, x] val o o' := by
  obtain ⟨a, ha⟩ := holds false
  have hC : GoodClasses C := lie_goodClasses fun _ => rfl
  have hM : ∀ f ∈ fs, ∃ P, Measures F K f P := by
    intro f hf
    simp only [fs, List.mem_cons, List.not_mem_nil, or_false] at hf
    obtain ⟨m1, m2, m3⟩ := measures
    rcases hf with rfl | rfl | rfl
    · exact ⟨_, m1⟩
    · exact ⟨_, m2⟩
    · exact ⟨_, m3⟩
  have hwf : ∀ f ∈ fs, FactorWF F C f := fun f hf =>
    (C54_wellformed F C K f _ (hM f hf).choose_spec fun v hv => ⟨rfl, noise f hf v hv⟩).1
  have hvars : ∀ v, v ∈ [x, y, r, s] ↔ v ∈ [s, y, r, x] := fun v => by simp; tauto
  obtain ⟨a', -, -, ha'⟩ := (stores_of_holds hC ha).update (vs := [s, y, r, x]) (by decide) hvars fun v _ => lie_paramDim_pos _
  have hsame : SameValues C fs [x, y, r, s] [s, y, r, x] (poseValue K (pose false)) a a' :=
    ⟨ha, ha'.holds fun v => by rw [← hvars, ha.sameVars]⟩
  obtain ⟨g, g', hg, hg', h⟩ := C73_order_independent F C hC fs [turn, prior, step]
    (List.perm_append_comm (l₁ := [prior, step]) (l₂ := [turn])) (by simp [fs]) hwf (fun f hf v hv => lie_paramDim_pos _)
  have h1 := (h _ _ _ (lifts_lift _ _) (lifts_lift _ _) _ _ _ a a' hsame).1 _ _
    (liftsGN_lift (GaussNewton.defaults fun A b l _ => (cholmodSolve stale .empty addr A b l).1)) (.inl (C73_cholmod stale addr))
  obtain ⟨g1, hg1, h2⟩ := C72_solve_returns F C hC fs (by simp [fs]) hwf (fun f hf v hv => lie_paramDim_pos _)
  obtain ⟨g2, hg2, h3⟩ := C72_cholmod F C hC fs (by simp [fs]) hwf stale addr
  rw [hg] at hg1 hg2
  cases Except.ok.inj hg1
  cases Except.ok.inj hg2
  obtain ⟨o, log, -, -, h4⟩ := (h2 _ _ (lifts_lift _ _) _ a ha.assignment ha.isGlobal ha.sameVars).1 _ _
    (liftsGN_lift (GaussNewton.defaults fun A b l _ => (cholmodSolve stale .empty addr A b l).1)) h3
  have h4 := h4 100 (by show max (1 : Int) 100 ≤ 100; norm_num)
  obtain ⟨o1, o', e1, e2, -, -, val, e3⟩ := h1 100 _ _ h4
  exact ⟨g, g', a, a', o1, o', val, log, hg, hg', hsame, by rw [← e1]; exact h4, e2, e3⟩

end PoseEx

end Jaxfg.Props
