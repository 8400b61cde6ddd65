/-
Property C40 for `FixedIterationGaussNewtonSolver` (jaxfg/solvers/_fixed_iteration_gauss_newton_solver.py): which storage
orders do not matter.
-/
import Verif.Props.FixedAnyOrder

namespace Jaxfg.Props
open Spec
open Ext (fin)

/-- The graph brings assignments into its own order before it evaluates them, as `compute_cost` and
`compute_whitened_residual_jacobian` do. -/
def Converts {S : Type} [Zero S] (C : Ty → VarClass S) (g : GraphOps S) : Prop :=
  ∀ a b, a.updateStorageLayout C g.layout = .ok b → b.updateStorageLayout C g.layout = .ok b →
    g.computeCost a = g.computeCost b ∧ ∀ r, g.jacobian a r = g.jacobian b r

/-- The graphs of the library do. -/
theorem converts_ops (F : Nat → FactorClass) (C : Ty → VarClass ℝ) (g : Graph) : Converts C (g.ops F C) :=
  fun _ _ h h' => ⟨cost_converted h h', jacobian_converted h h'⟩

theorem goodClasses_lift {C : Ty → VarClass ℝ} (hC : GoodClasses C) : GoodClasses fun t => (C t).lift := by
  have hshape : ∀ {α β : Type} (f : α → β) (x : Value α), WellShaped x → WellShaped (x.map f) := by
    intro α β f x hx l hl
    obtain ⟨l', hl', rfl⟩ := List.mem_map.1 hl
    show (l'.data.map f).length = _
    rw [List.length_map]
    exact hx l' hl'
  have hmap : ∀ {α β : Type} (f : α → β) (x : Value α), (x.map f).leaves.map (·.shape) = x.leaves.map (·.shape) := by
    intro α β f x
    show (x.leaves.map _).map _ = _
    rw [List.map_map]
    rfl
  intro t
  refine ⟨hshape _ _ (hC t).1, fun x d hx hd => ?_⟩
  have hx' : IsValueOf (C t) (x.map Ext.toReal) := by
    refine ⟨hx.1, ?_, hshape _ _ hx.2.2⟩
    rw [hmap, hx.2.1]
    exact hmap _ _
  obtain ⟨h1, h2, h3⟩ := (hC t).2 _ (d.map Ext.toReal) hx' (by rw [List.length_map]; exact hd)
  refine ⟨h1, ?_, hshape _ _ h3⟩
  show (Value.map fin _).leaves.map _ = (Value.map fin _).leaves.map _
  rw [hmap, hmap, h2]

section
variable {S : Type} [Scal S] {C : Ty → VarClass S} {g : GraphOps S} {ws vars₁ vars₂ : List Var}

/-- Two states that differ at most in the storage order of their assignments. -/
def Alike (C : Ty → VarClass S) (vars₁ vars₂ : List Var) (p q : State S) : Prop :=
  p.iterations = q.iterations ∧ p.cost = q.cost ∧ p.residual = q.residual ∧ p.done = q.done ∧
    ∃ f, Rep C vars₁ false f p.assignments ∧ Rep C vars₂ false f q.assignments

theorem alike_step (hC : GoodClasses C) (hpos : ∀ t, 0 < (C t).paramDim) (hw : ws.Nodup)
    (hg : g.layout = Layout.make C ws false) (hgl : g.localLayout = Layout.make C ws true) (hconv : Converts C g)
    (hm₁ : ∀ v, v ∈ vars₁ ↔ v ∈ ws) (hm₂ : ∀ v, v ∈ vars₂ ↔ v ∈ ws)
    (ho₁ : ∀ t, vars₁.filter (·.ty = t) = ws.filter (·.ty = t)) (ho₂ : ∀ t, vars₂.filter (·.ty = t) = ws.filter (·.ty = t))
    (s : FixedIteration S)
    (hlen : ∀ a r A b i x, g.jacobian a r = .ok A → s.linear A b (Scal.lit 0) i = .ok x → x.length = g.localLayout.dim)
    {p q : State S} (h : Alike C vars₁ vars₂ p q) :
    (∃ e, s.step C g p = .error e ∧ s.step C g q = .error e) ∨
      ∃ p' q' l, s.step C g p = .ok (p', l) ∧ s.step C g q = .ok (q', l) ∧ Alike C vars₁ vars₂ p' q' := by
  have same : ∀ (a b : Assign S) (f : Var → List S), Rep C vars₁ false f a → Rep C vars₂ false f b →
      g.computeCost a = g.computeCost b ∧ ∀ r, g.jacobian a r = g.jacobian b r := by
    intro a b f ha hb
    obtain ⟨c, hc⟩ : ∃ c : Assign S, c = ⟨(grouped ws).flatMap f, Layout.make C ws false⟩ := ⟨_, rfl⟩
    have hcrep : Rep C ws false f c := by
      rw [hc]
      exact ⟨hw, rfl, fun v hv => ha.len v ((hm₁ v).2 hv), rfl⟩
    have ua := ha.update_unique hw hm₁ (fun v _ => hpos v.ty)
    have ub := hb.update_unique hw hm₂ (fun v _ => hpos v.ty)
    have uc := hcrep.update_unique hw (fun _ => Iff.rfl) (fun v _ => hpos v.ty)
    rw [← hc, ← hg] at ua ub uc
    obtain ⟨e1, e2⟩ := hconv a c ua uc
    obtain ⟨e3, e4⟩ := hconv b c ub uc
    exact ⟨e1.trans e3.symm, fun r => (e2 r).trans (e4 r).symm⟩
  obtain ⟨h1, h2, h3, h4, f, hf, hf'⟩ := h
  unfold FixedIteration.step
  rw [h1, h2, h3, (same _ _ _ hf hf').2]
  cases hJ : g.jacobian q.assignments q.residual with
  | error e => left; exact ⟨e, rfl, rfl⟩
  | ok A =>
    simp only [py_bind_ok]
    cases hT : A.T.matmul q.residual with
    | error e => left; exact ⟨e, rfl, rfl⟩
    | ok y =>
      simp only [py_bind_ok]
      cases hL : s.linear A (y.map fun x => -x) (Scal.lit 0) q.iterations with
      | error e => left; exact ⟨e, rfl, rfl⟩
      | ok δ =>
        simp only [py_bind_ok]
        have hδ : IsAssignmentOf C ws (⟨δ, g.localLayout⟩ : Assign S) := by
          refine ⟨hw, ?_, hlen _ _ _ _ _ _ hJ hL⟩
          rw [hgl]
          rfl
        obtain ⟨d, hd⟩ := exists_rep hδ
        have hflag : (⟨δ, g.localLayout⟩ : Assign S).layout.localFlag = true := by rw [hgl]; rfl
        rw [hflag] at hd
        obtain ⟨b, hb, -, hbr⟩ := hf.retract_ok hC hd (fun t _ => ho₁ t)
        obtain ⟨b', hb', -, hbr'⟩ := hf'.retract_ok hC hd (fun t _ => ho₂ t)
        rw [hb, hb']
        simp only [py_bind_ok]
        rw [(same _ _ _ hbr hbr').1]
        cases hc : g.computeCost b' with
        | error e => left; exact ⟨e, rfl, rfl⟩
        | ok cr =>
          right
          exact ⟨_, _, _, rfl, rfl, rfl, rfl, rfl, rfl, _, hbr, hbr'⟩

/-- **C40**, a fixed number of iterations: initial assignments with the same values that list the variables of each type in
the order of the graph have the same outcome, whatever the order of the types. (Missing: other orders of the variables of one
type, for which it is false.) -/
theorem C40_fixed_iteration_partial (hC : GoodClasses C) (hpos : ∀ t, 0 < (C t).paramDim) (hw : ws.Nodup)
    (hg : g.layout = Layout.make C ws false) (hgl : g.localLayout = Layout.make C ws true) (hconv : Converts C g)
    {a₁ a₂ : Assign S} (h₁ : IsAssignmentOf C vars₁ a₁) (h₂ : IsAssignmentOf C vars₂ a₂) (hl₁ : a₁.layout.localFlag = false)
    (hl₂ : a₂.layout.localFlag = false) (ho₁ : ∀ t, vars₁.filter (·.ty = t) = ws.filter (·.ty = t))
    (ho₂ : ∀ t, vars₂.filter (·.ty = t) = ws.filter (·.ty = t)) (hv : ∀ v ∈ vars₁, a₁.getValue C v = a₂.getValue C v)
    (s : FixedIteration S)
    (hlen : ∀ a r A b i x, g.jacobian a r = .ok A → s.linear A b (Scal.lit 0) i = .ok x → x.length = g.localLayout.dim) (fuel : Nat) :
    SameOutcome C (s.solve C g fuel a₁) (s.solve C g fuel a₂) := by
  have mem : ∀ us : List Var, (∀ t, us.filter (·.ty = t) = ws.filter (·.ty = t)) → ∀ v, v ∈ us ↔ v ∈ ws := by
    intro us hu v
    have := congrArg (v ∈ ·) (hu v.ty)
    simpa using this
  have hm₁ := mem _ ho₁
  have hm₂ := mem _ ho₂
  obtain ⟨f, hf⟩ := exists_rep h₁
  rw [hl₁] at hf
  obtain ⟨f', hf'⟩ := exists_rep h₂
  rw [hl₂] at hf'
  have hs : ∀ v, v ∈ vars₁ ↔ v ∈ vars₂ := fun v => (hm₁ v).trans (hm₂ v).symm
  have hf₂ := rep_of_same_values (fun t => (hC t).1) hf hf' hs hv
  have step := fun p q => alike_step hC hpos hw hg hgl hconv hm₁ hm₂ ho₁ ho₂ s hlen (p := p) (q := q)
  have forL : ∀ (n : Nat) (p q : State S), Alike C vars₁ vars₂ p q →
      (∃ e, forLoop (s.step C g) n p = .error e ∧ forLoop (s.step C g) n q = .error e) ∨
      ∃ p' q' l, forLoop (s.step C g) n p = .ok (p', l) ∧ forLoop (s.step C g) n q = .ok (q', l) ∧ Alike C vars₁ vars₂ p' q' := by
    intro n
    induction n with
    | zero => intro p q h; right; exact ⟨p, q, [], rfl, rfl, h⟩
    | succ n ih =>
      intro p q h
      unfold forLoop
      rcases step p q h with ⟨e, e1, e2⟩ | ⟨p', q', l, e1, e2, h'⟩
      · left; rw [e1, e2]; exact ⟨e, rfl, rfl⟩
      · rw [e1, e2]
        simp only [py_bind_ok]
        rcases ih p' q' h' with ⟨e, e3, e4⟩ | ⟨p'', q'', l', e3, e4, h''⟩
        · left; rw [e3, e4]; exact ⟨e, rfl, rfl⟩
        · right; rw [e3, e4]; exact ⟨p'', q'', _, rfl, rfl, h''⟩
  have whileL : ∀ (n : Nat) (p q : State S), Alike C vars₁ vars₂ p q →
      (∃ e, whileLoop (fun s => s.done) (s.step C g) n p = .error e ∧ whileLoop (fun s => s.done) (s.step C g) n q = .error e) ∨
      (whileLoop (fun s => s.done) (s.step C g) n p = .ok none ∧ whileLoop (fun s => s.done) (s.step C g) n q = .ok none) ∨
      ∃ p' q' l, whileLoop (fun s => s.done) (s.step C g) n p = .ok (some (p', l)) ∧
        whileLoop (fun s => s.done) (s.step C g) n q = .ok (some (q', l)) ∧ Alike C vars₁ vars₂ p' q' := by
    intro n
    induction n with
    | zero =>
      intro p q h
      unfold whileLoop
      rw [h.2.2.2.1]
      cases q.done with
      | true => right; right; exact ⟨p, q, [], rfl, rfl, h⟩
      | false => right; left; exact ⟨rfl, rfl⟩
    | succ n ih =>
      intro p q h
      unfold whileLoop
      rw [h.2.2.2.1]
      cases q.done with
      | true => right; right; exact ⟨p, q, [], rfl, rfl, h⟩
      | false =>
        simp only [Bool.false_eq_true, if_false]
        rcases step p q h with ⟨e, e1, e2⟩ | ⟨p', q', l, e1, e2, h'⟩
        · left; rw [e1, e2]; exact ⟨e, rfl, rfl⟩
        · rw [e1, e2]
          simp only [py_bind_ok]
          rcases ih p' q' h' with ⟨e, e3, e4⟩ | ⟨e3, e4⟩ | ⟨p'', q'', l', e3, e4, h''⟩
          · left; rw [e3, e4]; exact ⟨e, rfl, rfl⟩
          · right; left; rw [e3, e4]; exact ⟨rfl, rfl⟩
          · right; right; rw [e3, e4]; exact ⟨p'', q'', _, rfl, rfl, h''⟩
  -- the same cost of the initial assignments
  obtain ⟨c, hc⟩ : ∃ c : Assign S, c = ⟨(grouped ws).flatMap f, Layout.make C ws false⟩ := ⟨_, rfl⟩
  have hcost : g.computeCost a₁ = g.computeCost a₂ := by
    have hcrep : Rep C ws false f c := by
      rw [hc]
      exact ⟨hw, rfl, fun v hv => hf.len v ((hm₁ v).2 hv), rfl⟩
    have ua := hf.update_unique hw hm₁ (fun v _ => hpos v.ty)
    have ub := hf₂.update_unique hw hm₂ (fun v _ => hpos v.ty)
    have uc := hcrep.update_unique hw (fun _ => Iff.rfl) (fun v _ => hpos v.ty)
    rw [← hc, ← hg] at ua ub uc
    exact (hconv a₁ c ua uc).1.trans (hconv a₂ c ub uc).1.symm
  have final : ∀ p q : State S, Alike C vars₁ vars₂ p q → ∀ v, p.assignments.getValue C v = q.assignments.getValue C v := by
    rintro p q ⟨-, -, -, -, k, hk, hk'⟩ v
    by_cases hv : v ∈ vars₁
    · rw [hk.getValue_ok hv, hk'.getValue_ok ((hs v).1 hv)]
    · rw [hk.getValue_error hv, hk'.getValue_error fun h => hv ((hs v).2 h)]
  unfold FixedIteration.solve
  rw [hcost]
  cases hcc : g.computeCost a₂ with
  | error e => left; exact ⟨e, rfl, rfl⟩
  | ok cr =>
    obtain ⟨c0, r0⟩ := cr
    have i₁ : initState g a₁ = .ok ⟨0, a₁, c0, r0, false⟩ := initState_ok.2 ⟨c0, r0, hcost.trans hcc, rfl⟩
    have i₂ : initState g a₂ = .ok ⟨0, a₂, c0, r0, false⟩ := initState_ok.2 ⟨c0, r0, hcc, rfl⟩
    rw [i₁, i₂]
    simp only [py_bind_ok]
    have h0 : Alike C vars₁ vars₂ (⟨0, a₁, c0, r0, false⟩ : State S) ⟨0, a₂, c0, r0, false⟩ := ⟨rfl, rfl, rfl, rfl, f, hf, hf₂⟩
    cases s.unroll with
    | true =>
      simp only [if_true]
      rcases forL s.iterations.toNat _ _ h0 with ⟨e, e1, e2⟩ | ⟨p', q', l, e1, e2, h'⟩
      · left; rw [e1, e2]; exact ⟨e, rfl, rfl⟩
      · right; right
        rw [e1, e2]
        refine ⟨p'.assignments, q'.assignments, l ++ hcbPrint s.verbose (.terminated p'.iterations p'.cost), rfl, ?_, final _ _ h'⟩
        rw [h'.1, h'.2.1]
        rfl
    | false =>
      simp only [Bool.false_eq_true, if_false]
      rcases whileL fuel _ _ h0 with ⟨e, e1, e2⟩ | ⟨e1, e2⟩ | ⟨p', q', l, e1, e2, h'⟩
      · left; rw [e1, e2]; exact ⟨e, rfl, rfl⟩
      · right; left; rw [e1, e2]; exact ⟨rfl, rfl⟩
      · right; right
        rw [e1, e2]
        refine ⟨p'.assignments, q'.assignments, l ++ hcbPrint s.verbose (.terminated p'.iterations p'.cost), rfl, ?_, final _ _ h'⟩
        rw [h'.1, h'.2.1]
        rfl

end

theorem update_map {α β : Type} [Zero α] [Zero β] {f : α → β} (h0 : f 0 = 0) {C : Ty → VarClass α} {C' : Ty → VarClass β}
    (hd : ∀ loc t, dimOf C' loc t = dimOf C loc t) (a : Assign α) (tgt : Layout) :
    (a.map f).updateStorageLayout C' tgt = (a.updateStorageLayout C tgt).map (Assign.map f) := by
  unfold Assign.updateStorageLayout Assign.shuffleIndices
  simp only [hd, Assign.map, List.length_map]
  by_cases h1 : a.layout.eq tgt = true
  · simp [h1, Except.map, Assign.map]
  · simp only [h1, Bool.false_eq_true, if_false]
    by_cases h2 : a.layout.dim = tgt.dim
    swap
    · simp [h2, Except.map]
    by_cases h3 : a.layout.localFlag = tgt.localFlag
    swap
    · simp [h2, h3, Except.map]
    cases h4 : Assign.sameSet a.layout.getVariables tgt.getVariables with
    | false => simp [h2, h3, Except.map]
    | true =>
    simp only [h2, h3, decide_true, pyAssert_true, py_bind_ok]
    cases List.foldlM (fun idx v => do
        let s ← a.layout.indexFromVar.get v
        let t ← tgt.indexFromVar.get v
        setSlice idx t (dimOf C tgt.localFlag v.ty) (List.range' s (dimOf C tgt.localFlag v.ty)))
        (List.replicate tgt.dim 0) tgt.getVariables with
    | error e => rfl
    | ok idx =>
    simp only [py_bind_ok]
    rw [gather_map h0, List.length_map]
    by_cases h5 : (gather a.storage idx).length = a.storage.length
    · simp [h5, Except.map, Assign.map]
    · simp [h5, Except.map]

theorem converts_lift {C : Ty → VarClass ℝ} {g : GraphOps ℝ} (h : Converts C g) : Converts (fun t => (C t).lift) g.lift := by
  have hd : ∀ loc t, dimOf C loc t = dimOf (fun t => (C t).lift) loc t := by
    intro loc t
    have : ((C t).lift).paramDim = (C t).paramDim := by
      show ((C t).default.map fin).flatten.length = _
      rw [flatten_value_map, List.length_map]
      rfl
    unfold dimOf
    rw [this]
    rfl
  have conv : ∀ a b : Assign Ext, a.updateStorageLayout (fun t => (C t).lift) g.layout = .ok b →
      (a.map Ext.toReal).updateStorageLayout C g.layout = .ok (b.map Ext.toReal) := by
    intro a b hab
    rw [update_map (C := fun t => (C t).lift) rfl hd, hab]
    rfl
  intro a b hab hbb
  obtain ⟨h1, h2⟩ := h _ _ (conv a b hab) (conv b b hbb)
  refine ⟨?_, fun r => ?_⟩
  · show Except.map _ _ = Except.map _ _
    rw [h1]
  · show Except.map _ _ = Except.map _ _
    rw [h2]

theorem cholmod_length {stale : Pattern → ScipyCoo ℝ → ℝ → List ℝ → Py (List ℝ)} {addr : Nat} {A : Coo ℝ} {b x : List ℝ} {l : ℝ}
    (h : (cholmodSolve stale .empty addr A b l).1 = .ok x) : x.length = A.shape.2 := by
  unfold cholmodSolve at h
  cases hS : A.T.asScipy with
  | error e => rw [hS] at h; cases h
  | ok S =>
    rw [hS] at h
    have hshape : S.shape.1 = A.shape.2 := by
      unfold Coo.asScipy at hS
      repeat' split at hS
      all_goals first | (cases hS; done) | (cases hS; rfl)
    have hp : (cholmodAnalysis .empty addr S).1 = S.pattern := rfl
    simp only [hp] at h
    unfold cholmodFactorSolve at h
    rw [if_pos rfl] at h
    split at h
    · cases h
    · simp only at h
      split at h
      · injection h with h
        rw [← h, List.length_ofFn, hshape]
      · cases h

/-- **C40**, a fixed number of iterations with CHOLMOD, for the graphs of the library: if both initial assignments list the
variables of each type in the order of the graph, the outcome is the same. -/
theorem C40_fixed_iteration_cholmod_partial {F : Nat → FactorClass} {C : Ty → VarClass ℝ} (hC : GoodClasses C)
    (hpos : ∀ t, 0 < (C t).paramDim) (fs : List Factor) (hne : fs ≠ []) (hfs : ∀ f ∈ fs, FactorWF F C f) :
    ∃ g, Graph.make C fs = .ok g ∧ ∀ (vars₁ vars₂ : List Var) (a₁ a₂ : Assign ℝ), IsAssignmentOf C vars₁ a₁ →
      IsAssignmentOf C vars₂ a₂ → a₁.layout.localFlag = false → a₂.layout.localFlag = false →
      (∀ t, vars₁.filter (·.ty = t) = g.getVariables.filter (·.ty = t)) →
      (∀ t, vars₂.filter (·.ty = t) = g.getVariables.filter (·.ty = t)) →
      (∀ v ∈ vars₁, a₁.getValue C v = a₂.getValue C v) →
      ∀ (verbose unroll : Bool) (iterations : Int) (stale : Pattern → ScipyCoo ℝ → ℝ → List ℝ → Py (List ℝ)) (addr fuel : Nat),
        let s : FixedIteration Ext := ⟨verbose, LinSolver.lift fun A b l _ => (cholmodSolve stale .empty addr A b l).1, unroll, iterations⟩
        SameOutcome (fun t => (C t).lift) (s.solve (fun t => (C t).lift) (g.ops F C).lift fuel (a₁.map fin))
          (s.solve (fun t => (C t).lift) (g.ops F C).lift fuel (a₂.map fin)) := by
  obtain ⟨g, hg, hG⟩ := graph_ok (F := F) hfs hne
  have hs := variablesOf_spec fs
  have hvars : g.getVariables = grouped (Graph.variablesOf fs) := by
    unfold Graph.getVariables; rw [hG.localLayout]; exact make_getVariables C hs.1 true
  refine ⟨g, hg, ?_⟩
  intro vars₁ vars₂ a₁ a₂ h₁ h₂ hl₁ hl₂ ho₁ ho₂ hv verbose unroll iterations stale addr fuel
  have hdim : ∀ t, ((C t).lift).paramDim = (C t).paramDim := by
    intro t
    show ((C t).default.map fin).flatten.length = _
    rw [flatten_value_map, List.length_map]
    rfl
  have hmake : ∀ us loc, Layout.make (fun t => (C t).lift) us loc = Layout.make C us loc := by
    intro us loc
    have : dimOf (fun t => (C t).lift) loc = dimOf C loc := by
      funext t
      unfold dimOf
      rw [hdim]
      rfl
    unfold Layout.make
    rw [this]
  have hlift : ∀ us (a : Assign ℝ), IsAssignmentOf C us a → IsAssignmentOf (fun t => (C t).lift) us (a.map fin) := by
    rintro us a ⟨h1, h2, h3⟩
    refine ⟨h1, ?_, ?_⟩
    · rw [hmake]; exact h2
    · show (a.storage.map fin).length = _
      rw [List.length_map]; exact h3
  refine C40_fixed_iteration_partial (ws := Graph.variablesOf fs) (goodClasses_lift hC) (fun t => by rw [hdim]; exact hpos t) hs.1
    ?_ ?_ (converts_lift (converts_ops F C g)) (hlift _ _ h₁) (hlift _ _ h₂) hl₁ hl₂ ?_ ?_ ?_ _ ?_ fuel
  · rw [hmake]; exact hG.layout
  · rw [hmake]; exact hG.localLayout
  · intro t; rw [ho₁, hvars, filter_grouped]
  · intro t; rw [ho₂, hvars, filter_grouped]
  · intro v hm
    have hget : ∀ a : Assign ℝ, (a.map fin).getValue (fun t => (C t).lift) v = (a.getValue C v).map (Value.map fin) := by
      intro a
      unfold Assign.getValue
      show (a.layout.indexFromVar.get v >>= fun i => _) = _
      cases a.layout.indexFromVar.get v with
      | error e => rfl
      | ok i =>
        simp only [py_bind_ok]
        show ((C v.ty).lift).unflatten (slice (a.storage.map fin) i ((C v.ty).lift).paramDim) = _
        rw [hdim, slice, ← List.map_drop, ← List.map_take, unflatten_map (c := C v.ty) rfl]
        rfl
    rw [hget, hget, hv v hm]
  · intro a r A b i x hJ hx
    obtain ⟨A', hA', rfl⟩ : ∃ A', g.computeWhitenedResidualJacobian F C (a.map Ext.toReal) (r.map Ext.toReal) = .ok A' ∧
        A = A'.map fin := by
      have hJ' : Except.map (Coo.map fin) (g.computeWhitenedResidualJacobian F C (a.map Ext.toReal) (r.map Ext.toReal)) = .ok A := hJ
      cases h : g.computeWhitenedResidualJacobian F C (a.map Ext.toReal) (r.map Ext.toReal) with
      | error e => rw [h] at hJ'; cases hJ'
      | ok A' => rw [h] at hJ'; cases hJ'; exact ⟨A', rfl, rfl⟩
    have hshape : A'.shape.2 = g.localLayout.dim := by
      unfold Graph.computeWhitenedResidualJacobian at hA'
      simp only [bind, Except.bind] at hA'
      repeat' split at hA'
      all_goals first
        | (cases hA'; done)
        | (cases hA'; rfl)
    have hx' : Except.map (List.map fin) (cholmodSolve stale .empty addr ((A'.map fin).map Ext.toReal) (b.map Ext.toReal)
        (Ext.toReal (Scal.lit 0))).1 = .ok x := hx
    cases h : (cholmodSolve stale .empty addr ((A'.map fin).map Ext.toReal) (b.map Ext.toReal) (Ext.toReal (Scal.lit 0))).1 with
    | error e => rw [h] at hx'; cases hx'
    | ok y =>
      rw [h] at hx'
      cases hx'
      rw [List.length_map, cholmod_length h]
      exact hshape

/-- Non-vacuity: the graph with two scalars `x`, `y` and a plane vector `z`; the two assignments store `z` first and between the
scalars. -/
example : ∃ (g : Graph) (a₁ a₂ : Assign ℝ), Graph.make Ex.C Ex.fs = .ok g ∧ Ex.fs ≠ [] ∧ (∀ f ∈ Ex.fs, FactorWF Ex.F Ex.C f) ∧
    GoodClasses Ex.C ∧ (∀ t, 0 < (Ex.C t).paramDim) ∧
    IsAssignmentOf Ex.C [Ex.z, Ex.x, Ex.y] a₁ ∧ IsAssignmentOf Ex.C [Ex.x, Ex.z, Ex.y] a₂ ∧ a₁.layout.localFlag = false ∧
    a₂.layout.localFlag = false ∧ a₁.storage ≠ a₂.storage ∧
    (∀ t, [Ex.z, Ex.x, Ex.y].filter (·.ty = t) = g.getVariables.filter (·.ty = t)) ∧
    (∀ t, [Ex.x, Ex.z, Ex.y].filter (·.ty = t) = g.getVariables.filter (·.ty = t)) ∧
    ∀ v ∈ [Ex.z, Ex.x, Ex.y], a₁.getValue Ex.C v = a₂.getValue Ex.C v := by
  obtain ⟨g, hg, hG⟩ := graph_ok (F := Ex.F) Ex.fs_wf (by simp [Ex.fs])
  have hvars : g.getVariables = [Ex.x, Ex.y, Ex.z] := by
    unfold Graph.getVariables
    rw [hG.localLayout]
    rfl
  refine ⟨g, ⟨[30, 40, 10, 20], Layout.make Ex.C [Ex.z, Ex.x, Ex.y] false⟩, ⟨[10, 20, 30, 40], Layout.make Ex.C [Ex.x, Ex.z, Ex.y] false⟩,
    hg, by simp [Ex.fs], Ex.fs_wf, Ex.good, fun t => by rw [Ex.paramDim]; omega, ⟨by decide, rfl, rfl⟩, ⟨by decide, rfl, rfl⟩, rfl, rfl,
    by norm_num, ?_, ?_, ?_⟩
  · intro t
    rw [hvars]
    by_cases h0 : t = 0
    · subst h0; rfl
    · by_cases h1 : t = 1
      · subst h1; rfl
      · simp [Ex.x, Ex.y, Ex.z, Ne.symm h0, Ne.symm h1]
  · intro t
    rw [hvars]
    by_cases h0 : t = 0
    · subst h0; rfl
    · by_cases h1 : t = 1
      · subst h1; rfl
      · simp [Ex.x, Ex.y, Ex.z, Ne.symm h0, Ne.symm h1]
  · intro v hv
    simp only [List.mem_cons, List.not_mem_nil, or_false] at hv
    rcases hv with rfl | rfl | rfl <;> rfl

end Jaxfg.Props
