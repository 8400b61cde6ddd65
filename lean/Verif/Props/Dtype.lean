/-
C114: integer initial values. The storage vector has the dtype of the values it is made from; nothing in the code asks for a
floating-point type. Storage that is made from integers rounds everything that is written to it towards zero.
-/
import Verif.Lemmas.Dtype
import Verif.Lemmas.ExamplePoly
import Verif.Lemmas.Stationary
import Verif.Props.Assign
import Verif.Props.Invariants

namespace Jaxfg.Props
open Spec
open Ext (fin)

/-- **C114, creation.** `make_from_partial_dict` on values with dtypes does to the numbers what it does to numbers; in particular it
raises for the same arguments. The storage it creates is an integer array if, and only if, an integer value is given for every
variable: one floating-point array, or one default value, makes it a floating-point array. -/
theorem C114_make (C : Ty → VarClass ℝ) (vars : List Var) (hn : vars.Nodup) (d : PyDict Var DValue) (d' : PyDict Var (Value ℝ))
    (hd : ∀ v, d'.get? v = (d.get? v).map DValue.numbers) :
    (DAssign.makeFromPartialDict C vars d).map DAssign.numbers = Assign.makeFromPartialDict C vars d' ∧
    ∀ a, DAssign.makeFromPartialDict C vars d = .ok a →
      (a.storage.isInt = true ↔ ∀ v ∈ vars, ∃ x, d.get? v = some x ∧ IntegerArrays x) := by
  have hval : ∀ v, (DAssign.valueOrDefault C d v).flatten.numbers = (Assign.valueOrDefault C d' v).flatten := by
    intro v
    rw [numbers_flatten]
    unfold DAssign.valueOrDefault Assign.valueOrDefault
    rw [hd]
    cases d.get? v with
    | some x => rfl
    | none =>
      simp only [Option.map_none, DValue.ofReal, DValue.numbers, List.map_map]
      congr 1
      have : ((fun a : DArr => (⟨a.shape, a.data.numbers⟩ : Arr ℝ)) ∘ fun a : Arr ℝ => ⟨a.shape, .float a.data⟩) = id := rfl
      rw [this, List.map_id]
  have hparts : ∀ vs : List Var, (Flat.concat (vs.map fun v => (DAssign.valueOrDefault C d v).flatten)).numbers =
      (vs.map fun v => (Assign.valueOrDefault C d' v).flatten).flatten := by
    intro vs
    rw [Flat.numbers_concat, List.flatMap_map, ← List.flatMap_def]
    congr 1
    funext v
    exact hval v
  unfold DAssign.makeFromPartialDict Assign.makeFromPartialDict
  have hl := hparts (Layout.make C vars false).getVariables
  have hlen := congrArg List.length hl
  rw [Flat.length_numbers] at hlen
  cases he : ((Layout.make C vars false).getVariables).isEmpty with
  | true =>
    have e := List.isEmpty_iff.1 he
    constructor
    · simp only [e]; rfl
    · intro a ha; simp [e] at ha
  | false =>
    have e : (Layout.make C vars false).getVariables ≠ [] := fun h => by simp [h] at he
    simp only [List.isEmpty_map, he, hlen]
    by_cases hdim : ((Layout.make C vars false).getVariables.map fun v => (Assign.valueOrDefault C d' v).flatten).flatten.length =
        (Layout.make C vars false).dim
    · constructor
      · simp only [hdim, decide_true, pyAssert_true, Bool.false_eq_true, if_false]
        exact congrArg Except.ok (by simp only [DAssign.numbers, hl])
      · intro a ha
        simp only [hdim, decide_true, pyAssert_true, Bool.false_eq_true, if_false] at ha
        cases ha
        rw [Flat.isInt_concat, make_getVariables C hn]
        simp only [List.mem_map, forall_exists_index, and_imp, forall_apply_eq_imp_iff₂, mem_grouped, isInt_flatten]
        refine forall₂_congr fun v _ => ?_
        unfold DAssign.valueOrDefault
        cases d.get? v with
        | some x => simp
        | none =>
          simp only [reduceCtorEq, false_and, exists_false, iff_false]
          rintro ⟨h1, h2⟩
          obtain ⟨l, hl⟩ := List.exists_mem_of_ne_nil _ h1
          have := h2 l hl
          simp only [DValue.ofReal, List.mem_map] at hl
          obtain ⟨a, -, rfl⟩ := hl
          cases this
    · constructor
      · simp only [hdim, decide_false, Bool.false_eq_true, if_false]; rfl
      · intro a ha
        simp only [hdim, decide_false, Bool.false_eq_true, if_false] at ha
        cases ha

/-- **C114, writing.** After `set_value(v, x)` the variable `v` reads as `x` if the storage is a floating-point array, and as `x`
rounded towards zero if it is an integer array. The dtype of the storage and the other variables do not change. -/
theorem C114_set_value (C : Ty → VarClass ℝ) (hC : ∀ t, WellShaped (C t).default) (vars : List Var) (a : DAssign)
    (ha : IsAssignmentOf C vars a.numbers) (hl : a.layout.localFlag = false) (v : Var) (hv : v ∈ vars) (x : DValue)
    (hx : IsValueOf (C v.ty) x.numbers) :
    ∃ b, a.setValue C v x = .ok b ∧ b.storage.isInt = a.storage.isInt ∧ IsAssignmentOf C vars b.numbers ∧
      b.numbers.getValue C v = .ok (kept a.storage.isInt x.numbers) ∧
      ∀ w ≠ v, b.numbers.getValue C w = a.numbers.getValue C w := by
  have hset : (a.setValue C v x).map DAssign.numbers = a.numbers.setValue C v (kept a.storage.isInt x.numbers) := by
    unfold DAssign.setValue Assign.setValue
    simp only [DAssign.numbers, kept_flatten, ← numbers_flatten]
    cases a.layout.indexFromVar.get v with
    | error e => rfl
    | ok i =>
      simp only [py_bind_ok]
      rw [← Flat.numbers_setSlice]
      cases a.storage.setSlice i (C v.ty).paramDim x.flatten <;> rfl
  obtain ⟨b, h1, -, h3, h4⟩ := C08_abstract_map C hC vars a.numbers ha hl [(v, kept a.storage.isInt x.numbers)] (by
    rintro p hp
    simp only [List.mem_singleton] at hp
    subst hp
    exact ⟨hv, isValueOf_kept _ hx⟩)
  have h1 : a.numbers.setValue C v (kept a.storage.isInt x.numbers) = .ok b := by
    unfold setValues at h1
    rw [List.foldlM_cons] at h1
    cases hs : a.numbers.setValue C v (kept a.storage.isInt x.numbers) with
    | error e => rw [hs] at h1; cases h1
    | ok b' => rw [hs] at h1; exact h1
  rw [h1] at hset
  obtain ⟨c, hc, rfl⟩ := py_map_eq_ok.1 hset
  refine ⟨c, hc, ?_, h3, ?_, fun w hw => ?_⟩
  · unfold DAssign.setValue at hc
    simp only [bind, Except.bind] at hc
    split at hc
    · cases hc
    · split at hc
      · cases hc
      · rename_i hs
        cases hc
        exact Flat.isInt_setSlice hs
  · rw [h4]; simp [lastWrite]
  · rw [h4]
    have : ¬ v = w := fun h => hw h.symm
    simp [lastWrite, this]

/-- **C114, moving between layouts.** `update_storage_layout` moves the numbers, whatever the dtype, and keeps the dtype. -/
theorem C114_update_layout (C : Ty → VarClass ℝ) (a : DAssign) (tgt : Layout) :
    (a.updateStorageLayout C tgt).map DAssign.numbers = a.numbers.updateStorageLayout C tgt ∧
    ∀ b, a.updateStorageLayout C tgt = .ok b → b.storage.isInt = a.storage.isInt := by
  unfold DAssign.updateStorageLayout Assign.updateStorageLayout
  simp only [DAssign.numbers]
  by_cases he : a.layout.eq tgt = true
  · simp only [he, if_true]
    exact ⟨rfl, by rintro _ ⟨⟩; rfl⟩
  · simp only [he, if_false, Bool.false_eq_true]
    by_cases h1 : a.layout.dim = tgt.dim
    swap
    · simp only [h1, decide_false]; exact ⟨rfl, by rintro _ ⟨⟩⟩
    by_cases h2 : a.layout.localFlag = tgt.localFlag
    swap
    · simp only [h1, h2, decide_false, decide_true]; exact ⟨rfl, by rintro _ ⟨⟩⟩
    simp only [h1, h2, decide_true, pyAssert_true, py_bind_ok]
    cases pyAssert (Assign.sameSet a.layout.getVariables tgt.getVariables) with
    | error e => exact ⟨rfl, by rintro _ ⟨⟩⟩
    | ok _ =>
    simp only [py_bind_ok]
    cases Assign.shuffleIndices C a.layout tgt with
    | error e => exact ⟨rfl, by rintro _ ⟨⟩⟩
    | ok idx =>
    simp only [py_bind_ok, ← Flat.numbers_gather, Flat.length_numbers]
    by_cases h3 : (a.storage.gather idx).length = a.storage.length
    · simp only [h3, decide_true, pyAssert_true, py_bind_ok]
      exact ⟨rfl, by rintro _ ⟨⟩; exact Flat.isInt_gather _ _⟩
    · simp only [h3, decide_false]; exact ⟨rfl, by rintro _ ⟨⟩⟩

/-- **C114, retraction, on the numbers.** On integer storage, `manifold_retract` does what it does without dtypes for the classes that
truncate their results; on floating-point storage, what it does for the classes themselves. It keeps the dtype. -/
theorem C114_retract_numbers (C : Ty → VarClass ℝ) (a : DAssign) (δ : Assign ℝ) :
    (a.manifoldRetract C δ).map DAssign.numbers =
      a.numbers.manifoldRetract (if a.storage.isInt then truncating C else C) δ ∧
    ∀ b, a.manifoldRetract C δ = .ok b → b.storage.isInt = a.storage.isInt := by
  unfold DAssign.manifoldRetract Assign.manifoldRetract
  obtain ⟨h1, h2⟩ := numbers_retractTypes C a δ a.layout.getVariableTypes a.storage.zerosLike
  rw [Flat.isInt_zerosLike, Flat.numbers_zerosLike] at h1
  rw [Flat.isInt_zerosLike] at h2
  have e1 : a.numbers.layout = a.layout := rfl
  have e2 : a.numbers.storage = a.storage.numbers := rfl
  simp only [e1, e2]
  rw [← h1]
  cases pyAssert (!a.layout.localFlag) with
  | error e => exact ⟨rfl, by rintro _ ⟨⟩⟩
  | ok _ =>
  cases pyAssert δ.layout.localFlag with
  | error e => exact ⟨rfl, by rintro _ ⟨⟩⟩
  | ok _ =>
  simp only [py_bind_ok]
  cases hf : a.layout.getVariableTypes.foldlM (DAssign.retractType C a δ) a.storage.zerosLike with
  | error e => exact ⟨rfl, by rintro _ ⟨⟩⟩
  | ok new => exact ⟨rfl, by rintro _ ⟨⟩; exact h2 _ hf⟩

theorem truncating_isValue {C : Ty → VarClass ℝ} {t : Ty} {x : Value ℝ} : IsValueOf (truncating C t) x ↔ IsValueOf (C t) x := Iff.rfl

theorem truncating_good {C : Ty → VarClass ℝ} (hC : GoodClasses C) : GoodClasses (truncating C) := by
  refine fun t => ⟨(hC t).1, fun x d hx hd => ?_⟩
  have h := isValueOf_kept true ((hC t).2 x d hx hd)
  simp only [kept, if_true] at h
  show IsValueOf (C t) (((C t).retract x d).map fun y => (trunc y : ℝ))
  rw [map_trunc]
  exact h

theorem truncating_layout (C : Ty → VarClass ℝ) (vars : List Var) (loc : Bool) :
    Layout.make (truncating C) vars loc = Layout.make C vars loc := rfl

theorem truncating_assignment {C : Ty → VarClass ℝ} {vars : List Var} {a : Assign ℝ} :
    IsAssignmentOf (truncating C) vars a ↔ IsAssignmentOf C vars a := Iff.rfl

/-- **C114, retraction.** Every variable becomes its retraction, on floating-point storage, and its retraction rounded towards zero, on
integer storage. -/
theorem C114_retract (C : Ty → VarClass ℝ) (hC : GoodClasses C) (vars : List Var) (a : DAssign) (δ : Assign ℝ)
    (ha : IsAssignmentOf C vars a.numbers) (hl : a.layout.localFlag = false) (hδ : IsAssignmentOf C vars δ)
    (hlδ : δ.layout.localFlag = true) :
    ∃ b, a.manifoldRetract C δ = .ok b ∧ b.storage.isInt = a.storage.isInt ∧ IsAssignmentOf C vars b.numbers ∧
      ∀ v ∈ vars, ∃ x, a.numbers.getValue C v = .ok x ∧
        b.numbers.getValue C v = .ok (kept a.storage.isInt ((C v.ty).retract x (block C δ v))) := by
  obtain ⟨h1, h2⟩ := C114_retract_numbers C a δ
  cases hi : a.storage.isInt with
  | false =>
    simp only [hi, Bool.false_eq_true, if_false] at h1
    obtain ⟨b, k1, -, k3, k4⟩ := C11_retract_per_variable C hC vars a.numbers δ ha hl hδ hlδ
    rw [k1] at h1
    obtain ⟨c, hc, rfl⟩ := py_map_eq_ok.1 h1
    refine ⟨c, hc, (h2 _ hc).trans hi, k3, fun v hv => ?_⟩
    obtain ⟨x, e1, -, e2⟩ := k4 v hv
    exact ⟨x, e1, e2⟩
  | true =>
    simp only [hi, if_true] at h1
    obtain ⟨b, k1, -, k3, k4⟩ := C11_retract_per_variable (truncating C) (truncating_good hC) vars a.numbers δ ha hl hδ hlδ
    rw [k1] at h1
    obtain ⟨c, hc, rfl⟩ := py_map_eq_ok.1 h1
    refine ⟨c, hc, (h2 _ hc).trans hi, k3, fun v hv => ?_⟩
    obtain ⟨x, e1, -, e2⟩ := k4 v hv
    refine ⟨x, e1, ?_⟩
    have e2 : c.numbers.getValue C v = .ok (((C v.ty).retract x (block C δ v)).map fun y => (trunc y : ℝ)) := e2
    rw [e2, map_trunc]
    rfl

section
variable (F : Nat → FactorClass) (C : Ty → VarClass ℝ)

/-- **C114, solvers.** A solver that starts from integer storage returns integers, whatever the measurements are. The run on integer
storage is the run with the classes that truncate, see `truncating` and `C114_retract_numbers`. -/
theorem C114_solvers (hC : GoodClasses C) (fs : List Factor) (hne : fs ≠ []) (hfs : ∀ f ∈ fs, FactorWF F C f)
    (hpos : ∀ f ∈ fs, ∀ v ∈ f.vars, 0 < (C v.ty).paramDim) :
    ∃ g, Graph.make C fs = .ok g ∧ ∀ CE gE, Lifts CE gE (truncating C) (g.ops F C) →
      ∀ vars val a, Holds C fs vars val a → (∀ v ∈ vars, Integral (val v)) →
        let O := fun o : Assign ℝ => o.layout = a.layout ∧ ∃ val', Holds C fs vars val' o ∧ ∀ v ∈ vars, Integral (val' v)
        (∀ sE s, LiftsGN sE s → SizedSolutions s.linear → ReturnsOnly (sE.solve CE gE) a O) ∧
        (∀ sE s, LiftsLM sE s → SizedSolutions s.linear → s.lambdaFactor ≠ 0 → ReturnsOnly (sE.solve CE gE) a O) ∧
        (∀ sE s, LiftsDogleg sE s → SizedSolutions s.linear → ZeroAtZero s.linear → 0 < s.radiusInitial →
          ReturnsOnly (sE.solve CE gE) a O) ∧
        (∀ (sE : FixedIteration Ext) L, LiftsSolver sE.linear L → SizedSolutions L → a.layout = g.layout →
          ReturnsOnly (sE.solve CE gE) a O) := by
  have hfs' : ∀ f ∈ fs, FactorWF F (truncating C) f := fun f hf =>
    ⟨(hfs f hf).pos, (hfs f hf).vars, (hfs f hf).noise, (hfs f hf).params, (hfs f hf).hint, (hfs f hf).residual, (hfs f hf).jacobians⟩
  obtain ⟨g, hg, h⟩ := C74_invariants F (truncating C) (truncating_good hC) fs hne hfs' hpos (fun _ x => Integral x) (by
    intro v x d _ _ _ l hl y hy
    simp only [truncating, Value.map, List.mem_map] at hl
    obtain ⟨l', -, rfl⟩ := hl
    simp only [Arr.map, List.mem_map] at hy
    obtain ⟨z, -, rfl⟩ := hy
    exact ⟨_, rfl⟩)
  refine ⟨g, hg, fun CE gE hl vars val a ha hval => ?_⟩
  have conv : ∀ {val' : Var → Value ℝ} {o : Assign ℝ}, Holds C fs vars val' o ↔ Holds (truncating C) fs vars val' o :=
    fun {val' o} => ⟨fun h => ⟨h.assignment, h.isGlobal, h.sameVars, h.values⟩, fun h => ⟨h.assignment, h.isGlobal, h.sameVars, h.values⟩⟩
  have := h CE gE hl vars val a (conv.1 ha) hval
  simp only [conv]
  exact this

end

/-! ### What this does to problems -/

theorem truncated_retract (n : ℕ) {d : ℝ} (h0 : 0 ≤ d) (h1 : d < 1) :
    (Poly.at_ n).manifoldRetract (truncating Ex.C) ⟨[d], Poly.llay⟩ = .ok (Poly.at_ n) := by
  have h : (Poly.at_ n).manifoldRetract (truncating Ex.C) ⟨[d], Poly.llay⟩ = .ok (Poly.at_ ((trunc ((n : ℝ) + d) : ℤ) : ℝ)) := rfl
  rw [h]
  have e : trunc ((n : ℝ) + d) = n := by
    unfold trunc
    rw [if_pos (by positivity), Int.floor_eq_iff]
    push_cast
    constructor <;> linarith
  rw [e]; rfl

/-- A loop whose steps do not raise does not raise. -/
theorem whileLoop_no_error {σ : Type} {done : σ → Bool} {step : σ → Py (σ × List (Msg Ext))} {P : σ → Prop}
    (hP : ∀ s, P s → ∃ s' l, step s = .ok (s', l) ∧ P s') : ∀ (fuel : Nat) (s : σ), P s → ∀ e, whileLoop done step fuel s ≠ .error e
  | 0, s, _, e => by simp [whileLoop]
  | fuel + 1, s, hs, e => by
    obtain ⟨s', l, h1, h2⟩ := hP s hs
    have ih := whileLoop_no_error (done := done) hP fuel s' h2
    unfold whileLoop
    split
    · simp
    · rw [h1]
      simp only [py_bind_ok]
      cases hw : whileLoop done step fuel s' with
      | error e' => exact absurd hw (ih e')
      | ok r => simp

/-- **C114, an integer optimum is missed.** One scalar variable, one measurement that says it is `n + 1`, with any weight `q ≠ 0`,
and the integer initial value `n`. Gauss-Newton with CHOLMOD, whatever its settings, returns `n`: the damping makes every step a
little shorter than one, and the storage rounds it away. The cost stays at `q²`, although it is zero at `n + 1`. -/
theorem C114_stuck (stale : Pattern → ScipyCoo ℝ → ℝ → List ℝ → Py (List ℝ)) (addr : Nat) (n : ℕ) (q : ℝ) (hq : q ≠ 0) :
    let g := Poly.g (-(q * (n + 1))) q 0
    Graph.make Ex.C [Poly.f (-(q * (n + 1))) q 0] = .ok g ∧
    (∃ r, g.computeCost Poly.F Ex.C (Poly.at_ n) = .ok (q ^ 2, r)) ∧
    (∃ r, g.computeCost Poly.F Ex.C (Poly.at_ (n + 1)) = .ok (0, r)) ∧
    ∀ CE gE, Lifts CE gE (truncating Ex.C) (g.ops Poly.F Ex.C) → ∀ sE s, LiftsGN sE s → s.linear = Poly.chol stale addr →
      ∃ log, ∀ fuel : Nat, max 1 s.maxIterations ≤ fuel →
        sE.solve CE gE fuel ((Poly.at_ n).map fin) = .ok (some ((Poly.at_ n).map fin, log)) := by
  intro g
  have hc : ∀ v, g.computeCost Poly.F Ex.C (Poly.at_ v) =
      .ok ((-(q * (n + 1)) + q * v + 0 * v ^ 2) ^ 2, [-(q * (n + 1)) + q * v + 0 * v ^ 2]) := Poly.cost_eq _ _ _
  have hr : -(q * (n + 1)) + q * n + 0 * (n : ℝ) ^ 2 = -q := by ring
  have hcn : (g.ops Poly.F Ex.C).computeCost (Poly.at_ n) = .ok (q ^ 2, [-q]) := by
    have := hc n
    rw [hr, neg_sq] at this
    exact this
  refine ⟨Poly.make_eq _ _ _, ⟨_, hcn⟩, ⟨_, (hc _).trans (by congr 2; ring)⟩, fun CE gE hl sE s hs hlin => ?_⟩
  have hD : 0 < q ^ 2 + 0 + 1 / 100000 := by positivity
  obtain ⟨d, hd⟩ : ∃ d, d = q * q / (q ^ 2 + 0 + 1 / 100000) := ⟨_, rfl⟩
  have d0 : 0 ≤ d := by rw [hd]; exact div_nonneg (mul_self_nonneg q) hD.le
  have d1 : d < 1 := by rw [hd, div_lt_one hD]; nlinarith
  -- every step stays where it is
  let P : State Ext → Prop := fun st => ∃ p : State ℝ, st = p.map fin ∧ p.assignments = Poly.at_ n ∧ p.residual = [-q]
  have hP : ∀ st, P st → ∃ st' l, sE.step CE gE st = .ok (st', l) ∧ P st' := by
    rintro _ ⟨⟨i, a, c, r, dn⟩, rfl, ha, hr'⟩
    simp only at ha hr'
    subst ha hr'
    have j1 : (g.ops Poly.F Ex.C).jacobian (Poly.at_ n) [-q] = .ok ⟨[q], [0], [0], (1, 1)⟩ := by
      rw [Poly.jac_eq]; simp
    have j2 : (Coo.T ⟨[q], [0], [0], (1, 1)⟩).matmul [-q] = .ok [q * -q] := Poly.matmul_T_eq _ _
    have j3 : s.linear ⟨[q], [0], [0], (1, 1)⟩ ([q * -q].map fun x => -x) 0 i = .ok [d] := by
      rw [hlin, List.map_singleton, Poly.chol_eq stale addr _ _ 0 le_rfl, hd]
      congr 3; ring
    obtain ⟨conv, hconv⟩ : ∃ conv, convergedTest (truncating Ex.C) s.toCriteria ⟨i, Poly.at_ n, c, [-q], dn⟩ (q ^ 2) [d]
        (g.ops Poly.F Ex.C).localLayout ([q * -q].map fun x => -x) = .ok conv := ⟨_, rfl⟩
    exact ⟨_, _, (gnStep_fin hl hs).2 ⟨_, _, _, _, _, _, conv, j1, j2, j3, truncated_retract n d0 d1, hcn, hconv, rfl, rfl⟩,
      _, rfl, rfl, rfl⟩
  have hin : (Poly.at_ n).updateStorageLayout (truncating Ex.C) (g.ops Poly.F Ex.C).layout = .ok (Poly.at_ n) := rfl
  have hinE : ((Poly.at_ n).map fin).updateStorageLayout CE gE.layout = .ok ((Poly.at_ n).map fin) := by
    rw [hl.layout, hl.updateStorageLayout, hin]; rfl
  have houtE : ((Poly.at_ n).map fin).updateStorageLayout CE ((Poly.at_ n).map fin).layout = .ok ((Poly.at_ n).map fin) := by
    rw [hl.layout] at hinE; exact hinE
  have hinit : initState gE ((Poly.at_ n).map fin) = .ok (State.map fin ⟨0, Poly.at_ n, q ^ 2, [-q], false⟩) :=
    (initState_fin hl).2 ⟨_, _, hcn, rfl⟩
  have hP0 : P (State.map fin ⟨0, Poly.at_ n, q ^ 2, [-q], false⟩) := ⟨_, rfl, rfl, rfl⟩
  have hmax : sE.maxIterations = s.maxIterations := by rw [hs.1]; rfl
  obtain ⟨N, hN⟩ : ∃ N : Nat, (N : Int) = max 1 s.maxIterations := ⟨(max 1 s.maxIterations).toNat, by omega⟩
  rcases (gn_counted sE).terminates N (s := State.map fin ⟨0, Poly.at_ n, q ^ 2, [-q], false⟩) rfl (by omega)
    (by rw [hmax]; show s.maxIterations - ((0 : Nat) : Int) ≤ N; omega) with ⟨e, he⟩ | ⟨k, t, log, -, -, hruns, -, hw⟩
  · exact absurd (he N le_rfl) (whileLoop_no_error hP N _ hP0 e)
  · have ht : P t := hruns.invariant (P := P) (fun st st' l h1 h2 => by
      obtain ⟨st1, l1, h3, h4⟩ := hP st h1
      rw [h3] at h2
      cases h2
      exact h4) hP0
    obtain ⟨p, rfl, hp, -⟩ := ht
    refine ⟨_, fun fuel hf => baseSolve_some.2 ⟨_, _, _, _, hinE, hinit, hw fuel (by omega), ?_, rfl⟩⟩
    show (p.assignments.map fin).updateStorageLayout CE _ = _
    rw [hp]
    exact houtE

/-- **C114, rotations are lost.** An integer rotation of the plane, moved by an angle that is not a multiple of a right angle, is
stored as `(0, 0)`, which is not a rotation. -/
theorem C114_rotation_lost (a : DAssign) (v : Var) (C : Ty → VarClass ℝ) (hC : GoodClasses C) (vars : List Var) (δ : Assign ℝ)
    (ha : IsAssignmentOf C vars a.numbers) (hl : a.layout.localFlag = false) (hδ : IsAssignmentOf C vars δ)
    (hlδ : δ.layout.localFlag = true) (hi : a.storage.isInt = true) (hv : v ∈ vars) (hty : C v.ty = SO2Variable) (c s : ℤ)
    (hcs : c ^ 2 + s ^ 2 = 1) (hval : a.numbers.getValue C v = .ok (LieGroup.so2.value [(c : ℝ), (s : ℝ)])) (θ : ℝ)
    (hθ : block C δ v = [θ]) (hθ' : ∀ k : ℤ, θ ≠ k * (Real.pi / 2)) :
    ∃ b, a.manifoldRetract C δ = .ok b ∧ b.numbers.getValue C v = .ok (LieGroup.so2.value [0, 0]) ∧ ¬ LieType.so2.Valid [0, 0] := by
  obtain ⟨b, h1, -, -, h4⟩ := C114_retract C hC vars a δ ha hl hδ hlδ
  obtain ⟨x, e1, e2⟩ := h4 v hv
  rw [hval] at e1
  cases e1
  rw [hi, hθ, hty] at e2
  refine ⟨b, h1, ?_, ?_⟩
  · rw [e2]
    have hsin : Real.sin θ ≠ 0 := by
      intro h
      obtain ⟨k, hk⟩ := Real.sin_eq_zero_iff.1 h
      exact hθ' (2 * k) (by rw [← hk]; push_cast; ring)
    have hcos : Real.cos θ ≠ 0 := by
      intro h
      obtain ⟨k, hk⟩ := Real.cos_eq_zero_iff.1 h
      exact hθ' (2 * k + 1) (by rw [hk]; push_cast; ring)
    have hu := Real.sin_sq_add_cos_sq θ
    have hs1 : |Real.sin θ| < 1 := by
      rw [← sq_lt_one_iff_abs_lt_one]
      have : 0 < Real.cos θ ^ 2 := by positivity
      linarith
    have hc1 : |Real.cos θ| < 1 := by
      rw [← sq_lt_one_iff_abs_lt_one]
      have : 0 < Real.sin θ ^ 2 := by positivity
      linarith
    have hsplit : (c = 0 ∧ |s| = 1) ∨ (s = 0 ∧ |c| = 1) := by
      have hc2 : |c| ≤ 1 := by
        by_contra h
        have : 2 ≤ |c| := by omega
        nlinarith [sq_abs c, sq_nonneg s]
      have hs2 : |s| ≤ 1 := by
        by_contra h
        have : 2 ≤ |s| := by omega
        nlinarith [sq_abs s, sq_nonneg c]
      rw [abs_le] at hc2 hs2
      obtain ⟨c1, c2⟩ := hc2
      obtain ⟨s1, s2⟩ := hs2
      interval_cases c <;> interval_cases s <;> simp_all
    have key : ∀ y z : ℝ, |y| < 1 → |z| < 1 → kept true (LieGroup.so2.value [y, z]) = LieGroup.so2.value [0, 0] := by
      intro y z hy hz
      simp [kept, LieGroup.value, Value.map, Arr.map, towardsZero_small hy, towardsZero_small hz]
    have hret : SO2Variable.retract (LieGroup.so2.value [(c : ℝ), (s : ℝ)]) [θ] =
        LieGroup.so2.value [(c : ℝ) * Real.cos θ - s * Real.sin θ, (s : ℝ) * Real.cos θ + c * Real.sin θ] := by
      simp [SO2Variable, LieGroup.varClass, LieGroup.value, LieGroup.rplus, LieGroup.so2, LieGroup.so2Mul, Value.flatten]
    rw [hret, key]
    · rcases hsplit with ⟨rfl, h⟩ | ⟨rfl, h⟩
      · have h' : |(s : ℝ)| = 1 := by exact_mod_cast h
        simpa [abs_mul, h'] using hs1
      · have h' : |(c : ℝ)| = 1 := by exact_mod_cast h
        simpa [abs_mul, h'] using hc1
    · rcases hsplit with ⟨rfl, h⟩ | ⟨rfl, h⟩
      · have h' : |(s : ℝ)| = 1 := by exact_mod_cast h
        simpa [abs_mul, h'] using hc1
      · have h' : |(c : ℝ)| = 1 := by exact_mod_cast h
        simpa [abs_mul, h'] using hs1
  · rintro ⟨c, s, h, hn⟩
    simp only [List.cons.injEq, and_true] at h
    obtain ⟨rfl, rfl⟩ := h
    norm_num at hn

/-! ### Examples -/

/-- Two scalars, given as the integers 2 and -5, and what `set_value` does with 7/2 and -7/2. -/
example : ∃ a b c, DAssign.makeFromPartialDict Ex.C [Ex.x, Ex.y]
      ((PyDict.empty.set Ex.x ⟨0, [⟨[1], .int [2]⟩]⟩).set Ex.y ⟨0, [⟨[1], .int [-5]⟩]⟩) = .ok a ∧ a.storage = .int [2, -5] ∧
    a.setValue Ex.C Ex.x ⟨0, [⟨[1], .float [7 / 2]⟩]⟩ = .ok b ∧ b.storage = .int [3, -5] ∧
    b.setValue Ex.C Ex.x ⟨0, [⟨[1], .float [-7 / 2]⟩]⟩ = .ok c ∧ c.storage = .int [-3, -5] := by
  have e1 : trunc (7 / 2 : ℝ) = 3 := by
    unfold trunc; rw [if_pos (by norm_num), Int.floor_eq_iff]; constructor <;> norm_num
  have e2 : trunc (-7 / 2 : ℝ) = -3 := by
    unfold trunc; rw [if_neg (by norm_num), Int.ceil_eq_iff]; constructor <;> norm_num
  refine ⟨⟨.int [2, -5], Layout.make Ex.C [Ex.x, Ex.y] false⟩, ⟨.int [3, -5], Layout.make Ex.C [Ex.x, Ex.y] false⟩,
    ⟨.int [-3, -5], Layout.make Ex.C [Ex.x, Ex.y] false⟩, rfl, rfl, ?_, rfl, ?_, rfl⟩
  · have : (⟨.int [2, -5], Layout.make Ex.C [Ex.x, Ex.y] false⟩ : DAssign).setValue Ex.C Ex.x ⟨0, [⟨[1], .float [7 / 2]⟩]⟩ =
      .ok ⟨.int [trunc (7 / 2 + 0), -5], Layout.make Ex.C [Ex.x, Ex.y] false⟩ := by rw [add_zero]; rfl
    rw [this, add_zero, e1]
  · have : (⟨.int [3, -5], Layout.make Ex.C [Ex.x, Ex.y] false⟩ : DAssign).setValue Ex.C Ex.x ⟨0, [⟨[1], .float [-7 / 2]⟩]⟩ =
      .ok ⟨.int [trunc (-7 / 2), -5], Layout.make Ex.C [Ex.x, Ex.y] false⟩ := rfl
    rw [this, e2]

/-- With one floating-point value, or a default, the storage has floating point. -/
example : ∃ a b, DAssign.makeFromPartialDict Ex.C [Ex.x, Ex.y]
      ((PyDict.empty.set Ex.x ⟨0, [⟨[1], .int [2]⟩]⟩).set Ex.y ⟨0, [⟨[1], .float [-5]⟩]⟩) = .ok a ∧ a.storage.isInt = false ∧
    DAssign.makeFromPartialDict Ex.C [Ex.x, Ex.y] (PyDict.empty.set Ex.x ⟨0, [⟨[1], .int [2]⟩]⟩) = .ok b ∧
    b.storage.isInt = false :=
  ⟨_, _, rfl, rfl, rfl, rfl⟩

/-- The graph of `Ex`, from integers. -/
example : (∀ f ∈ Ex.fs, FactorWF Ex.F Ex.C f) ∧ Holds Ex.C Ex.fs Ex.vars Ex.val Ex.a ∧ ∀ v ∈ Ex.vars, Integral (Ex.val v) := by
  refine ⟨Ex.fs_wf, Ex.holds, fun v _ l hl y hy => ?_⟩
  simp only [Ex.val, List.mem_singleton] at hl
  subst hl
  simp only [Ex.flat] at hy
  split at hy
  · exact ⟨10, by simpa using hy⟩
  · split at hy
    · exact ⟨20, by simpa using hy⟩
    · simp only [List.mem_cons, List.not_mem_nil, or_false] at hy
      rcases hy with rfl | rfl
      exacts [⟨30, by norm_num⟩, ⟨40, by norm_num⟩]

/-- A quarter turn, given as the integers `(0, 1)`, moved by half a radian. -/
example : ∃ b, (⟨.int [0, 1], Layout.make (fun _ => SO2Variable) [⟨0, 0⟩] false⟩ : DAssign).manifoldRetract (fun _ => SO2Variable)
      ⟨[1 / 2], Layout.make (fun _ => SO2Variable) [⟨0, 0⟩] true⟩ = .ok b ∧
    b.numbers.getValue (fun _ => SO2Variable) ⟨0, 0⟩ = .ok (LieGroup.so2.value [0, 0]) := by
  obtain ⟨b, h1, h2, -⟩ := C114_rotation_lost ⟨.int [0, 1], Layout.make (fun _ => SO2Variable) [⟨0, 0⟩] false⟩ ⟨0, 0⟩
    (fun _ => SO2Variable) (lie_goodClasses (K := fun _ => .so2) fun _ => rfl) [⟨0, 0⟩]
    ⟨[1 / 2], Layout.make (fun _ => SO2Variable) [⟨0, 0⟩] true⟩ ⟨by simp, rfl, rfl⟩ rfl ⟨by simp, rfl, rfl⟩ rfl rfl (by simp) rfl 0 1
    (by norm_num) rfl (1 / 2) rfl (by
      intro k h
      have hpi := Real.two_le_pi
      rcases lt_trichotomy k 0 with hk | hk | hk
      · have : (k : ℝ) ≤ -1 := by exact_mod_cast Int.le_sub_one_of_lt hk
        nlinarith
      · subst hk; norm_num at h
      · have : (1 : ℝ) ≤ k := by exact_mod_cast hk
        nlinarith)
  exact ⟨b, h1, h2⟩

end Jaxfg.Props
