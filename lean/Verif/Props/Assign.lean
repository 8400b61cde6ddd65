/-
Properties C05-C15: values and variable assignments (jaxfg/core/_variables.py, jaxfg/core/_variable_assignments.py).
-/
import Verif.Lemmas.Assign
import Verif.Props.Layout

namespace Jaxfg.Props
open Spec
variable {α : Type}

/-! ### C05 -/

/-- **C05.** For every variable class with a well-shaped default value: `unflatten` inverts `flatten` on values of the
class, `flatten` inverts `unflatten` on vectors of length `get_parameter_dim()` (and the result is a value of the class),
and `unflatten` raises for every other length. -/
theorem C05_flatten_unflatten (c : VarClass α) (hc : WellShaped c.default) :
    (∀ x, IsValueOf c x → c.unflatten x.flatten = .ok x) ∧
    (∀ l : List α, l.length = c.paramDim → ∃ x, c.unflatten l = .ok x ∧ IsValueOf c x ∧ x.flatten = l) ∧
    (∀ l : List α, l.length ≠ c.paramDim → c.unflatten l = .error .value) := by
  refine ⟨?_, ?_, ?_⟩
  · intro x hx
    rw [unflatten_ok (isValueOf_length hc hx), unravel_flatten hx]
  · intro l hl
    exact ⟨_, unflatten_ok hl, isValueOf_unravel hc hl, flatten_unravel hc hl⟩
  · intro l hl
    simp [VarClass.unflatten, hl]

/-- A class with several leaves, one of them a matrix and one empty: hypotheses of C05 are met by a non-trivial value. -/
example : let c : VarClass Int := { default := ⟨3, [⟨[2, 2], [1, 0, 0, 1]⟩, ⟨[0], []⟩, ⟨[], [5]⟩]⟩, localDim := 1,
                                    retract := fun x _ => x }
    WellShaped c.default ∧ c.paramDim = 5 ∧ IsValueOf c ⟨3, [⟨[2, 2], [4, 3, 2, 1]⟩, ⟨[0], []⟩, ⟨[], [-7]⟩]⟩ ∧
    (⟨3, [⟨[2, 2], [4, 3, 2, 1]⟩, ⟨[0], []⟩, ⟨[], [-7]⟩]⟩ : Value Int).flatten = [4, 3, 2, 1, -7] := by
  refine ⟨?_, rfl, ⟨rfl, rfl, ?_⟩, rfl⟩ <;> simp [WellShaped]

/-! ### C06, C07: constructors -/

theorem partialDict_rep (C : Ty → VarClass α) (hC : ∀ t, WellShaped (C t).default) {vars : List Var} (hn : vars.Nodup)
    (hne : vars ≠ []) {d : PyDict Var (Value α)} (hd : ∀ v ∈ vars, ∀ x, d.get? v = some x → IsValueOf (C v.ty) x) :
    ∃ a, Assign.makeFromPartialDict C vars d = .ok a ∧
      Rep C vars false (fun v => ((d.get? v).getD (C v.ty).default).flatten) a := by
  set f : Var → List α := fun v => ((d.get? v).getD (C v.ty).default).flatten with hf
  have hlen : ∀ v ∈ vars, (f v).length = dimOf C false v.ty := by
    intro v hv
    simp only [hf]
    cases hg : d.get? v with
    | none => rfl
    | some x => exact isValueOf_length (hC v.ty) (hd v hv x hg)
  have hrep : Rep C vars false f ⟨(grouped vars).flatMap f, Layout.make C vars false⟩ := ⟨hn, rfl, hlen, rfl⟩
  refine ⟨_, ?_, hrep⟩
  have hparts : ((grouped vars).map fun v => (Assign.valueOrDefault C d v).flatten) = (grouped vars).map f := by
    apply List.map_congr_left
    intro v _
    simp only [hf, Assign.valueOrDefault]
    cases d.get? v <;> rfl
  have hne' : grouped vars ≠ [] := by
    intro h0
    obtain ⟨v, hv⟩ := List.exists_mem_of_ne_nil _ hne
    have := mem_grouped.2 hv
    rw [h0] at this; cases this
  unfold Assign.makeFromPartialDict
  simp only [make_getVariables C hn]
  rw [hparts]
  have hdim := hrep.storage_length'
  simp only [List.flatMap_def] at hdim
  rw [if_neg (by simpa using hne')]
  simp [hdim, List.flatMap_def]

theorem asDict_of_rep {C : Ty → VarClass α} {vars : List Var} {f : Var → List α} {a : Assign α}
    (h : Rep C vars false f a) :
    ∃ d', a.asDict C = .ok d' ∧ d'.keys = grouped vars ∧
      ∀ v, d'.get? v = if v ∈ vars then some (unravel (C v.ty).default (f v)) else none := by
  have hvars : a.getVariables = grouped vars := by
    unfold Assign.getVariables; rw [h.layout, make_getVariables C h.nodup]
  have aux : ∀ (vs : List Var) (d : PyDict Var (Value α)), (∀ v ∈ vs, v ∈ vars) → (d.keys ++ vs).Nodup →
      ∃ d', vs.foldlM (fun d v => do return d.set v (← a.getValue C v)) d = .ok d' ∧ d'.keys = d.keys ++ vs ∧
        ∀ v, d'.get? v = if v ∈ vs then some (unravel (C v.ty).default (f v)) else d.get? v := by
    intro vs
    induction vs with
    | nil => intro d _ _; exact ⟨d, rfl, by simp, by simp⟩
    | cons w vs ih =>
      intro d hmem hnd
      have hw : w ∉ d.keys := by
        intro hm
        exact (List.nodup_append.1 hnd).2.2 w hm w (by simp) rfl
      have hk : (d.set w (unravel (C w.ty).default (f w))).keys = d.keys ++ [w] := by
        rw [PyDict.keys_set, if_neg hw]
      obtain ⟨d', h1, h2, h3⟩ := ih (d.set w (unravel (C w.ty).default (f w))) (fun v hv => hmem v (by simp [hv]))
        (by rw [hk]; simpa using hnd)
      refine ⟨d', ?_, ?_, ?_⟩
      · rw [List.foldlM_cons, h.getValue_ok (hmem w (by simp))]
        exact h1
      · rw [h2, hk]; simp
      · intro v
        rw [h3 v, PyDict.get?_set]
        by_cases hvw : v = w
        · subst hvw
          have : v ∉ vs := by
            have := (List.nodup_append.1 hnd).2.1
            exact (List.nodup_cons.1 this).1
          simp [this]
        · simp [hvw]
  obtain ⟨d', h1, h2, h3⟩ := aux (grouped vars) .empty (fun v hv => mem_grouped.1 hv)
    (by simpa [PyDict.keys, PyDict.empty] using nodup_grouped h.nodup)
  refine ⟨d', ?_, by simpa [PyDict.keys, PyDict.empty] using h2, ?_⟩
  · unfold Assign.asDict; rw [hvars]; exact h1
  · intro v; rw [h3 v]; simp only [mem_grouped]; rfl

/-- **C06.** For every non-empty dictionary whose values have the structure of their variable's class,
`make_from_dict(d)` succeeds; its variables are the keys of `d`; `get_value` returns `d[v]` for each key and raises
`KeyError` for any other variable; `as_dict()` returns the same mapping as `d`. -/
theorem C06_make_from_dict (C : Ty → VarClass α) (hC : ∀ t, WellShaped (C t).default) (d : PyDict Var (Value α))
    (hk : d.keys.Nodup) (hne : d.keys ≠ []) (hd : ∀ v x, d.get? v = some x → IsValueOf (C v.ty) x) :
    ∃ a, Assign.makeFromDict C d = .ok a ∧ IsAssignmentOf C d.keys a ∧ a.layout.localFlag = false ∧
      a.getVariables.Perm d.keys ∧
      (∀ v x, d.get? v = some x → a.getValue C v = .ok x) ∧
      (∀ v, v ∉ d.keys → a.getValue C v = .error .key) ∧
      ∃ d', a.asDict C = .ok d' ∧ d'.keys.Perm d.keys ∧ ∀ v, d'.get? v = d.get? v := by
  obtain ⟨a, h1, h2⟩ := partialDict_rep C hC hk hne (d := d) (fun v _ x => hd v x)
  have hval : ∀ v x, d.get? v = some x → unravel (C v.ty).default ((d.get? v).getD (C v.ty).default).flatten = x := by
    intro v x hx
    rw [hx, Option.getD_some, unravel_flatten (hd v x hx)]
  have hmem : ∀ v x, d.get? v = some x → v ∈ d.keys := by
    intro v x hx
    by_contra hn
    rw [PyDict.get?_eq_none_iff.2 hn] at hx
    cases hx
  refine ⟨a, h1, h2.isAssignment, h2.flag, ?_, ?_, fun v hv => h2.getValue_error hv, ?_⟩
  · unfold Assign.getVariables
    rw [h2.layout, make_getVariables C hk]
    exact grouped_perm _
  · intro v x hx
    rw [h2.getValue_ok (hmem v x hx), hval v x hx]
  · obtain ⟨d', h3, h4, h5⟩ := asDict_of_rep h2
    refine ⟨d', h3, by rw [h4]; exact grouped_perm _, ?_⟩
    intro v
    rw [h5 v]
    cases hx : d.get? v with
    | none => rw [if_neg (PyDict.get?_eq_none_iff.1 hx)]
    | some x =>
      rw [if_pos (hmem v x hx)]
      congr 1
      have := hval v x hx
      rwa [hx] at this

/-- The empty dictionary raises (there is nothing to concatenate). -/
theorem C06_empty_raises (C : Ty → VarClass α) : Assign.makeFromDict C .empty = .error .value := rfl

/-- **C07.** For every non-empty list of distinct variables and every dictionary with values of the right structure:
`make_from_partial_dict` gives each variable its dictionary value if it has one and its class default otherwise;
`make_from_defaults` gives every variable its default, and is the same object as `make_from_partial_dict(vars, {})`. -/
theorem C07_partial_and_defaults (C : Ty → VarClass α) (hC : ∀ t, WellShaped (C t).default) (vars : List Var)
    (hn : vars.Nodup) (hne : vars ≠ []) (d : PyDict Var (Value α))
    (hd : ∀ v ∈ vars, ∀ x, d.get? v = some x → IsValueOf (C v.ty) x) :
    (∃ a, Assign.makeFromPartialDict C vars d = .ok a ∧ IsAssignmentOf C vars a ∧ a.layout.localFlag = false ∧
      (∀ v ∈ vars, ∀ x, d.get? v = some x → a.getValue C v = .ok x) ∧
      (∀ v ∈ vars, d.get? v = none → a.getValue C v = .ok (C v.ty).default)) ∧
    (∃ a, Assign.makeFromDefaults C vars = .ok a ∧ (∀ v ∈ vars, a.getValue C v = .ok (C v.ty).default) ∧
      Assign.makeFromPartialDict C vars .empty = .ok a) := by
  have hdef : ∀ t, unravel (C t).default (C t).default.flatten = (C t).default := fun t =>
    unravel_flatten (c := C t) ⟨rfl, rfl, hC t⟩
  constructor
  · obtain ⟨a, h1, h2⟩ := partialDict_rep C hC hn hne hd
    refine ⟨a, h1, h2.isAssignment, h2.flag, ?_, ?_⟩
    · intro v hv x hx
      rw [h2.getValue_ok hv, hx, Option.getD_some, unravel_flatten (hd v hv x hx)]
    · intro v hv hx
      rw [h2.getValue_ok hv, hx, Option.getD_none, hdef]
  · obtain ⟨a, h1, h2⟩ := partialDict_rep C hC hn hne (d := .empty) (fun v _ x hx => by cases hx)
    have hget : ∀ v : Var, (((PyDict.empty : PyDict Var (Value α)).get? v).getD (C v.ty).default).flatten =
        (C v.ty).default.flatten := fun v => rfl
    refine ⟨a, ?_, ?_, h1⟩
    · unfold Assign.makeFromDefaults
      simp only [make_getVariableTypes C hn]
      have hm : ((firstTypes vars).mapM fun t => do
          let count ← (Layout.make C vars false).countFromType.get t
          return (List.replicate count (C t).default.flatten).flatten) =
          .ok ((firstTypes vars).map fun t => (ofType vars t).flatMap fun v => (C v.ty).default.flatten) := by
        apply mapM_ok
        intro t ht
        rw [PyDict.get_ok_of (make_count C hn false ht), py_bind_ok]
        change Except.ok _ = _
        congr 1
        have : ∀ l : List Var, (∀ v ∈ l, v.ty = t) → (List.replicate l.length (C t).default.flatten).flatten =
            l.flatMap fun v => (C v.ty).default.flatten := by
          intro l
          induction l with
          | nil => intro _; rfl
          | cons v l ih =>
            intro hl
            rw [List.length_cons, List.replicate_succ, List.flatten_cons, List.flatMap_cons, hl v (by simp),
              ih (fun w hw => hl w (by simp [hw]))]
        exact this _ (fun v hv => (mem_ofType.1 hv).2)
      have hnet : firstTypes vars ≠ [] := by
        obtain ⟨v, hv⟩ := List.exists_mem_of_ne_nil _ hne
        intro h0
        have := mem_firstTypes.2 ⟨v, hv, rfl⟩
        rw [h0] at this; cases this
      have hst : ((firstTypes vars).map fun t => (ofType vars t).flatMap fun v => (C v.ty).default.flatten).flatten =
          a.storage := by
        rw [← List.flatMap_def, h2.storage_types]
        rfl
      have hl2 := h2.storage_length'
      rw [h2.layout] at hl2
      have ha : a = ⟨a.storage, Layout.make C vars false⟩ := by rw [← h2.layout]
      simp only [hm, py_bind_ok, hst]
      rw [if_neg (by simpa using hnet)]
      rw [show decide (a.storage.length = (Layout.make C vars false).dim) = true from by simpa using hl2]
      simp only [pyAssert_true, py_bind_ok]
      rw [← ha]; rfl
    · intro v hv
      rw [h2.getValue_ok hv, hget, hdef]

/-- An empty list of variables raises in both constructors. -/
theorem C07_empty_raises (C : Ty → VarClass α) (d : PyDict Var (Value α)) :
    Assign.makeFromPartialDict C [] d = .error .value ∧ Assign.makeFromDefaults C [] = .error .value := ⟨rfl, rfl⟩

/-- Non-vacuity of C06/C07: a dictionary over three of the five example variables, of two classes. -/
example : let d : PyDict Var (Value Int) := ⟨[(⟨1, 12⟩, ⟨0, [⟨[2], [7, 8]⟩]⟩), (⟨0, 11⟩, ⟨7, [⟨[4], [1, 2, 3, 4]⟩]⟩),
      (⟨1, 10⟩, ⟨0, [⟨[2], [5, 6]⟩]⟩)]⟩
    d.keys.Nodup ∧ d.keys ≠ [] ∧ (∀ p ∈ d.items, IsValueOf (exC p.1.ty) p.2) ∧
    (∀ t, WellShaped (exC t).default) ∧
    (Assign.makeFromPartialDict exC exVars d).map (·.storage) = .ok [5, 6, 7, 8, 1, 2, 3, 4, 1, 0, 0, 0] := by
  refine ⟨by decide, by decide, ?_, ?_, by decide⟩
  · simp [IsValueOf, exC, WellShaped, VarClass.realVector, VarClass.euclidean]
  · intro t
    unfold exC
    split <;> simp [WellShaped, VarClass.realVector, VarClass.euclidean]

/-! ### C08: histories of `set_value` -/

/-- The calls `a = a.set_value(v₁, x₁); a = a.set_value(v₂, x₂); ...`. -/
def setValues (C : Ty → VarClass α) (a : Assign α) (hist : List (Var × Value α)) : Py (Assign α) :=
  hist.foldlM (fun a p => a.setValue C p.1 p.2) a

/-- The value most recently written to `v`, if any. -/
def lastWrite (hist : List (Var × Value α)) (v : Var) : Option (Value α) :=
  (hist.reverse.find? (fun p => decide (p.1 = v))).map (·.2)

theorem setValues_rep (C : Ty → VarClass α) (hC : ∀ t, WellShaped (C t).default) {vars : List Var} :
    ∀ (hist : List (Var × Value α)) {f : Var → List α} {a : Assign α}, Rep C vars false f a →
      (∀ p ∈ hist, p.1 ∈ vars ∧ IsValueOf (C p.1.ty) p.2) →
      ∃ b, setValues C a hist = .ok b ∧ b.layout = a.layout ∧
        Rep C vars false (fun v => ((lastWrite hist v).map Value.flatten).getD (f v)) b := by
  intro hist
  induction hist with
  | nil => intro f a h _; exact ⟨a, rfl, rfl, h⟩
  | cons p hist ih =>
    intro f a h hp
    have hp1 := hp p (by simp)
    obtain ⟨b, hb1, hb2, hb3⟩ := h.setValue_ok hp1.1 (isValueOf_length (hC _) hp1.2)
    obtain ⟨c, hc1, hc2, hc3⟩ := ih hb3 (fun q hq => hp q (by simp [hq]))
    refine ⟨c, ?_, hc2.trans hb2, hc3.congr ?_⟩
    · unfold setValues at *
      rw [List.foldlM_cons, hb1, py_bind_ok, hc1]
    · intro v _
      simp only [lastWrite, List.reverse_cons, List.find?_append]
      cases hf : hist.reverse.find? (fun p => decide (p.1 = v)) with
      | some q => simp
      | none =>
        by_cases hv : p.1 = v
        · simp [hv]
        · have hv' : ¬ v = p.1 := fun h => hv h.symm
          simp [hv, hv']

/-- **C08.** Start from any assignments object over `vars` and run any finite sequence of `set_value` calls on stored
variables with values of the right structure. All calls succeed; the final object has the same layout and variables; each
variable reads as the value last written to it, or as its initial value if it was never written. -/
theorem C08_abstract_map (C : Ty → VarClass α) (hC : ∀ t, WellShaped (C t).default) (vars : List Var) (a : Assign α)
    (ha : IsAssignmentOf C vars a) (hl : a.layout.localFlag = false) (hist : List (Var × Value α))
    (hh : ∀ p ∈ hist, p.1 ∈ vars ∧ IsValueOf (C p.1.ty) p.2) :
    ∃ b, setValues C a hist = .ok b ∧ b.layout = a.layout ∧ IsAssignmentOf C vars b ∧
      ∀ v, b.getValue C v = match lastWrite hist v with
        | some x => .ok x
        | none => a.getValue C v := by
  obtain ⟨f, hf⟩ := exists_rep ha
  rw [hl] at hf
  obtain ⟨b, h1, h2, h3⟩ := setValues_rep C hC hist hf hh
  refine ⟨b, h1, h2, h3.isAssignment, ?_⟩
  intro v
  cases hw : lastWrite hist v with
  | some x =>
    obtain ⟨p, hp, rfl⟩ := Option.map_eq_some_iff.1 hw
    have hpm := List.mem_of_find?_eq_some hp
    have hpv := List.find?_some hp
    simp only [decide_eq_true_eq] at hpv
    obtain ⟨hv1, hv2⟩ := hh p (by simpa using hpm)
    rw [hpv] at hv1 hv2
    rw [h3.getValue_ok hv1]
    simp [hw, unravel_flatten hv2]
  | none =>
    by_cases hv : v ∈ vars
    · rw [h3.getValue_ok hv, hf.getValue_ok hv]
      simp [hw]
    · rw [h3.getValue_error hv, hf.getValue_error hv]

/-- Writing a variable that is not stored raises `KeyError`. -/
theorem C08_unknown_variable_raises (C : Ty → VarClass α) (vars : List Var) (a : Assign α) (ha : IsAssignmentOf C vars a)
    (v : Var) (hv : v ∉ vars) (x : Value α) : a.setValue C v x = .error .key := by
  obtain ⟨f, hf⟩ := exists_rep ha
  unfold Assign.setValue
  rw [PyDict.get_error_of (fun hm => hv (hf.mem_keys.1 hm))]
  rfl

/-! ### C09: update_storage_layout -/

/-- **C09.** Let `a` be an assignments object (local or global) over `vars` and let `tgt` be the layout of any list `ws` of
distinct variables. If `ws` are the same variables and the parameterization is the same, `update_storage_layout(tgt)`
succeeds with an object whose layout equals `tgt` (Python `==`), every variable keeps its block (hence its value), and
converting back restores the original object. Otherwise it raises. -/
theorem C09_update_storage_layout [Zero α] (C : Ty → VarClass α) (vars ws : List Var) (loc : Bool) (a : Assign α)
    (ha : IsAssignmentOf C vars a) (hw : ws.Nodup) :
    ((a.layout.localFlag = loc ∧ ∀ v, v ∈ vars ↔ v ∈ ws) →
      ∃ b, a.updateStorageLayout C (Layout.make C ws loc) = .ok b ∧ b.layout.eq (Layout.make C ws loc) = true ∧
        (∃ us, us.Perm vars ∧ IsAssignmentOf C us b) ∧
        (∀ v, block C b v = block C a v) ∧
        (loc = false → ∀ v, b.getValue C v = a.getValue C v) ∧
        b.updateStorageLayout C a.layout = .ok a) ∧
    (¬ (a.layout.localFlag = loc ∧ ∀ v, v ∈ vars ↔ v ∈ ws) →
      a.updateStorageLayout C (Layout.make C ws loc) = .error .assertion) := by
  obtain ⟨f, hf⟩ := exists_rep ha
  constructor
  · rintro ⟨hloc, hs⟩
    rw [hloc] at hf
    have hperm : ws.Perm vars := (List.perm_ext_iff_of_nodup hw ha.1).2 fun v => (hs v).symm
    have halayout : a.layout = Layout.make C vars loc := hf.layout
    obtain ⟨b, hb, ⟨heq, rfl⟩ | ⟨hneq, hrep⟩⟩ := hf.update hw hs
    · refine ⟨b, hb, heq, ⟨vars, List.Perm.refl _, ha⟩, fun _ => rfl, fun _ _ => rfl, ?_⟩
      unfold Assign.updateStorageLayout
      rw [halayout, layoutEq_refl C ha.1]
      rfl
    · refine ⟨b, hb, ?_, ⟨ws, hperm, hrep.isAssignment⟩, ?_, ?_, ?_⟩
      · rw [hrep.layout]; exact layoutEq_refl C hw
      · intro v
        by_cases hv : v ∈ vars
        · rw [hf.block_eq hv, hrep.block_eq ((hs v).1 hv)]
        · have h1 : a.layout.indexFromVar.get? v = none :=
            PyDict.get?_eq_none_iff.2 (fun hm => hv (hf.mem_keys.1 hm))
          have h2 : b.layout.indexFromVar.get? v = none :=
            PyDict.get?_eq_none_iff.2 (fun hm => hv ((hs v).2 (hrep.mem_keys.1 hm)))
          unfold block
          rw [h1, h2]
      · intro hl v
        subst hl
        by_cases hv : v ∈ vars
        · rw [hf.getValue_ok hv, hrep.getValue_ok ((hs v).1 hv)]
        · rw [hf.getValue_error hv, hrep.getValue_error (fun h => hv ((hs v).2 h))]
      · obtain ⟨c, hc, ⟨heq, rfl⟩ | ⟨_, hrep'⟩⟩ := hrep.update ha.1 (fun v => (hs v).symm)
        · exfalso
          rw [hrep.layout] at heq
          have := layoutEq_symm C hw ha.1 heq
          rw [← halayout, hneq] at this
          cases this
        · rw [halayout, hc]
          congr 1
          have e1 : c.storage = a.storage := by rw [hrep'.storage, hf.storage]
          have e2 : c.layout = a.layout := by rw [hrep'.layout, halayout]
          cases c; cases a; simp_all
  · intro hnot
    have hneq : a.layout.eq (Layout.make C ws loc) = false := by
      by_contra hne
      simp only [Bool.not_eq_false] at hne
      rw [hf.layout] at hne
      obtain ⟨h1, _⟩ := (layoutEq_iff C ha.1 hw).1 hne
      exact hnot ⟨h1, layoutEq_mem C ha.1 hw hne⟩
    unfold Assign.updateStorageLayout
    rw [hneq]
    simp only [Bool.false_eq_true, if_false]
    by_cases hdim : a.layout.dim = (Layout.make C ws loc).dim
    · by_cases hloc : a.layout.localFlag = loc
      · have hset : Assign.sameSet a.layout.getVariables (Layout.make C ws loc).getVariables = false := by
          rw [← Bool.not_eq_true, sameSet_iff]
          intro hall
          apply hnot
          refine ⟨hloc, fun v => ?_⟩
          have := hall v
          rw [hf.layout, make_getVariables C ha.1, make_getVariables C hw, mem_grouped, mem_grouped] at this
          exact this
        simp [hdim, hloc, make_localFlag, hset]
      · simp [hdim, hloc, make_localFlag]
    · simp [hdim]

/-- Non-vacuity of C09: five variables of three types, converted to the reversed order, really moves the storage. -/
example : let a : Assign Int := ⟨[1, 2, 3, 4, 5, 6, 7, 8, 9, 10, 11, 12], Layout.make exC exVars false⟩
    IsAssignmentOf exC exVars a ∧ exVars.reverse.Nodup ∧ (∀ v, v ∈ exVars ↔ v ∈ exVars.reverse) ∧
    (a.updateStorageLayout exC (Layout.make exC exVars.reverse false)).map (·.storage) =
      .ok [9, 10, 11, 12, 5, 6, 7, 8, 3, 4, 1, 2] := by
  refine ⟨⟨by decide, rfl, by decide⟩, by decide, by simp, by decide⟩

/-! ### C10 -/

/-- **C10.** For every assignments object (global parameterization) and every type stored in it, `get_stacked_value(t)`
succeeds and lists `get_value(v)` for the variables of type `t` in `get_variables()` order; there are
`count_from_variable_type[t]` of them. A type that is not stored raises `KeyError`. -/
theorem C10_stacked_value (C : Ty → VarClass α) (vars : List Var) (a : Assign α) (ha : IsAssignmentOf C vars a)
    (hl : a.layout.localFlag = false) (t : Ty) :
    ((∃ v ∈ vars, v.ty = t) → ∃ xs, a.getStackedValue C t = .ok xs ∧
      List.Forall₂ (fun v x => a.getValue C v = .ok x) (a.getVariables.filter (·.ty = t)) xs ∧
      a.layout.countFromType.get? t = some xs.length) ∧
    ((¬ ∃ v ∈ vars, v.ty = t) → a.getStackedValue C t = .error .key) := by
  obtain ⟨f, hf⟩ := exists_rep ha
  rw [hl] at hf
  constructor
  · intro ht
    have ht' := mem_firstTypes.2 ht
    refine ⟨_, hf.stacked_ok ht', ?_, ?_⟩
    · have : a.getVariables.filter (·.ty = t) = ofType vars t := by
        unfold Assign.getVariables
        rw [hf.layout, make_getVariables C ha.1]
        exact filter_grouped
      rw [this, List.forall₂_map_right_iff, List.forall₂_same]
      intro v hv
      obtain ⟨hv1, hv2⟩ := mem_ofType.1 hv
      rw [hf.getValue_ok hv1, hv2]
    · rw [hf.layout, make_count C ha.1 false ht', List.length_map]
      rfl
  · intro ht
    unfold Assign.getStackedValue
    rw [PyDict.get_error_of]
    · rfl
    · have := make_getVariableTypes C ha.1 false
      rw [← hf.layout] at this
      unfold Layout.getVariableTypes at this
      rw [this, mem_firstTypes]; exact ht

/-! ### C11, C12: retraction -/

/-- **C12, what does hold.** If both layouts list the variables of each type in the same order (the order of types, and
further variables in the delta, do not matter), retraction acts on each variable with the delta stored for that variable.
(Missing: deltas that list same-type variables in another order, for which the claim is false.) -/
theorem C12_retract_by_variable_partial [Zero α] (C : Ty → VarClass α) (hC : GoodClasses C) (vars ws : List Var)
    (a δ : Assign α) (ha : IsAssignmentOf C vars a) (hl : a.layout.localFlag = false)
    (hδ : IsAssignmentOf C ws δ) (hlδ : δ.layout.localFlag = true)
    (hord : ∀ v ∈ vars, vars.filter (·.ty = v.ty) = ws.filter (·.ty = v.ty)) :
    ∃ b, a.manifoldRetract C δ = .ok b ∧ b.layout = a.layout ∧ IsAssignmentOf C vars b ∧
      ∀ v ∈ vars, ∃ x, a.getValue C v = .ok x ∧ (block C δ v).length = (C v.ty).localDim ∧
        b.getValue C v = .ok ((C v.ty).retract x (block C δ v)) := by
  obtain ⟨f, hf⟩ := exists_rep ha
  obtain ⟨d, hd⟩ := exists_rep hδ
  rw [hl] at hf
  rw [hlδ] at hd
  have hord' : ∀ t ∈ firstTypes vars, ofType vars t = ofType ws t := by
    intro t ht
    obtain ⟨v, hv, rfl⟩ := mem_firstTypes.1 ht
    exact hord v hv
  obtain ⟨b, h1, h2, h3⟩ := hf.retract_ok hC hd hord'
  refine ⟨b, h1, h2, h3.isAssignment, ?_⟩
  intro v hv
  have hw : v ∈ ws := by
    have : v ∈ ofType vars v.ty := mem_ofType.2 ⟨hv, rfl⟩
    rw [hord' _ (mem_firstTypes.2 ⟨v, hv, rfl⟩)] at this
    exact (mem_ofType.1 this).1
  have hval : IsValueOf (C v.ty) (unravel (C v.ty).default (f v)) := isValueOf_unravel (hC v.ty).1 (hf.len v hv)
  refine ⟨_, hf.getValue_ok hv, ?_, ?_⟩
  · rw [hd.block_eq hw]; exact hd.len v hw
  · rw [h3.getValue_ok hv, hd.block_eq hw]
    congr 1
    exact unravel_flatten ((hC v.ty).2 _ _ hval (hd.len v hw))

/-- **C11.** For every assignments object over `vars` and every delta stored with the local layout of the same ordered
variables, for arbitrary classes and retraction functions: `manifold_retract` succeeds, keeps the layout, and each
variable's new value is its own class's retraction of its old value by its own block of the delta. -/
theorem C11_retract_per_variable [Zero α] (C : Ty → VarClass α) (hC : GoodClasses C) (vars : List Var)
    (a δ : Assign α) (ha : IsAssignmentOf C vars a) (hl : a.layout.localFlag = false)
    (hδ : IsAssignmentOf C vars δ) (hlδ : δ.layout.localFlag = true) :
    ∃ b, a.manifoldRetract C δ = .ok b ∧ b.layout = a.layout ∧ IsAssignmentOf C vars b ∧
      ∀ v ∈ vars, ∃ x, a.getValue C v = .ok x ∧ (block C δ v).length = (C v.ty).localDim ∧
        b.getValue C v = .ok ((C v.ty).retract x (block C δ v)) :=
  C12_retract_by_variable_partial C hC vars vars a δ ha hl hδ hlδ (fun _ _ => rfl)

/-- `manifold_retract` raises when called on a local object or with a global delta. -/
theorem C11_wrong_parameterization_raises [Zero α] (C : Ty → VarClass α) (a δ : Assign α)
    (h : a.layout.localFlag = true ∨ δ.layout.localFlag = false) : a.manifoldRetract C δ = .error .assertion := by
  unfold Assign.manifoldRetract
  rcases h with h | h
  · simp [h]
  · by_cases h' : a.layout.localFlag = true <;> simp [h, h']

theorem goodClass_euclidean [Add α] {dflt : Value α} (h : WellShaped dflt) :
    ∀ x d, IsValueOf (VarClass.euclidean dflt) x → d.length = (VarClass.euclidean dflt).localDim →
      IsValueOf (VarClass.euclidean dflt) ((VarClass.euclidean dflt).retract x d) := by
  intro x d hx hd
  have hlen := isValueOf_length (c := VarClass.euclidean dflt) h hx
  apply isValueOf_unravel (c := VarClass.euclidean dflt) h
  simp only [List.length_zipWith, hlen, hd]
  simp [VarClass.euclidean, VarClass.paramDim]

/-- The example classes satisfy the hypotheses of C11, and a delta over the five example variables acts block by block. -/
theorem goodClasses_exC : GoodClasses exC := by
  intro t
  match t with
  | 0 =>
    refine ⟨by simp [WellShaped, exC], ?_⟩
    rintro x d ⟨h1, h2, h3⟩ hd
    refine ⟨rfl, rfl, ?_⟩
    obtain ⟨td, leaves⟩ := x
    rcases leaves with _ | ⟨l, _ | ⟨l', ls⟩⟩
    · simp [exC] at h2
    · simp only [exC, List.map_cons, List.map_nil, List.cons.injEq, and_true] at h2
      have h4 := h3 l (by simp)
      rw [h2] at h4
      simp only [exC] at hd
      simp [WellShaped, exC, Value.flatten, h4, hd]
    · simp [exC] at h2
  | 1 =>
    have h : WellShaped (exC 1).default := by simp [WellShaped, exC, VarClass.realVector, VarClass.euclidean]
    exact ⟨h, goodClass_euclidean h⟩
  | t + 2 =>
    have h : WellShaped (exC (t + 2)).default := by simp [WellShaped, exC, VarClass.realVector, VarClass.euclidean]
    exact ⟨h, goodClass_euclidean h⟩

example : let a : Assign Int := ⟨[1, 2, 3, 4, 5, 6, 7, 8, 9, 10, 11, 12], Layout.make exC exVars false⟩
    let δ : Assign Int := ⟨[100, 200, 300, 400, 500, 600, 700, 800, 900, 1000], Layout.make exC exVars true⟩
    IsAssignmentOf exC exVars a ∧ IsAssignmentOf exC exVars δ ∧
    (a.manifoldRetract exC δ).map (·.storage) = .ok [101, 202, 303, 404, 5, 506, 607, 708, 9, 810, 911, 1012] :=
  ⟨⟨by decide, rfl, by decide⟩, ⟨by decide, rfl, by decide⟩, by decide⟩

/-- **C12, negation.** Two `RealVectorVariable[2]` variables `u`, `v`; the delta is stored for `[v, u]`. Nothing raises and
`u` moves by the delta stored for `v`. -/
theorem C12_wrong_variable_moved :
    ∃ (u v : Var) (a δ b : Assign Int), IsAssignmentOf exC [u, v] a ∧ a.layout.localFlag = false ∧
      IsAssignmentOf exC [v, u] δ ∧ δ.layout.localFlag = true ∧ a.manifoldRetract exC δ = .ok b ∧
      block exC a u = [0, 0] ∧ block exC δ u = [3, 4] ∧ block exC b u = [1, 2] := by
  refine ⟨⟨1, 0⟩, ⟨1, 1⟩, ⟨[0, 0, 0, 0], Layout.make exC [⟨1, 0⟩, ⟨1, 1⟩] false⟩,
    ⟨[1, 2, 3, 4], Layout.make exC [⟨1, 1⟩, ⟨1, 0⟩] true⟩, ⟨[1, 2, 3, 4], Layout.make exC [⟨1, 0⟩, ⟨1, 1⟩] false⟩,
    ⟨by decide, rfl, by decide⟩, rfl, ⟨by decide, rfl, by decide⟩, rfl, rfl, by decide, by decide, by decide⟩

/-! ### C13: default retraction -/

/-- Every stored variable's class uses the base class's default local dimension and retraction. -/
def UsesDefaultRetraction [Add α] (C : Ty → VarClass α) (vars : List Var) : Prop :=
  ∀ v ∈ vars, C v.ty = .euclidean (C v.ty).default

theorem zipWith_flatMap {β γ ι : Type _} {f : ι → List α} {g : ι → List β} {op : α → β → γ} {vs : List ι}
    (h : ∀ v ∈ vs, (f v).length = (g v).length) :
    List.zipWith op (vs.flatMap f) (vs.flatMap g) = vs.flatMap fun v => List.zipWith op (f v) (g v) := by
  induction vs with
  | nil => rfl
  | cons v vs ih =>
    simp only [List.flatMap_cons]
    rw [List.zipWith_append (h v (by simp)), ih (fun w hw => h w (by simp [hw]))]

/-- For default-retraction variables, `manifold_retract` adds the storage vectors. -/
theorem retract_adds [Add α] [Zero α] (C : Ty → VarClass α) (hC : GoodClasses C) (vars : List Var)
    (a δ : Assign α) (ha : IsAssignmentOf C vars a) (hl : a.layout.localFlag = false) (hδ : IsAssignmentOf C vars δ)
    (hlδ : δ.layout.localFlag = true) (hE : UsesDefaultRetraction C vars) :
    a.manifoldRetract C δ = .ok ⟨List.zipWith (· + ·) a.storage δ.storage, a.layout⟩ ∧
      a.storage.length = δ.storage.length := by
  obtain ⟨f, hf⟩ := exists_rep ha
  obtain ⟨d, hd⟩ := exists_rep hδ
  rw [hl] at hf
  rw [hlδ] at hd
  obtain ⟨b, h1, h2, h3⟩ := hf.retract_ok hC hd (fun _ _ => rfl)
  have hlen : ∀ v ∈ grouped vars, (f v).length = (d v).length := by
    intro v hv
    rw [hf.len' v hv, hd.len' v hv]
    have := hE v (mem_grouped.1 hv)
    unfold dimOf
    rw [if_neg (by simp), if_pos rfl]
    rw [this]; rfl
  constructor
  · rw [h1]
    congr 1
    have : b.storage = List.zipWith (· + ·) a.storage δ.storage := by
      rw [h3.storage, hf.storage, hd.storage, zipWith_flatMap hlen, List.flatMap_def, List.flatMap_def]
      congr 1
      apply List.map_congr_left
      intro v hv
      have hv' := mem_grouped.1 hv
      have hw : WellShaped (C v.ty).default := (hC v.ty).1
      have hfl := flatten_unravel hw (hf.len v hv')
      have he : (C v.ty).retract (unravel (C v.ty).default (f v)) (d v) =
          unravel (C v.ty).default (List.zipWith (· + ·) (f v) (d v)) := by
        conv_lhs => rw [hE v hv']
        change unravel (C v.ty).default (List.zipWith (· + ·) (unravel (C v.ty).default (f v)).flatten (d v)) = _
        rw [hfl]
      rw [he, flatten_unravel hw]
      rw [List.length_zipWith, ← hlen v hv, Nat.min_self]
      exact hf.len v hv'
    cases b; simp_all
  · rw [hf.storage, hd.storage, length_flatMap_blocks hlen, length_flatMap_blocks (fun _ _ => rfl)]

/-- **C13.** For variables whose classes keep the default retraction: retracting by an all-zero delta returns the same
object, and retracting by `δ₁` and then by `δ₂` is the same as retracting by a delta that stores the sum. -/
theorem C13_euclidean_retraction [AddMonoid α] (C : Ty → VarClass α) (hC : GoodClasses C) (vars : List Var)
    (a δ₁ δ₂ δ₀ δ₁₂ : Assign α) (ha : IsAssignmentOf C vars a) (hl : a.layout.localFlag = false)
    (hE : UsesDefaultRetraction C vars)
    (h₁ : IsAssignmentOf C vars δ₁) (hl₁ : δ₁.layout.localFlag = true)
    (h₂ : IsAssignmentOf C vars δ₂) (hl₂ : δ₂.layout.localFlag = true)
    (h₀ : IsAssignmentOf C vars δ₀) (hl₀ : δ₀.layout.localFlag = true) (hz : ∀ x ∈ δ₀.storage, x = 0)
    (h₁₂ : IsAssignmentOf C vars δ₁₂) (hl₁₂ : δ₁₂.layout.localFlag = true)
    (hsum : δ₁₂.storage = List.zipWith (· + ·) δ₁.storage δ₂.storage) :
    a.manifoldRetract C δ₀ = .ok a ∧
    (a.manifoldRetract C δ₁ >>= fun b => b.manifoldRetract C δ₂) = a.manifoldRetract C δ₁₂ := by
  obtain ⟨e0, len0⟩ := retract_adds C hC vars a δ₀ ha hl h₀ hl₀ hE
  obtain ⟨e1, len1⟩ := retract_adds C hC vars a δ₁ ha hl h₁ hl₁ hE
  obtain ⟨e12, len12⟩ := retract_adds C hC vars a δ₁₂ ha hl h₁₂ hl₁₂ hE
  constructor
  · rw [e0]
    congr 1
    have : List.zipWith (· + ·) a.storage δ₀.storage = a.storage := by
      apply List.ext_getElem
      · simp [len0]
      · intro k hk1 hk2
        rw [List.getElem_zipWith, hz _ (List.getElem_mem _), add_zero]
    rw [this]
  · rw [e1, py_bind_ok]
    have hb : IsAssignmentOf C vars ⟨List.zipWith (· + ·) a.storage δ₁.storage, a.layout⟩ := by
      refine ⟨ha.1, ha.2.1, ?_⟩
      simp only [List.length_zipWith, ← len1, Nat.min_self]
      exact ha.2.2
    obtain ⟨e2, len2⟩ := retract_adds C hC vars _ δ₂ hb hl h₂ hl₂ hE
    rw [e2, e12]
    congr 2
    rw [hsum]
    apply List.ext_getElem?
    intro k
    simp only [List.getElem?_zipWith]
    cases a.storage[k]? <;> cases δ₁.storage[k]? <;> cases δ₂.storage[k]? <;> simp [add_assoc]

/-- Non-vacuity of C13: two vector variables and non-zero deltas. -/
example : let L := fun loc => Layout.make exC [⟨1, 0⟩, ⟨1, 1⟩] loc
    UsesDefaultRetraction exC [⟨1, 0⟩, ⟨1, 1⟩] ∧ IsAssignmentOf exC [⟨1, 0⟩, ⟨1, 1⟩] ⟨[1, 2, 3, 4], L false⟩ ∧
    IsAssignmentOf exC [⟨1, 0⟩, ⟨1, 1⟩] ⟨[10, 20, 30, 40], L true⟩ ∧
    (Assign.manifoldRetract exC ⟨[1, 2, 3, 4], L false⟩ ⟨[10, 20, 30, 40], L true⟩).map (·.storage) =
      .ok [11, 22, 33, 44] := by
  refine ⟨?_, ⟨by decide, rfl, by decide⟩, ⟨by decide, rfl, by decide⟩, by decide⟩
  intro v hv
  simp only [List.mem_cons, List.not_mem_nil, or_false] at hv
  rcases hv with rfl | rfl <;> rfl

/-! ### C14: values of the wrong size -/

/-- **C14, negation for `set_value`.** A one-element value is accepted for a two-dimensional variable and is written to
both coordinates. -/
theorem C14_set_value_broadcasts :
    ∃ (v : Var) (a b : Assign Int) (x : Value Int), IsAssignmentOf exC [v] a ∧
      x.flatten.length ≠ (exC v.ty).paramDim ∧ a.setValue exC v x = .ok b ∧ block exC b v = [9, 9] :=
  ⟨⟨1, 0⟩, ⟨[1, 2], Layout.make exC [⟨1, 0⟩] false⟩, ⟨[9, 9], Layout.make exC [⟨1, 0⟩] false⟩, ⟨0, [⟨[1], [9]⟩]⟩,
    ⟨by decide, rfl, by decide⟩, by decide, rfl, by decide⟩

/-- **C14, negation for `make_from_partial_dict`.** Values of sizes 3 and 1 for two two-dimensional variables are accepted,
and the second variable reads an entry of the first value. -/
theorem C14_partial_dict_shifts :
    ∃ (u v : Var) (d : PyDict Var (Value Int)) (a : Assign Int),
      (∀ p ∈ d.items, p.2.flatten.length ≠ (exC p.1.ty).paramDim) ∧
      Assign.makeFromPartialDict exC [u, v] d = .ok a ∧
      d.get? u = some ⟨0, [⟨[3], [1, 2, 3]⟩]⟩ ∧ d.get? v = some ⟨0, [⟨[1], [4]⟩]⟩ ∧
      block exC a u = [1, 2] ∧ block exC a v = [3, 4] :=
  ⟨⟨1, 0⟩, ⟨1, 1⟩, ⟨[(⟨1, 0⟩, ⟨0, [⟨[3], [1, 2, 3]⟩]⟩), (⟨1, 1⟩, ⟨0, [⟨[1], [4]⟩]⟩)]⟩,
    ⟨[1, 2, 3, 4], Layout.make exC [⟨1, 0⟩, ⟨1, 1⟩] false⟩, by decide, rfl, by decide, by decide, by decide, by decide⟩

/-- **C14, what does hold.** `set_value` on a stored variable succeeds exactly when the flattened value has the parameter
dimension or has a single element; `make_from_partial_dict` succeeds exactly when there is a variable and the flattened
values have the right total length. (Missing: rejecting one-element values, and checking each value separately.) -/
theorem C14_size_checks_partial (C : Ty → VarClass α) (vars : List Var) :
    (∀ (a : Assign α) (v : Var) (x : Value α), IsAssignmentOf C vars a → a.layout.localFlag = false → v ∈ vars →
      ((∃ b, a.setValue C v x = .ok b) ↔ x.flatten.length = (C v.ty).paramDim ∨ x.flatten.length = 1)) ∧
    (∀ d : PyDict Var (Value α), vars.Nodup →
      ((∃ a, Assign.makeFromPartialDict C vars d = .ok a) ↔ vars ≠ [] ∧
        (vars.map fun v => (match d.get? v with
          | some x => x.flatten.length
          | none => (C v.ty).paramDim)).sum = (vars.map fun v => (C v.ty).paramDim).sum)) := by
  constructor
  · intro a v x ha hl hv
    obtain ⟨f, hf⟩ := exists_rep ha
    rw [hl] at hf
    obtain ⟨i, h1, h2, h3⟩ := hf.index hv
    have hd : dimOf C false v.ty = (C v.ty).paramDim := rfl
    rw [hd] at h2 h3
    have hs : (slice a.storage i (C v.ty).paramDim).length = (C v.ty).paramDim := length_slice h2
    unfold Assign.setValue
    rw [PyDict.get_ok_of h1, py_bind_ok]
    unfold setSlice
    simp only [hs]
    by_cases hx : x.flatten.length = (C v.ty).paramDim
    · simp [hx]
    · rw [if_neg hx]
      rcases hxl : x.flatten with _ | ⟨y, _ | ⟨z, l⟩⟩
      · rw [hxl] at hx
        simp only [py_bind_error, List.length_nil]
        constructor
        · rintro ⟨b, hb⟩; cases hb
        · rintro (h | h)
          · exact absurd h hx
          · cases h
      · simp
      · rw [hxl] at hx
        simp only [py_bind_error]
        constructor
        · rintro ⟨b, hb⟩; cases hb
        · rintro (h | h)
          · exact absurd h hx
          · simp at h
  · intro d hn
    unfold Assign.makeFromPartialDict
    simp only [make_getVariables C hn, make_dim C hn]
    have hne : grouped vars = [] ↔ vars = [] := by
      constructor
      · intro h
        have := (grouped_perm vars).length_eq
        rw [h] at this
        exact List.length_eq_zero_iff.1 this.symm
      · rintro rfl; rfl
    by_cases hv : vars = []
    · subst hv
      constructor
      · rintro ⟨a, ha⟩; cases ha
      · rintro ⟨h, _⟩; exact absurd rfl h
    · rw [if_neg (by simpa using fun h => hv (hne.1 h))]
      have hsum1 : (((grouped vars).map fun v => (Assign.valueOrDefault C d v).flatten).flatten).length =
          (vars.map fun v => (match d.get? v with
          | some x => x.flatten.length
          | none => (C v.ty).paramDim)).sum := by
        rw [List.length_flatten, List.map_map, ← ((grouped_perm vars).map _).sum_eq]
        congr 1
        apply List.map_congr_left
        intro v _
        simp only [Function.comp, Assign.valueOrDefault]
        cases d.get? v <;> rfl
      have hsum2 : total (fun v : Var => dimOf C false v.ty) (grouped vars) =
          (vars.map fun v => (C v.ty).paramDim).sum := total_perm (grouped_perm vars)
      rw [hsum1, hsum2]
      by_cases he : (vars.map fun v => (match d.get? v with
          | some x => x.flatten.length
          | none => (C v.ty).paramDim)).sum = (vars.map fun v => (C v.ty).paramDim).sum
      · simp [he, hv]
      · simp [he]

/-! ### C15: reading a local object -/

/-- **C15, negation.** On a local object with two variables of a class with 4 parameters and 3 local parameters,
`get_value(u)` succeeds and returns an entry of `v`'s block; `get_value(v)` raises. -/
theorem C15_local_read_crosses_blocks :
    ∃ (u v : Var) (δ : Assign Int) (x : Value Int), IsAssignmentOf exC [u, v] δ ∧ δ.layout.localFlag = true ∧
      block exC δ u = [1, 2, 3] ∧ block exC δ v = [4, 5, 6] ∧ δ.getValue exC u = .ok x ∧ x.flatten = [1, 2, 3, 4] ∧
      δ.getValue exC v = .error .value :=
  ⟨⟨0, 0⟩, ⟨0, 1⟩, ⟨[1, 2, 3, 4, 5, 6], Layout.make exC [⟨0, 0⟩, ⟨0, 1⟩] true⟩, ⟨7, [⟨[4], [1, 2, 3, 4]⟩]⟩,
    ⟨by decide, rfl, by decide⟩, rfl, by decide, by decide, rfl, by decide, rfl⟩

/-- **C15, what does hold.** On any object, local or global, `get_value(v)` reads exactly `v`'s block when the class's local
and global dimensions agree. (Missing: classes with different dimensions, for which it is false.) -/
theorem C15_local_read_partial (C : Ty → VarClass α) (hC : ∀ t, WellShaped (C t).default) (vars : List Var)
    (a : Assign α) (ha : IsAssignmentOf C vars a) (v : Var) (hv : v ∈ vars)
    (hdim : (C v.ty).localDim = (C v.ty).paramDim) :
    ∃ x, a.getValue C v = .ok x ∧ x.flatten = block C a v := by
  obtain ⟨f, hf⟩ := exists_rep ha
  obtain ⟨i, h1, h2, h3⟩ := hf.index hv
  have hd : dimOf C a.layout.localFlag v.ty = (C v.ty).paramDim := by
    unfold dimOf; split
    · exact hdim
    · rfl
  have hlen := hf.len v hv
  rw [hd] at h2 h3 hlen
  refine ⟨unravel (C v.ty).default (f v), ?_, ?_⟩
  · unfold Assign.getValue
    rw [PyDict.get_ok_of h1, py_bind_ok, h3]
    exact unflatten_ok hlen
  · rw [flatten_unravel (hC v.ty) hlen, hf.block_eq hv]

end Jaxfg.Props
