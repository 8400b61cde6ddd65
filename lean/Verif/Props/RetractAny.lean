/-
Property C12 in full: which delta moves which variable, for every pair of layouts (jaxfg/core/_variable_assignments.py).
-/
import Verif.Lemmas.RetractAny
import Verif.Props.Assign
import Mathlib.Algebra.Group.Basic
import Mathlib.Logic.Nontrivial.Basic

namespace Jaxfg.Props
open Spec
variable {α : Type}

/-- The bridge used below: retraction pairs the variables of each type by position. -/
theorem retract_positions [Zero α] (C : Ty → VarClass α) (hC : GoodClasses C) {vars ws : List Var}
    {a δ : Assign α} {f d : Var → List α} (hf : Rep C vars false f a) (hd : Rep C ws true d δ)
    (hcount : ∀ t, vars.countP (·.ty = t) ≤ ws.countP (·.ty = t)) :
    ∃ (b : Assign α) (φ : Var → Var), a.manifoldRetract C δ = .ok b ∧ b.layout = a.layout ∧
      Rep C vars false (fun v => ((C v.ty).retract (unravel (C v.ty).default (f v)) (d (φ v))).flatten) b ∧
      ∀ (t : Ty) (k : Nat) (v w : Var), (ofType vars t)[k]? = some v → (ofType ws t)[k]? = some w → φ v = w := by
  obtain ⟨φ, hφ⟩ : ∃ φ : Var → Var, φ = fun v => (ofType ws v.ty).getD ((ofType vars v.ty).idxOf v) v := ⟨_, rfl⟩
  have hnd : ∀ t, (ofType vars t).Nodup := fun t => hf.nodup.filter _
  have hle : ∀ t, (ofType vars t).length ≤ (ofType ws t).length := by
    intro t
    have := hcount t
    rwa [List.countP_eq_length_filter, List.countP_eq_length_filter] at this
  have hget : ∀ (t : Ty) (k : Nat) (v w : Var), (ofType vars t)[k]? = some v → (ofType ws t)[k]? = some w → φ v = w := by
    intro t k v w hv hw
    obtain ⟨hk, rfl⟩ := List.getElem?_eq_some_iff.1 hv
    have hty : ((ofType vars t)[k]).ty = t := (mem_ofType.1 (List.getElem_mem hk)).2
    rw [hφ]
    simp only [hty]
    rw [(hnd t).idxOf_getElem k hk, List.getD_eq_getElem?_getD, hw]
    rfl
  have hord : ∀ t ∈ firstTypes vars, (ofType vars t).map φ <+: ofType ws t := by
    intro t _
    rw [List.prefix_iff_eq_take]
    apply List.ext_getElem?
    intro k
    rw [List.length_map, List.getElem?_take, List.getElem?_map]
    by_cases hk : k < (ofType vars t).length
    · rw [if_pos hk]
      have hk' : k < (ofType ws t).length := Nat.lt_of_lt_of_le hk (hle t)
      rw [List.getElem?_eq_getElem hk, List.getElem?_eq_getElem hk', Option.map_some,
        hget t k _ _ (List.getElem?_eq_getElem hk) (List.getElem?_eq_getElem hk')]
    · rw [if_neg hk, List.getElem?_eq_none (by omega)]
      rfl
  obtain ⟨b, h1, h2, h3⟩ := hf.retract_position hC hd hord
  exact ⟨b, φ, h1, h2, h3, hget⟩

/-- **C12, what the code does for every order.** For all assignments over `vars` and all deltas over `ws`, in any order,
provided `ws` has at least as many variables of each type: the `k`-th variable of a type in `vars` is moved by the block of
the `k`-th variable of that type in `ws`, whatever variable that is. (Missing, because false: that it is the same variable.
C12_wrong_variable_moved is the negation.) -/
theorem C12_retract_by_position_partial [Zero α] (C : Ty → VarClass α) (hC : GoodClasses C) (vars ws : List Var)
    (a δ : Assign α) (ha : IsAssignmentOf C vars a) (hl : a.layout.localFlag = false)
    (hδ : IsAssignmentOf C ws δ) (hlδ : δ.layout.localFlag = true)
    (hcount : ∀ t, vars.countP (·.ty = t) ≤ ws.countP (·.ty = t)) :
    ∃ b, a.manifoldRetract C δ = .ok b ∧ b.layout = a.layout ∧ IsAssignmentOf C vars b ∧
      ∀ (t : Ty) (k : Nat) (v w : Var), (vars.filter (·.ty = t))[k]? = some v → (ws.filter (·.ty = t))[k]? = some w →
        ∃ x, a.getValue C v = .ok x ∧ (block C δ w).length = (C t).localDim ∧
          b.getValue C v = .ok ((C t).retract x (block C δ w)) := by
  obtain ⟨f, hf⟩ := exists_rep ha
  obtain ⟨d, hd⟩ := exists_rep hδ
  rw [hl] at hf
  rw [hlδ] at hd
  obtain ⟨b, φ, h1, h2, h3, hget⟩ := retract_positions C hC hf hd hcount
  refine ⟨b, h1, h2, h3.isAssignment, ?_⟩
  intro t k v w hv hw
  have hvm := mem_ofType.1 (List.mem_of_getElem? hv)
  have hwm := mem_ofType.1 (List.mem_of_getElem? hw)
  obtain ⟨hv1, rfl⟩ := hvm
  have hval : IsValueOf (C v.ty) (unravel (C v.ty).default (f v)) := isValueOf_unravel (hC v.ty).1 (hf.len v hv1)
  have hlen : (d w).length = (C v.ty).localDim := by
    rw [hd.len w hwm.1, hwm.2]; rfl
  refine ⟨_, hf.getValue_ok hv1, ?_, ?_⟩
  · rw [hd.block_eq hwm.1]; exact hlen
  · rw [h3.getValue_ok hv1, hd.block_eq hwm.1, hget _ k v w hv hw]
    congr 1
    exact unravel_flatten ((hC v.ty).2 _ _ hval hlen)

/-- **C12, exactly when the claim holds.** For Euclidean variables (retraction adds) and two lists of the same variables: the
claim "each variable is moved by its own block, for every delta" holds *exactly if* the two lists have the same order inside
each type that has parameters. -/
theorem C12_exactly_same_order_partial [AddMonoid α] [Nontrivial α] (C : Ty → VarClass α)
    (hC : GoodClasses C) (hE : ∀ t, C t = .euclidean (C t).default) (vars ws : List Var) (hn : vars.Nodup)
    (hperm : ws.Perm vars) :
    (∀ a δ b : Assign α, IsAssignmentOf C vars a → a.layout.localFlag = false → IsAssignmentOf C ws δ →
      δ.layout.localFlag = true → a.manifoldRetract C δ = .ok b →
      ∀ v ∈ vars, block C b v = List.zipWith (· + ·) (block C a v) (block C δ v)) ↔
    ∀ t, 0 < (C t).paramDim → vars.filter (·.ty = t) = ws.filter (·.ty = t) := by
  have hcount : ∀ t, vars.countP (·.ty = t) ≤ ws.countP (·.ty = t) := fun t => Nat.le_of_eq (hperm.countP_eq _).symm
  have hld : ∀ t, (C t).localDim = (C t).paramDim := fun t => by rw [hE t]; rfl
  have hdims : ∀ t, dimOf C true t = dimOf C false t := hld
  have hret : ∀ t (x d : List α), x.length = (C t).paramDim → d.length = (C t).paramDim →
      ((C t).retract (unravel (C t).default x) d).flatten = List.zipWith (· + ·) x d := by
    intro t x d hx hd
    have h1 := flatten_unravel (hC t).1 hx
    have h2 : (C t).retract (unravel (C t).default x) d =
        unravel (C t).default (List.zipWith (· + ·) (unravel (C t).default x).flatten d) := by
      generalize (unravel (C t).default x) = y
      rw [hE t]; rfl
    rw [h2, h1]
    exact flatten_unravel (hC t).1 (by rw [List.length_zipWith, hx, hd, Nat.min_self])
  constructor
  · intro H t ht
    by_contra hne
    obtain ⟨c, hc⟩ := exists_ne (0 : α)
    obtain ⟨k, hk⟩ : ∃ k : Nat, (ofType vars t)[k]? ≠ (ofType ws t)[k]? := by
      by_contra hall
      push Not at hall
      exact hne (List.ext_getElem? hall)
    have hlen : (ofType vars t).length = (ofType ws t).length := by
      have := hperm.countP_eq (fun v : Var => decide (v.ty = t))
      rw [List.countP_eq_length_filter, List.countP_eq_length_filter] at this
      exact this.symm
    have hk1 : k < (ofType vars t).length := by
      by_contra h
      rw [List.getElem?_eq_none (by omega), List.getElem?_eq_none (by omega)] at hk
      exact hk rfl
    have hk2 : k < (ofType ws t).length := hlen ▸ hk1
    obtain ⟨u, hu⟩ : ∃ u, u = (ofType vars t)[k] := ⟨_, rfl⟩
    obtain ⟨w, hw⟩ : ∃ w, w = (ofType ws t)[k] := ⟨_, rfl⟩
    have hu' : (ofType vars t)[k]? = some u := by rw [hu, List.getElem?_eq_getElem hk1]
    have hw' : (ofType ws t)[k]? = some w := by rw [hw, List.getElem?_eq_getElem hk2]
    have huw : u ≠ w := by
      rintro rfl
      exact hk (hu'.trans hw'.symm)
    have hum := mem_ofType.1 (List.mem_of_getElem? hu')
    have hwm := mem_ofType.1 (List.mem_of_getElem? hw')
    obtain ⟨f, hfdef⟩ : ∃ f : Var → List α, f = fun v => List.replicate (C v.ty).paramDim 0 := ⟨_, rfl⟩
    obtain ⟨d, hddef⟩ : ∃ d : Var → List α, d = fun v => List.replicate (C v.ty).paramDim (if v = w then c else 0) := ⟨_, rfl⟩
    have hf : Rep C vars false f ⟨(grouped vars).flatMap f, Layout.make C vars false⟩ :=
      ⟨hn, rfl, fun v _ => by rw [hfdef, List.length_replicate]; rfl, rfl⟩
    have hd : Rep C ws true d ⟨(grouped ws).flatMap d, Layout.make C ws true⟩ :=
      ⟨hperm.nodup_iff.2 hn, rfl, fun v _ => by rw [hddef, List.length_replicate, hdims]; rfl, rfl⟩
    obtain ⟨b, φ, h1, h2, h3, hget⟩ := retract_positions C hC hf hd hcount
    have hcl := H _ _ b hf.isAssignment rfl hd.isAssignment rfl h1 u hum.1
    have huws : u ∈ ws := hperm.mem_iff.2 hum.1
    rw [h3.block_eq hum.1, hf.block_eq hum.1, hd.block_eq huws, hget t k u w hu' hw'] at hcl
    rw [hret u.ty (f u) (d w) (by rw [hfdef, List.length_replicate])
      (by rw [hddef, List.length_replicate, hwm.2, hum.2])] at hcl
    simp only [hfdef, hddef, hwm.2, hum.2, if_neg huw, if_true, List.zipWith_replicate', zero_add] at hcl
    have h0 := congrArg List.head? hcl
    obtain ⟨m, hm⟩ : ∃ m, (C t).paramDim = m + 1 := ⟨(C t).paramDim - 1, by omega⟩
    rw [hm] at h0
    simp [List.replicate_succ] at h0
    exact hc h0
  · intro H a δ b ha hl hδ hlδ hb v hv
    obtain ⟨f, hf⟩ := exists_rep ha
    obtain ⟨d, hd⟩ := exists_rep hδ
    rw [hl] at hf
    rw [hlδ] at hd
    obtain ⟨b', φ, h1, h2, h3, hget⟩ := retract_positions C hC hf hd hcount
    rw [hb] at h1
    injection h1 with h1
    subst h1
    have hvw : v ∈ ws := hperm.mem_iff.2 hv
    rw [h3.block_eq hv, hf.block_eq hv, hd.block_eq hvw]
    have hfl : (f v).length = (C v.ty).paramDim := hf.len v hv
    have hdl : (d v).length = (C v.ty).paramDim := (hd.len v hvw).trans (hdims _)
    by_cases h0 : 0 < (C v.ty).paramDim
    · have heq := H v.ty h0
      have hm : v ∈ ofType vars v.ty := mem_ofType.2 ⟨hv, rfl⟩
      obtain ⟨k, hk⟩ := List.getElem?_of_mem hm
      have hφ : φ v = v := hget v.ty k v v hk (by unfold ofType at hk ⊢; rw [← heq]; exact hk)
      rw [hφ, hret v.ty (f v) (d v) hfl hdl]
    · have hz : (C v.ty).paramDim = 0 := by omega
      have hl := h3.len v hv
      rw [List.length_eq_zero_iff.1 (hfl.trans hz), List.zipWith_nil_left]
      rw [List.length_eq_zero_iff.1 (hfl.trans hz)] at hl
      exact List.length_eq_zero_iff.1 (hl.trans hz)

/-- Non-vacuity: three two-parameter vectors, listed in two orders; the `k`-th of one list is not the `k`-th of the other, and
the hypotheses of the two theorems hold. -/
example : let vars : List Var := [⟨1, 0⟩, ⟨1, 1⟩, ⟨5, 2⟩]
    let ws : List Var := [⟨5, 2⟩, ⟨1, 1⟩, ⟨1, 0⟩]
    let C : Ty → VarClass Int := fun t => .realVector (if t = 1 then 2 else 0)
    GoodClasses C ∧ (∀ t, C t = .euclidean (C t).default) ∧ vars.Nodup ∧ ws.Perm vars ∧ 0 < (C 1).paramDim ∧
    vars.filter (·.ty = 1) ≠ ws.filter (·.ty = 1) ∧ vars.filter (·.ty = 5) = ws.filter (·.ty = 5) ∧
    (∀ t, vars.countP (·.ty = t) ≤ ws.countP (·.ty = t)) := by
  refine ⟨?_, fun _ => rfl, by decide, by decide, by decide, by decide, by decide, ?_⟩
  · intro t
    have h : WellShaped (VarClass.realVector (α := Int) (if t = 1 then 2 else 0)).default := by
      simp [WellShaped, VarClass.realVector, VarClass.euclidean]
    exact ⟨h, goodClass_euclidean h⟩
  · intro t
    have hp : ([⟨1, 0⟩, ⟨1, 1⟩, ⟨5, 2⟩] : List Var).Perm [⟨5, 2⟩, ⟨1, 1⟩, ⟨1, 0⟩] := by decide
    exact Nat.le_of_eq (hp.countP_eq _)

end Jaxfg.Props
