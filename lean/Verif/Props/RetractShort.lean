/- C12, deltas over any variables. -/
import Verif.Lemmas.RetractShort
import Verif.Props.RetractAny
import Verif.Props.Layout

namespace Jaxfg.Props
open Spec
variable {α : Type}

/-- **C12, deltas over any variables.** For all assignments over `vars` and all deltas over `ws`: retraction returns iff for every variable
of `vars` the delta has a variable of its type, and from the first of them on at least as many numbers as the variables of this type in
`vars` need. If so, the `k`-th of them is moved by the `k`-th group of these numbers, whatever variables they belong to. (Missing, because
false: that they belong to the variable itself, see C12_wrong_variable_moved and C12_missing_variable_moved.) -/
theorem C12_any_delta_partial [Zero α] (C : Ty → VarClass α) (hC : GoodClasses C) (vars ws : List Var)
    (a δ : Assign α) (ha : IsAssignmentOf C vars a) (hl : a.layout.localFlag = false)
    (hδ : IsAssignmentOf C ws δ) (hlδ : δ.layout.localFlag = true) :
    ((∃ b, a.manifoldRetract C δ = .ok b) ↔ ∀ v ∈ vars, ∃ w i, ws.find? (·.ty = v.ty) = some w ∧ δ.layout.indexFromVar.get? w = some i ∧
      i + vars.countP (·.ty = v.ty) * (C v.ty).localDim ≤ δ.storage.length) ∧
    ∀ b, a.manifoldRetract C δ = .ok b → b.layout = a.layout ∧ IsAssignmentOf C vars b ∧
      ∀ (t : Ty) (k : Nat) (v w : Var) (i : Nat), (vars.filter (·.ty = t))[k]? = some v → ws.find? (·.ty = t) = some w →
        δ.layout.indexFromVar.get? w = some i →
        ∃ x, a.getValue C v = .ok x ∧
          b.getValue C v = .ok ((C t).retract x ((δ.storage.drop (i + k * (C t).localDim)).take (C t).localDim)) := by
  obtain ⟨f, hf⟩ := exists_rep ha
  rw [hl] at hf
  have hδn := hδ.1
  obtain ⟨-, -, -, hty, -, hC02⟩ := C02_order C ws hδn true
  have hlay : δ.layout = Layout.make C ws true := by rw [hδ.2.1, hlδ]
  rw [← hlay] at hty hC02
  -- the index of a type is the index of its first variable
  have hidx : ∀ t w, ws.find? (·.ty = t) = some w → ∃ i, δ.layout.indexFromType.get? t = some i ∧ δ.layout.indexFromVar.get? w = some i := by
    intro t w hw
    have hwt : w.ty = t := by simpa using List.find?_some hw
    obtain ⟨-, -, i, h1, h2⟩ := hC02 t ((hty t).2 ⟨w, List.mem_of_find?_eq_some hw, hwt⟩)
    refine ⟨i, h1, ?_⟩
    have := h2 0 w (by rw [← List.head?_eq_getElem?, ← hw]; exact List.head?_filter ..)
    simpa using this
  have hfind : ∀ t i, δ.layout.indexFromType.get t = .ok i → ∃ w, ws.find? (·.ty = t) = some w := by
    intro t i hi
    have hmem : t ∈ δ.layout.getVariableTypes := by
      by_contra hn
      rw [PyDict.get_error_of hn] at hi
      cases hi
    obtain ⟨w, hw, hwt⟩ := (hty t).1 hmem
    rw [← Option.isSome_iff_exists, List.find?_isSome]
    exact ⟨w, hw, by simpa using hwt⟩
  have htypes : a.layout.getVariableTypes = firstTypes vars := by rw [hf.layout, make_getVariableTypes C hf.nodup]
  have iff1 : (∃ b, a.manifoldRetract C δ = .ok b) → ∀ v ∈ vars, ∃ w i, ws.find? (·.ty = v.ty) = some w ∧ δ.layout.indexFromVar.get? w = some i ∧
      i + vars.countP (·.ty = v.ty) * (C v.ty).localDim ≤ δ.storage.length := by
    rintro ⟨b, hb⟩ v hv
    have ht : v.ty ∈ firstTypes vars := mem_firstTypes.2 ⟨v, hv, rfl⟩
    obtain ⟨n, li, h1, h2, h3⟩ := retract_found hb v.ty (by rw [htypes]; exact ht)
    rw [hf.typeCount ht] at h1
    cases Except.ok.inj h1
    obtain ⟨w, hw⟩ := hfind _ _ h2
    obtain ⟨i, k1, k2⟩ := hidx _ w hw
    rw [PyDict.get_ok_of k1] at h2
    obtain rfl := Except.ok.inj h2
    refine ⟨w, i, hw, k2, ?_⟩
    obtain ⟨d, hd⟩ := exists_rep hδ
    obtain ⟨i', e1, e2, -⟩ := hd.index (List.mem_of_find?_eq_some hw)
    rw [k2] at e1
    cases e1
    rw [List.countP_eq_length_filter]
    simp only [slice, List.length_take, List.length_drop] at h3
    have h4 : (List.filter (fun x => decide (x.ty = v.ty)) vars).length = (ofType vars v.ty).length := rfl
    rw [h4]
    rw [Nat.mul_comm (C v.ty).localDim] at h3
    omega
  have key : (∀ v ∈ vars, ∃ w i, ws.find? (·.ty = v.ty) = some w ∧ δ.layout.indexFromVar.get? w = some i ∧
      i + vars.countP (·.ty = v.ty) * (C v.ty).localDim ≤ δ.storage.length) → 
      ∃ (ι : Ty → Nat) (b : Assign α), a.manifoldRetract C δ = .ok b ∧ b.layout = a.layout ∧ (∀ t ∈ firstTypes vars, δ.layout.indexFromType.get? t = some (ι t)) ∧
      Rep C vars false (fun v => ((C v.ty).retract (unravel (C v.ty).default (f v))
        (slice δ.storage (ι v.ty + (ofType vars v.ty).idxOf v * (C v.ty).localDim) (C v.ty).localDim)).flatten) b := by
    intro hall
    have hι : ∀ t ∈ firstTypes vars, δ.layout.indexFromType.get? t = some ((δ.layout.indexFromType.get? t).getD 0) ∧
        (δ.layout.indexFromType.get? t).getD 0 + (ofType vars t).length * (C t).localDim ≤ δ.storage.length := by
      intro t ht
      obtain ⟨v, hv, rfl⟩ := mem_firstTypes.1 ht
      obtain ⟨w, i, h1, h2, h3⟩ := hall v hv
      obtain ⟨j, k1, k2⟩ := hidx _ w h1
      rw [h2] at k2
      cases k2
      rw [k1]
      refine ⟨rfl, ?_⟩
      rwa [List.countP_eq_length_filter] at h3
    obtain ⟨b, h1, h2, h3⟩ := hf.retract_raw hC hlδ (fun t => (δ.layout.indexFromType.get? t).getD 0)
      fun t ht => ⟨PyDict.get_ok_of (hι t ht).1, (hι t ht).2⟩
    exact ⟨_, b, h1, h2, fun t ht => (hι t ht).1, h3⟩
  refine ⟨⟨iff1, fun hall => ?_⟩, fun b hb => ?_⟩
  · obtain ⟨_, b, h1, -⟩ := key hall
    exact ⟨b, h1⟩
  · obtain ⟨ι, b', h1, h2, hι, h3⟩ := key (iff1 ⟨b, hb⟩)
    rw [hb] at h1
    cases Except.ok.inj h1
    refine ⟨h2, h3.isAssignment, fun t k v w i hv hw hi => ?_⟩
    obtain ⟨hv1, rfl⟩ := mem_ofType.1 (List.mem_of_getElem? hv)
    have ht := mem_firstTypes.2 ⟨v, hv1, rfl⟩
    obtain ⟨j, k1, k2⟩ := hidx _ w hw
    rw [hι _ ht] at k1
    rw [hi] at k2
    cases k2; cases k1
    obtain ⟨hk, hvk⟩ := List.getElem?_eq_some_iff.1 hv
    have hix : (ofType vars v.ty).idxOf v = k := by
      have hnd : (ofType vars v.ty).Nodup := hf.nodup.filter _
      exact (congrArg (fun x => (ofType vars v.ty).idxOf x) hvk.symm).trans (hnd.idxOf_getElem k hk)
    have hval : IsValueOf (C v.ty) (unravel (C v.ty).default (f v)) := isValueOf_unravel (hC v.ty).1 (hf.len v hv1)
    refine ⟨_, hf.getValue_ok hv1, ?_⟩
    rw [h3.getValue_ok hv1, hix]
    congr 1
    refine unravel_flatten ((hC v.ty).2 _ _ hval ?_)
    obtain ⟨w', i', e1, e2, e3⟩ := iff1 ⟨b, hb⟩ v hv1
    rw [hw] at e1
    cases e1
    rw [hi] at e2
    cases e2
    rw [List.countP_eq_length_filter] at e3
    have h4 : k * (C v.ty).localDim + (C v.ty).localDim ≤ (List.filter (fun x => decide (x.ty = v.ty)) vars).length * (C v.ty).localDim := by
      rw [← Nat.succ_mul]; exact Nat.mul_le_mul_right _ hk
    simp only [slice, List.length_take, List.length_drop]
    omega

/-- **C12, negation.** Two `RealVectorVariable[2]` variables `u` and `v` and a variable `w` of a class with 3 local parameters. The delta
has `u` and `w` only. Nothing raises, and `v` moves by the first two numbers of the delta of `w`. -/
theorem C12_missing_variable_moved :
    ∃ (u v w : Var) (a δ b : Assign Int), IsAssignmentOf exC [u, v, w] a ∧ a.layout.localFlag = false ∧
      IsAssignmentOf exC [u, w] δ ∧ δ.layout.localFlag = true ∧ v ∉ [u, w] ∧ w.ty ≠ v.ty ∧ a.manifoldRetract exC δ = .ok b ∧
      block exC a v = [0, 0] ∧ block exC δ w = [3, 4, 5] ∧ block exC b v = [3, 4] :=
  ⟨⟨1, 0⟩, ⟨1, 1⟩, ⟨0, 2⟩, ⟨[0, 0, 0, 0, 1, 0, 0, 0], Layout.make exC [⟨1, 0⟩, ⟨1, 1⟩, ⟨0, 2⟩] false⟩,
    ⟨[1, 2, 3, 4, 5], Layout.make exC [⟨1, 0⟩, ⟨0, 2⟩] true⟩, ⟨[1, 2, 3, 4, 1, 3, 4, 5], Layout.make exC [⟨1, 0⟩, ⟨1, 1⟩, ⟨0, 2⟩] false⟩,
    ⟨by decide, rfl, by decide⟩, rfl, ⟨by decide, rfl, by decide⟩, rfl, by decide, by decide, rfl, by decide, by decide, by decide⟩

end Jaxfg.Props
