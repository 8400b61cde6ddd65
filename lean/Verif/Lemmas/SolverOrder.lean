/- Layouts that compare equal are the same object up to insertion order; conversions reach a unique object. -/
import Verif.Lemmas.Solver
import Verif.Props.Assign

namespace Jaxfg
open Spec
variable {α : Type}

theorem firstTypes_append {xs ys : List Var} :
    firstTypes (xs ++ ys) = firstTypes xs ++ (firstTypes ys).filter fun t => t ∉ firstTypes xs := by
  induction xs with
  | nil => simp [firstTypes]
  | cons x xs ih =>
    simp only [List.cons_append, firstTypes, ih, List.filter_append, List.filter_filter]
    congr 2
    apply List.filter_congr
    intro t _
    simp only [List.mem_cons, List.mem_filter, decide_eq_true_eq]
    by_cases h : t = x.ty <;> simp [h]

theorem firstTypes_const {xs : List Var} {t : Ty} (h : ∀ v ∈ xs, v.ty = t) (hne : xs ≠ []) : firstTypes xs = [t] := by
  cases xs with
  | nil => exact absurd rfl hne
  | cons x xs =>
    simp only [firstTypes, h x (by simp)]
    congr 1
    rw [List.filter_eq_nil_iff]
    intro u hu
    obtain ⟨v, hv, rfl⟩ := mem_firstTypes.1 hu
    simp [h v (by simp [hv])]

theorem firstTypes_grouped (vars : List Var) : firstTypes (grouped vars) = firstTypes vars := by
  have aux : ∀ ts : List Ty, ts.Nodup → (∀ t ∈ ts, ∃ v ∈ vars, v.ty = t) →
      firstTypes (ts.flatMap fun t => vars.filter (·.ty = t)) = ts := by
    intro ts
    induction ts with
    | nil => intro _ _; rfl
    | cons t ts ih =>
      intro hn hm
      rw [List.flatMap_cons, firstTypes_append, ih (List.nodup_cons.1 hn).2 fun u hu => hm u (by simp [hu])]
      obtain ⟨v, hv, hvt⟩ := hm t (by simp)
      have h1 : firstTypes (vars.filter (·.ty = t)) = [t] := by
        apply firstTypes_const
        · intro w hw; simpa using (List.mem_filter.1 hw).2
        · exact List.ne_nil_of_mem (List.mem_filter.2 ⟨hv, by simp [hvt]⟩)
      rw [h1, List.singleton_append]
      congr 1
      rw [List.filter_eq_self]
      intro u hu
      have : u ≠ t := fun h => (List.nodup_cons.1 hn).1 (h ▸ hu)
      simp [this]
  exact aux _ nodup_firstTypes fun t ht => mem_firstTypes.1 ht

/-- The layout depends on the grouped order only. -/
theorem make_congr (C : Ty → VarClass α) {vars ws : List Var} {loc : Bool} (hv : vars.Nodup) (hw : ws.Nodup)
    (h : grouped vars = grouped ws) : Layout.make C vars loc = Layout.make C ws loc := by
  have ht : firstTypes vars = firstTypes ws := by rw [← firstTypes_grouped, h, firstTypes_grouped]
  have hf : ∀ t : Ty, vars.filter (·.ty = t) = ws.filter (·.ty = t) := fun t => by
    rw [← filter_grouped, h, filter_grouped]
  have hto : ∀ (ts : List Ty) (n : Nat), typeOffsets (dimOf C loc) vars n ts = typeOffsets (dimOf C loc) ws n ts := by
    intro ts
    induction ts with
    | nil => intro n; rfl
    | cons t ts ih => intro n; simp only [typeOffsets, hf, ih]
  rw [make_eq C hv, make_eq C hw, h, ht, hto]
  simp only [hf]

/-- Converting to the graph's layout reaches one object, whatever the order of the input. -/
theorem Rep.update_unique [Zero α] {C : Ty → VarClass α} {vars ws : List Var} {loc : Bool} {f : Var → List α} {a : Assign α}
    (h : Rep C vars loc f a) (hw : ws.Nodup) (hs : ∀ v, v ∈ vars ↔ v ∈ ws) (hpos : ∀ v ∈ vars, 0 < dimOf C loc v.ty) :
    a.updateStorageLayout C (Layout.make C ws loc) = .ok ⟨(grouped ws).flatMap f, Layout.make C ws loc⟩ := by
  obtain ⟨b, hb, ⟨heq, rfl⟩ | ⟨hneq, hrep⟩⟩ := h.update hw hs
  · rw [hb]
    rw [h.layout] at heq
    have hg := grouped_eq_of_layoutEq C h.nodup hw heq hpos
    have e1 := h.storage
    have e2 := h.layout
    rw [hg] at e1
    rw [make_congr C h.nodup hw hg] at e2
    cases b; simp_all
  · rw [hb]
    have e1 := hrep.storage
    have e2 := hrep.layout
    cases b; simp_all

end Jaxfg
