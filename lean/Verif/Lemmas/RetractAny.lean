/-
`manifold_retract` for deltas whose layout lists the variables in another order.
-/
import Verif.Lemmas.Assign

namespace Jaxfg
open Spec
variable {α : Type _} {C : Ty → VarClass α} {vars ws : List Var} {f : Var → List α} {a : Assign α}

theorem flatten_take_const {rows : List (List α)} {d : Nat} (h : ∀ r ∈ rows, r.length = d) (n : Nat) :
    rows.flatten.take (d * n) = (rows.take n).flatten := by
  induction rows generalizing n with
  | nil => simp
  | cons r rows ih =>
    cases n with
    | zero => simp
    | succ n =>
      have hr : d = r.length := (h r (by simp)).symm
      rw [List.flatten_cons, List.take_succ_cons, List.flatten_cons, ← ih (fun x hx => h x (by simp [hx])) n,
        show d * (n + 1) = r.length + d * n by rw [← hr, Nat.mul_add, Nat.mul_one, Nat.add_comm], List.take_length_add_append]

/-- Reading the first `n` blocks of a type. -/
theorem Rep.typeRowsTake {loc : Bool} (h : Rep C vars loc f a) {as bs : List Ty} {t : Ty} (hg : firstTypes vars = as ++ t :: bs)
    {n : Nat} (hn : n ≤ (ofType vars t).length) :
    reshape2 (slice a.storage (total (fun t => dimOf C loc t * (ofType vars t).length) as) (dimOf C loc t * n)) n
      (dimOf C loc t) = .ok (((ofType vars t).take n).map f) := by
  have hl : ∀ r ∈ (ofType vars t).map f, r.length = dimOf C loc t := by
    intro r hr
    obtain ⟨v, hv, rfl⟩ := List.mem_map.1 hr
    rw [h.len v (mem_ofType.1 hv).1, (mem_ofType.1 hv).2]
  have h1 := h.typeSlice hg
  have h2 : slice a.storage (total (fun t => dimOf C loc t * (ofType vars t).length) as) (dimOf C loc t * n) =
      (slice a.storage (total (fun t => dimOf C loc t * (ofType vars t).length) as)
        (dimOf C loc t * (ofType vars t).length)).take (dimOf C loc t * n) := by
    unfold slice
    rw [List.take_take, Nat.min_eq_left (Nat.mul_le_mul_left _ hn)]
  rw [h2, h1, List.flatMap_def, flatten_take_const hl, ← List.map_take]
  apply reshape2_flatten
  · simp [hn]
  · intro r hr
    rw [List.map_take] at hr
    exact hl r (List.mem_of_mem_take hr)

/-- Retraction pairs the variables of each type by position: `φ v` is the variable of the delta whose block moves `v`. -/
theorem Rep.retract_position [Zero α] (hC : GoodClasses C) (h : Rep C vars false f a) {δ : Assign α} {d : Var → List α}
    (hδ : Rep C ws true d δ) {φ : Var → Var} (hord : ∀ t ∈ firstTypes vars, (ofType vars t).map φ <+: ofType ws t) :
    ∃ b, a.manifoldRetract C δ = .ok b ∧ b.layout = a.layout ∧
      Rep C vars false (fun v => ((C v.ty).retract (unravel (C v.ty).default (f v)) (d (φ v))).flatten) b := by
  obtain ⟨g, hgdef⟩ : ∃ g : Var → List α, g = fun v => ((C v.ty).retract (unravel (C v.ty).default (f v)) (d (φ v))).flatten :=
    ⟨_, rfl⟩
  rw [← hgdef]
  have hφ : ∀ v ∈ vars, φ v ∈ ws ∧ (φ v).ty = v.ty := by
    intro v hv
    have h1 : v ∈ ofType vars v.ty := mem_ofType.2 ⟨hv, rfl⟩
    exact mem_ofType.1 ((hord _ (mem_firstTypes.2 ⟨v, hv, rfl⟩)).subset (List.mem_map.2 ⟨v, h1, rfl⟩))
  have hglen : ∀ v ∈ vars, (g v).length = dimOf C false v.ty := by
    intro v hv
    have hval : IsValueOf (C v.ty) (unravel (C v.ty).default (f v)) := isValueOf_unravel (hC v.ty).1 (h.len v hv)
    rw [hgdef]
    refine isValueOf_length (hC v.ty).1 ((hC v.ty).2 _ _ hval ?_)
    rw [hδ.len _ (hφ v hv).1, (hφ v hv).2]
    rfl
  have hrep : Rep C vars false g ⟨(grouped vars).flatMap g, a.layout⟩ := ⟨h.nodup, h.layout, hglen, rfl⟩
  refine ⟨⟨(grouped vars).flatMap g, a.layout⟩, ?_, rfl, hrep⟩
  have hfold : a.layout.getVariableTypes.foldlM (Assign.retractType C a δ) (List.replicate a.storage.length 0)
      = .ok ((grouped vars).flatMap g) := by
    rw [h.layout, make_getVariableTypes C h.nodup, h.storage_length, grouped_eq, total_flatMap, List.flatMap_assoc,
      flatMap_replicate_zero]
    apply foldlM_setBlocks (dim := fun t => dimOf C false t * (ofType vars t).length)
    · intro t _; rw [List.length_replicate, total_ofType]
    · intro t _; exact hrep.len_ofType
    · intro s as t bs hg
      have ht : t ∈ firstTypes vars := by rw [hg]; simp
      have hcw := hord t ht
      have htw : t ∈ firstTypes ws := by
        obtain ⟨v, hv, hvt⟩ := mem_firstTypes.1 ht
        exact mem_firstTypes.2 ⟨φ v, (hφ v hv).1, (hφ v hv).2.trans hvt⟩
      obtain ⟨as', bs', hg'⟩ := List.append_of_mem htw
      have hle : (ofType vars t).length ≤ (ofType ws t).length := by simpa using hcw.length_le
      have hr1 := h.typeRows hg
      have hr2 := hδ.typeRowsTake hg' hle
      have htake : (ofType ws t).take (ofType vars t).length = (ofType vars t).map φ := by
        have := List.prefix_iff_eq_take.1 hcw
        rw [List.length_map] at this
        exact this.symm
      rw [htake, List.map_map] at hr2
      rw [show dimOf C false t = (C t).paramDim from rfl] at hr1
      rw [show dimOf C true t = (C t).localDim from rfl] at hr2
      unfold Assign.retractType
      rw [h.typeCount ht, h.typeIndex hg, hδ.typeIndex hg']
      simp only [py_bind_ok, hr1]
      rw [hr2, py_bind_ok, h.unflattenRows, py_bind_ok]
      have hz : List.flatMap Value.flatten (List.zipWith (C t).retract
          ((ofType vars t).map fun v => unravel (C t).default (f v)) ((ofType vars t).map (d ∘ φ))) =
          (ofType vars t).flatMap g := by
        rw [List.zipWith_map, List.zipWith_self, List.flatMap_def, List.map_map, List.flatMap_def]
        congr 1
        apply List.map_congr_left
        intro v hv
        simp [hgdef, (mem_ofType.1 hv).2]
      rw [hz]
      rfl
  unfold Assign.manifoldRetract
  simp only [h.flag, hδ.flag, Bool.not_false, pyAssert_true, py_bind_ok, hfold]
  rfl

end Jaxfg
