/- Lemmas for retraction by deltas over any variables. -/
import Verif.Lemmas.RetractAny
import Verif.Lemmas.Solver

namespace Jaxfg

section
variable {α : Type} {C : Ty → VarClass α} {vars ws : List Var} {f : Var → List α} {a : Assign α}
open Spec

theorem chunk_eq_slices {l : List α} {d : Nat} : ∀ {n : Nat} (s : Nat), chunk n d (l.drop s) = (List.range n).map fun k => slice l (s + k * d) d := by
  intro n
  induction n with
  | zero => intro s; rfl
  | succ n ih =>
    intro s
    rw [chunk, List.drop_drop, ih (s + d), List.range_succ_eq_map, List.map_cons, List.map_map]
    congr 1
    · simp [slice]
    · apply List.map_congr_left
      intro k _
      simp only [Function.comp, slice, Nat.succ_eq_add_one]
      congr 2
      rw [Nat.succ_mul]; omega

/-- Retraction takes for each type as many numbers of the delta as it needs, from the start of that type. -/
theorem Rep.retract_raw [Zero α] (hC : GoodClasses C) (h : Rep C vars false f a) {δ : Assign α} (hflag : δ.layout.localFlag = true)
    (ι : Ty → Nat) (hι : ∀ t ∈ firstTypes vars, δ.layout.indexFromType.get t = .ok (ι t) ∧
      ι t + (ofType vars t).length * (C t).localDim ≤ δ.storage.length) :
    ∃ b, a.manifoldRetract C δ = .ok b ∧ b.layout = a.layout ∧
      Rep C vars false (fun v => ((C v.ty).retract (unravel (C v.ty).default (f v))
        (slice δ.storage (ι v.ty + (ofType vars v.ty).idxOf v * (C v.ty).localDim) (C v.ty).localDim)).flatten) b := by
  obtain ⟨D, hD⟩ : ∃ D : Var → List α, D = fun v => slice δ.storage (ι v.ty + (ofType vars v.ty).idxOf v * (C v.ty).localDim) (C v.ty).localDim := ⟨_, rfl⟩
  have hDl : ∀ v ∈ vars, (D v).length = (C v.ty).localDim := by
    intro v hv
    have h1 : v ∈ ofType vars v.ty := mem_ofType.2 ⟨hv, rfl⟩
    have h2 := (hι v.ty (mem_firstTypes.2 ⟨v, hv, rfl⟩)).2
    have h3 := List.idxOf_lt_length_of_mem h1
    have h4 : (ofType vars v.ty).idxOf v * (C v.ty).localDim + (C v.ty).localDim ≤ (ofType vars v.ty).length * (C v.ty).localDim := by
      rw [← Nat.succ_mul]; exact Nat.mul_le_mul_right _ h3
    rw [hD]
    simp only [slice, List.length_take, List.length_drop]
    omega
  obtain ⟨g, hgdef⟩ : ∃ g : Var → List α, g = fun v => ((C v.ty).retract (unravel (C v.ty).default (f v)) (D v)).flatten := ⟨_, rfl⟩
  suffices H : ∃ b, a.manifoldRetract C δ = .ok b ∧ b.layout = a.layout ∧ Rep C vars false g b by
    rw [hgdef, hD] at H; exact H
  have hglen : ∀ v ∈ vars, (g v).length = dimOf C false v.ty := by
    intro v hv
    have hval : IsValueOf (C v.ty) (unravel (C v.ty).default (f v)) := isValueOf_unravel (hC v.ty).1 (h.len v hv)
    rw [hgdef]
    exact isValueOf_length (hC v.ty).1 ((hC v.ty).2 _ _ hval (hDl v hv))
  have hrep : Rep C vars false g ⟨(grouped vars).flatMap g, a.layout⟩ := ⟨h.nodup, h.layout, hglen, rfl⟩
  refine ⟨⟨(grouped vars).flatMap g, a.layout⟩, ?_, rfl, hrep⟩
  have hfold : a.layout.getVariableTypes.foldlM (Assign.retractType C a δ) (List.replicate a.storage.length 0)
      = .ok ((grouped vars).flatMap g) := by
    rw [h.layout, make_getVariableTypes C h.nodup, h.storage_length, grouped_eq, total_flatMap, List.flatMap_assoc,
      flatMap_replicate_zero]
    apply foldlM_setBlocks (dim := fun t => dimOf C false t * (ofType vars t).length)
    · intro t _; rw [List.length_replicate, total_ofType]
    · intro t _; exact hrep.len_ofType
    · intro s as t bs hg
      have ht : t ∈ firstTypes vars := by rw [hg]; simp
      obtain ⟨hi, hle⟩ := hι t ht
      have hr1 := h.typeRows hg
      have hr2 : reshape2 (slice δ.storage (ι t) ((C t).localDim * (ofType vars t).length)) (ofType vars t).length (C t).localDim =
          .ok ((ofType vars t).map D) := by
        have hlen : (slice δ.storage (ι t) ((C t).localDim * (ofType vars t).length)).length = (ofType vars t).length * (C t).localDim := by
          simp only [slice, List.length_take, List.length_drop]
          rw [Nat.mul_comm (C t).localDim]
          omega
        rw [reshape2, if_pos hlen]
        congr 1
        have hc : chunk (ofType vars t).length (C t).localDim (slice δ.storage (ι t) ((C t).localDim * (ofType vars t).length)) =
            (List.range (ofType vars t).length).map fun k => slice (slice δ.storage (ι t) ((C t).localDim * (ofType vars t).length)) (0 + k * (C t).localDim) (C t).localDim :=
          chunk_eq_slices 0
        rw [hc]
        apply List.ext_getElem
        · simp
        · intro k h1 h2
          simp only [List.length_map, List.length_range] at h1
          have hty : ((ofType vars t)[k]).ty = t := (mem_ofType.1 (List.getElem_mem h1)).2
          have hnd : (ofType vars t).Nodup := h.nodup.filter _
          simp only [List.getElem_map, List.getElem_range, hD, hty, hnd.idxOf_getElem k h1]
          unfold slice
          rw [List.drop_take, List.drop_drop, List.take_take, Nat.zero_add, Nat.min_eq_left]
          have : k * (C t).localDim + (C t).localDim ≤ (C t).localDim * (ofType vars t).length := by
            rw [← Nat.succ_mul, Nat.mul_comm (C t).localDim]; exact Nat.mul_le_mul_right _ h1
          omega
      rw [show dimOf C false t = (C t).paramDim from rfl] at hr1
      unfold Assign.retractType
      rw [h.typeCount ht, h.typeIndex hg, hi]
      simp only [py_bind_ok, hr1]
      rw [hr2, py_bind_ok, h.unflattenRows, py_bind_ok]
      have hz : List.flatMap Value.flatten (List.zipWith (C t).retract
          ((ofType vars t).map fun v => unravel (C t).default (f v)) ((ofType vars t).map D)) =
          (ofType vars t).flatMap g := by
        rw [List.zipWith_map, List.zipWith_self, List.flatMap_def, List.map_map, List.flatMap_def]
        congr 1
        apply List.map_congr_left
        intro v hv
        simp [hgdef, (mem_ofType.1 hv).2]
      rw [hz]
      rfl
  unfold Assign.manifoldRetract
  simp only [h.flag, hflag, Bool.not_false, pyAssert_true, py_bind_ok, hfold]
  rfl

/-- What a retraction that returns has found. -/
theorem retract_found [Zero α] {δ b : Assign α} (hb : a.manifoldRetract C δ = .ok b) :
    ∀ t ∈ a.layout.getVariableTypes, ∃ n li, a.layout.countFromType.get t = .ok n ∧ δ.layout.indexFromType.get t = .ok li ∧
      (slice δ.storage li ((C t).localDim * n)).length = n * (C t).localDim := by
  unfold Assign.manifoldRetract at hb
  simp only [py_bind_eq_ok] at hb
  obtain ⟨-, -, -, -, new, hn, -⟩ := hb
  have aux : ∀ (ts : List Ty) (new new' : List α), ts.foldlM (Assign.retractType C a δ) new = .ok new' → ∀ t ∈ ts,
      ∃ n li, a.layout.countFromType.get t = .ok n ∧ δ.layout.indexFromType.get t = .ok li ∧
      (slice δ.storage li ((C t).localDim * n)).length = n * (C t).localDim := by
    intro ts
    induction ts with
    | nil => intro _ _ _ t ht; cases ht
    | cons s ts ih =>
      intro new new' h t ht
      rw [List.foldlM_cons, py_bind_eq_ok] at h
      obtain ⟨m, h1, h2⟩ := h
      rcases List.mem_cons.1 ht with rfl | ht
      · unfold Assign.retractType at h1
        simp only [py_bind_eq_ok] at h1
        obtain ⟨n, k1, i, k2, li, k3, _, k4, _, k5, _⟩ := h1
        refine ⟨n, li, k1, k3, ?_⟩
        unfold reshape2 at k5
        split at k5
        · assumption
        · cases k5
      · exact ih _ _ h2 t ht
  exact aux _ _ _ hn
end

end Jaxfg
