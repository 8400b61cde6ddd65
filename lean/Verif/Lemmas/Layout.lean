/- Closed form of `StorageLayout.make`. -/
import Verif.Spec.Layout
import Verif.Lemmas.Dict
import Verif.Lemmas.Blocks
import Mathlib.Data.List.Induction

namespace Jaxfg
open Spec
variable {α : Type _}

/-! ### Bucketing -/

theorem mem_firstTypes {vars : List Var} {t : Ty} : t ∈ firstTypes vars ↔ ∃ v ∈ vars, v.ty = t := by
  induction vars with
  | nil => simp [firstTypes]
  | cons v vs ih =>
    simp only [firstTypes, List.mem_cons, List.mem_filter, ih, decide_eq_true_eq, exists_eq_or_imp]
    by_cases h : t = v.ty
    · simp [h]
    · have : ¬ v.ty = t := fun e => h e.symm
      simp [h, this]

theorem nodup_firstTypes {vars : List Var} : (firstTypes vars).Nodup := by
  induction vars with
  | nil => simp [firstTypes]
  | cons v vs ih =>
    simp only [firstTypes, List.nodup_cons, List.mem_filter, decide_eq_true_eq]
    exact ⟨by simp, ih.filter _⟩

theorem firstTypes_concat {vars : List Var} {v : Var} :
    firstTypes (vars ++ [v]) = if v.ty ∈ firstTypes vars then firstTypes vars else firstTypes vars ++ [v.ty] := by
  induction vars with
  | nil => simp [firstTypes]
  | cons w vs ih =>
    simp only [List.cons_append, firstTypes, ih, List.mem_cons, List.mem_filter, decide_eq_true_eq]
    by_cases h1 : v.ty = w.ty
    · simp only [h1]
      by_cases h2 : w.ty ∈ firstTypes vs
      · simp [h2]
      · simp [h2, List.filter_append]
    · by_cases h2 : v.ty ∈ firstTypes vs
      · simp [h1, h2]
      · simp [h1, h2, List.filter_append]

theorem bucket_concat {vars : List Var} {v : Var} :
    Layout.bucket (vars ++ [v]) =
      (Layout.bucket vars).set v.ty ((((Layout.bucket vars).get? v.ty).getD []) ++ [v]) := by
  simp [Layout.bucket, List.foldl_append]

theorem bucket_eq (vars : List Var) :
    (Layout.bucket vars).items = (firstTypes vars).map fun t => (t, vars.filter (·.ty = t)) := by
  induction vars using List.reverseRecOn with
  | nil => rfl
  | append_singleton vs v ih =>
    rw [bucket_concat]
    have hkeys : (Layout.bucket vs).keys = firstTypes vs := by
      simp only [PyDict.keys, ih, List.map_map]
      conv_rhs => rw [← List.map_id (firstTypes vs)]
      rfl
    by_cases h : v.ty ∈ firstTypes vs
    · have hget : (Layout.bucket vs).get? v.ty = some (vs.filter (·.ty = v.ty)) := by
        rw [PyDict.get?_eq_some_iff (by rw [hkeys]; exact nodup_firstTypes), ih]
        exact List.mem_map.2 ⟨_, h, rfl⟩
      rw [PyDict.set_of_mem (by rw [hkeys]; exact h), firstTypes_concat, if_pos h]
      simp only [ih, hget, List.map_map, Option.getD_some]
      apply List.map_congr_left
      intro t _
      simp only [Function.comp, List.filter_append]
      by_cases ht : t = v.ty
      · subst ht; simp
      · have : ¬ v.ty = t := fun e => ht e.symm
        simp [ht, this]
    · have hget : (Layout.bucket vs).get? v.ty = none := by
        rw [PyDict.get?_eq_none_iff, hkeys]; exact h
      rw [PyDict.set_of_not_mem (by rw [hkeys]; exact h), firstTypes_concat, if_neg h]
      have hnil : vs.filter (·.ty = v.ty) = [] := by
        rw [List.filter_eq_nil_iff]
        intro w hw
        simp only [decide_eq_true_eq]
        intro e
        exact h (mem_firstTypes.2 ⟨w, hw, e⟩)
      simp only [ih, hget, List.map_append, Option.getD_none, List.nil_append, List.map_cons, List.map_nil,
        List.filter_append, hnil]
      congr 1
      · apply List.map_congr_left
        intro t ht
        have : ¬ v.ty = t := by rintro rfl; exact h ht
        simp [this]
      · simp

/-! ### The grouped order -/

theorem mem_grouped {vars : List Var} {v : Var} : v ∈ grouped vars ↔ v ∈ vars := by
  simp only [grouped, List.mem_flatMap, List.mem_filter, decide_eq_true_eq]
  constructor
  · rintro ⟨t, _, h, _⟩; exact h
  · intro h; exact ⟨v.ty, mem_firstTypes.2 ⟨v, h, rfl⟩, h, rfl⟩

theorem filter_flatMap_types {vars : List Var} {ts : List Ty} (hn : ts.Nodup) {t : Ty} (ht : t ∈ ts) :
    (ts.flatMap fun t => vars.filter (·.ty = t)).filter (·.ty = t) = vars.filter (·.ty = t) := by
  induction ts with
  | nil => cases ht
  | cons s ts ih =>
    rw [List.nodup_cons] at hn
    rw [List.flatMap_cons, List.filter_append]
    have hself : (vars.filter (·.ty = t)).filter (·.ty = t) = vars.filter (·.ty = t) := by
      rw [List.filter_filter]; simp
    have hother : ∀ s, s ≠ t → (vars.filter (·.ty = s)).filter (·.ty = t) = [] := by
      intro s hs
      rw [List.filter_eq_nil_iff]
      intro w hw
      simp only [List.mem_filter, decide_eq_true_eq] at hw ⊢
      rw [hw.2]; exact hs
    rcases List.mem_cons.1 ht with h | h
    · subst h
      rw [hself]
      have : (ts.flatMap fun t => vars.filter (·.ty = t)).filter (·.ty = t) = [] := by
        rw [List.filter_eq_nil_iff]
        intro w hw
        simp only [List.mem_flatMap, List.mem_filter, decide_eq_true_eq] at hw ⊢
        obtain ⟨s, hs, _, hws⟩ := hw
        rintro rfl
        exact hn.1 (hws ▸ hs)
      rw [this, List.append_nil]
    · have : s ≠ t := by rintro rfl; exact hn.1 h
      rw [hother s this, List.nil_append, ih hn.2 h]

theorem filter_grouped {vars : List Var} {t : Ty} :
    (grouped vars).filter (·.ty = t) = vars.filter (·.ty = t) := by
  by_cases h : t ∈ firstTypes vars
  · exact filter_flatMap_types nodup_firstTypes h
  · have : ∀ w ∈ vars, ¬ w.ty = t := fun w hw e => h (mem_firstTypes.2 ⟨w, hw, e⟩)
    rw [List.filter_eq_nil_iff.2, List.filter_eq_nil_iff.2]
    · intro w hw; simpa using this w hw
    · intro w hw; simpa using this w (mem_grouped.1 hw)

theorem grouped_perm (vars : List Var) : (grouped vars).Perm vars := by
  rw [List.perm_iff_count]
  intro v
  have h1 : ∀ l : List Var, l.count v = (l.filter (·.ty = v.ty)).count v := by
    intro l
    rw [List.count_filter]; simp
  rw [h1, h1 vars, filter_grouped]

theorem nodup_grouped {vars : List Var} (h : vars.Nodup) : (grouped vars).Nodup :=
  (grouped_perm vars).nodup_iff.2 h

/-! ### The placement loops -/

/-- Start offsets of consecutive blocks, with an initial offset. -/
def offsets (dim : Ty → Nat) : Nat → List Var → List (Var × Nat)
  | _, [] => []
  | n, v :: vs => (v, n) :: offsets dim (n + dim v.ty) vs

theorem offsets_append {dim : Ty → Nat} {n : Nat} {vs ws : List Var} :
    offsets dim n (vs ++ ws) = offsets dim n vs ++ offsets dim (n + total (fun v => dim v.ty) vs) ws := by
  induction vs generalizing n with
  | nil => simp [offsets]
  | cons v vs ih => simp [offsets, ih, Nat.add_assoc]

theorem map_fst_offsets {dim : Ty → Nat} {n : Nat} {vs : List Var} : (offsets dim n vs).map (·.1) = vs := by
  induction vs generalizing n with
  | nil => rfl
  | cons v vs ih => simp [offsets, ih]

theorem foldl_placeVar {dim : Ty → Nat} {vs : List Var} {acc : Layout.Acc}
    (h : (acc.idxVar.keys ++ vs).Nodup) :
    vs.foldl (Layout.placeVar dim) acc =
      ⟨⟨acc.idxVar.items ++ offsets dim acc.next vs⟩, acc.idxType, acc.next + total (fun v => dim v.ty) vs⟩ := by
  induction vs generalizing acc with
  | nil => simp [offsets]
  | cons v vs ih =>
    have hv : v ∉ acc.idxVar.keys := by
      intro hm
      rw [List.nodup_append] at h
      exact h.2.2 v hm v (by simp) rfl
    have hset : acc.idxVar.set v acc.next = ⟨acc.idxVar.items ++ [(v, acc.next)]⟩ := PyDict.set_of_not_mem hv
    rw [List.foldl_cons, ih]
    · simp [Layout.placeVar, hset, offsets, Nat.add_assoc]
    · simp only [Layout.placeVar, hset]
      simpa [PyDict.keys] using h

/-- Start offsets of the type regions. -/
def typeOffsets (dim : Ty → Nat) (vars : List Var) : Nat → List Ty → List (Ty × Nat)
  | _, [] => []
  | n, t :: ts => (t, n) :: typeOffsets dim vars (n + total (fun v => dim v.ty) (vars.filter (·.ty = t))) ts

theorem map_fst_typeOffsets {dim : Ty → Nat} {vars : List Var} {n : Nat} {ts : List Ty} :
    (typeOffsets dim vars n ts).map (·.1) = ts := by
  induction ts generalizing n with
  | nil => rfl
  | cons v vs ih => simp [typeOffsets, ih]

theorem foldl_placeType {dim : Ty → Nat} {vars : List Var} {ts : List Ty} {acc : Layout.Acc}
    (hv : (acc.idxVar.keys ++ ts.flatMap fun t => vars.filter (·.ty = t)).Nodup)
    (ht : (acc.idxType.keys ++ ts).Nodup) :
    (ts.map fun t => (t, vars.filter (·.ty = t))).foldl (Layout.placeType dim) acc =
      ⟨⟨acc.idxVar.items ++ offsets dim acc.next (ts.flatMap fun t => vars.filter (·.ty = t))⟩,
       ⟨acc.idxType.items ++ typeOffsets dim vars acc.next ts⟩,
       acc.next + total (fun v => dim v.ty) (ts.flatMap fun t => vars.filter (·.ty = t))⟩ := by
  induction ts generalizing acc with
  | nil => simp [offsets, typeOffsets]
  | cons t ts ih =>
    have htm : t ∉ acc.idxType.keys := by
      intro hm
      rw [List.nodup_append] at ht
      exact ht.2.2 t hm t (by simp) rfl
    rw [List.flatMap_cons, ← List.append_assoc] at hv
    rw [List.map_cons, List.foldl_cons]
    have hplace : Layout.placeType dim acc (t, vars.filter (·.ty = t)) =
        ⟨⟨acc.idxVar.items ++ offsets dim acc.next (vars.filter (·.ty = t))⟩,
         ⟨acc.idxType.items ++ [(t, acc.next)]⟩,
         acc.next + total (fun v => dim v.ty) (vars.filter (·.ty = t))⟩ := by
      unfold Layout.placeType
      simp only
      rw [foldl_placeVar (by exact (List.nodup_append.1 hv).1), PyDict.set_of_not_mem htm]
    rw [hplace, ih]
    · simp [typeOffsets, offsets_append, List.flatMap_cons, Nat.add_assoc]
    · simpa [PyDict.keys, map_fst_offsets] using hv
    · simpa [PyDict.keys] using ht

/-- Closed form of `StorageLayout.make` for distinct variables. -/
theorem make_eq (C : Ty → VarClass α) {vars : List Var} (h : vars.Nodup) (loc : Bool) :
    Layout.make C vars loc =
      { localFlag := loc
        dim := total (fun v => dimOf C loc v.ty) (grouped vars)
        indexFromVar := ⟨offsets (dimOf C loc) 0 (grouped vars)⟩
        indexFromType := ⟨typeOffsets (dimOf C loc) vars 0 (firstTypes vars)⟩
        countFromType := ⟨(firstTypes vars).map fun t => (t, (vars.filter (·.ty = t)).length)⟩ } := by
  unfold Layout.make
  simp only [bucket_eq]
  rw [foldl_placeType]
  · simp [PyDict.empty, grouped, List.map_map, Function.comp_def]
  · simpa [PyDict.empty, PyDict.keys, grouped] using nodup_grouped h
  · simpa [PyDict.empty, PyDict.keys] using nodup_firstTypes

section
variable (C : Ty → VarClass α) {vars : List Var} (h : vars.Nodup) (loc : Bool)
include h

theorem make_getVariables : (Layout.make C vars loc).getVariables = grouped vars := by
  rw [make_eq C h]; simp [Layout.getVariables, PyDict.keys, map_fst_offsets]

theorem make_getVariableTypes : (Layout.make C vars loc).getVariableTypes = firstTypes vars := by
  rw [make_eq C h]; simp [Layout.getVariableTypes, PyDict.keys, map_fst_typeOffsets]

theorem make_dim : (Layout.make C vars loc).dim = total (fun v => dimOf C loc v.ty) (grouped vars) := by
  rw [make_eq C h]

theorem nodup_keys_indexFromVar : (Layout.make C vars loc).indexFromVar.keys.Nodup := by
  have := make_getVariables C h loc
  unfold Layout.getVariables at this
  rw [this]; exact nodup_grouped h

theorem nodup_keys_indexFromType : (Layout.make C vars loc).indexFromType.keys.Nodup := by
  have := make_getVariableTypes C h loc
  unfold Layout.getVariableTypes at this
  rw [this]; exact nodup_firstTypes

theorem make_count {t : Ty} (ht : t ∈ firstTypes vars) :
    (Layout.make C vars loc).countFromType.get? t = some (vars.filter (·.ty = t)).length := by
  rw [PyDict.get?_eq_some_iff]
  · rw [make_eq C h]; exact List.mem_map.2 ⟨t, ht, rfl⟩
  · rw [make_eq C h]
    simpa [PyDict.keys, Function.comp_def] using nodup_firstTypes

/-- The block of `v` starts after the blocks of the variables before it in the grouped order. -/
theorem make_index {as bs : List Var} {v : Var} (hg : grouped vars = as ++ v :: bs) :
    (Layout.make C vars loc).indexFromVar.get? v = some (total (fun v => dimOf C loc v.ty) as) := by
  rw [PyDict.get?_eq_some_iff (nodup_keys_indexFromVar C h loc), make_eq C h]
  simp only [hg, offsets_append, offsets]
  simp

theorem make_index_type {as bs : List Ty} {t : Ty} (hg : firstTypes vars = as ++ t :: bs) :
    (Layout.make C vars loc).indexFromType.get? t =
      some (total (fun v => dimOf C loc v.ty) (as.flatMap fun t => vars.filter (·.ty = t))) := by
  rw [PyDict.get?_eq_some_iff (nodup_keys_indexFromType C h loc), make_eq C h]
  have aux : ∀ (as : List Ty) n, (t, n + total (fun v => dimOf C loc v.ty) (as.flatMap fun t => vars.filter (·.ty = t))) ∈
      typeOffsets (dimOf C loc) vars n (as ++ t :: bs) := by
    intro as
    induction as with
    | nil => intro n; simp [typeOffsets]
    | cons s as ih =>
      intro n
      simp only [List.cons_append, typeOffsets, List.flatMap_cons, total_append, List.mem_cons]
      right
      have := ih (n + total (fun v => dimOf C loc v.ty) (vars.filter (·.ty = s)))
      rwa [Nat.add_assoc] at this
  have := aux as 0
  rw [Nat.zero_add] at this
  simp only [hg]
  exact this

end

end Jaxfg
