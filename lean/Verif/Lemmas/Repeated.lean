/-
Lemmas about `StorageLayout.make` for lists in which a variable may be listed more than once.
-/
import Verif.Lemmas.Assign

namespace Jaxfg
open Spec
variable {α : Type _}

/-- The placement loop started from empty dictionaries: keys, indices and the running offset, repetitions allowed. -/
theorem foldl_placeVar_any {dim : Ty → Nat} (vs : List Var) (it : PyDict Ty Nat) :
    (vs.foldl (Layout.placeVar dim) ⟨.empty, it, 0⟩).idxVar.keys = vs.eraseDups ∧
    (vs.foldl (Layout.placeVar dim) ⟨.empty, it, 0⟩).next = total (fun v => dim v.ty) vs ∧
    (vs.foldl (Layout.placeVar dim) ⟨.empty, it, 0⟩).idxType = it ∧
    ∀ v i, (vs.foldl (Layout.placeVar dim) ⟨.empty, it, 0⟩).idxVar.get? v = some i ↔
      ∃ pre post, vs = pre ++ v :: post ∧ v ∉ post ∧ i = total (fun v => dim v.ty) pre := by
  induction vs using List.reverseRecOn with
  | nil => simp [PyDict.empty, PyDict.keys, PyDict.get?]
  | append_singleton vs w ih =>
    obtain ⟨h1, h2, h3, h4⟩ := ih
    rw [List.foldl_append]
    simp only [List.foldl_cons, List.foldl_nil, Layout.placeVar]
    refine ⟨?_, by rw [h2]; simp, h3, ?_⟩
    · rw [PyDict.keys_set, h1, List.eraseDups_append]
      by_cases hw : w ∈ vs
      · rw [if_pos (List.mem_eraseDups.2 hw)]
        simp [List.removeAll, hw]
      · rw [if_neg (fun h => hw (List.mem_eraseDups.1 h))]
        simp [List.removeAll, hw, List.eraseDups_cons]
    · intro v i
      rw [PyDict.get?_set]
      by_cases hv : v = w
      · subst hv
        rw [if_pos rfl, h2]
        constructor
        · intro h
          exact ⟨vs, [], by simp, by simp, by simpa using h.symm⟩
        · rintro ⟨pre, post, he, hp, rfl⟩
          rcases List.eq_nil_or_concat post with rfl | ⟨post', x, rfl⟩
          · have := List.append_inj_left' he (by simp)
            rw [this]
          · exfalso
            have he' : vs ++ [v] = (pre ++ v :: post') ++ [x] := by simpa using he
            have := List.append_inj_right' he' (by simp)
            apply hp
            simp at this
            simp [this]
      · rw [if_neg hv, h4]
        constructor
        · rintro ⟨pre, post, rfl, hp, rfl⟩
          exact ⟨pre, post ++ [w], by simp, by simp [hp, hv], rfl⟩
        · rintro ⟨pre, post, he, hp, rfl⟩
          rcases List.eq_nil_or_concat post with rfl | ⟨post', x, rfl⟩
          · have := List.append_inj_right' he (by simp)
            simp at this
            exact absurd this.symm hv
          · have he' : vs ++ [w] = (pre ++ v :: post') ++ [x] := by simpa using he
            have := List.append_inj_left' he' (by simp)
            exact ⟨pre, post', this, fun h => hp (by simp [h]), rfl⟩

theorem foldl_placeVar_type {dim : Ty → Nat} (vs : List Var) (acc : Layout.Acc) :
    (vs.foldl (Layout.placeVar dim) acc).idxType = acc.idxType ∧
    ∀ it, vs.foldl (Layout.placeVar dim) { acc with idxType := it } =
      { vs.foldl (Layout.placeVar dim) acc with idxType := it } := by
  induction vs generalizing acc with
  | nil => simp
  | cons v vs ih =>
    constructor
    · rw [List.foldl_cons, (ih _).1]; rfl
    · intro it
      exact (ih (Layout.placeVar dim acc v)).2 it

/-- The two nested loops place the concatenated buckets one after the other. -/
theorem foldl_placeType_any {dim : Ty → Nat} (ps : List (Ty × List Var)) (acc : Layout.Acc) :
    (ps.foldl (Layout.placeType dim) acc).idxVar = ((ps.flatMap (·.2)).foldl (Layout.placeVar dim) acc).idxVar ∧
    (ps.foldl (Layout.placeType dim) acc).next = ((ps.flatMap (·.2)).foldl (Layout.placeVar dim) acc).next := by
  induction ps generalizing acc with
  | nil => simp
  | cons p ps ih =>
    rw [List.foldl_cons, (ih _).1, (ih _).2, List.flatMap_cons, List.foldl_append]
    unfold Layout.placeType
    rw [(foldl_placeVar_type p.2 acc).2, (foldl_placeVar_type _ _).2]
    exact ⟨rfl, rfl⟩

/-- The type dictionary built by the two loops. -/
theorem foldl_placeType_types {dim : Ty → Nat} {vars : List Var} {ts : List Ty} {acc : Layout.Acc}
    (ht : (acc.idxType.keys ++ ts).Nodup) :
    ((ts.map fun t => (t, vars.filter (·.ty = t))).foldl (Layout.placeType dim) acc).idxType =
      ⟨acc.idxType.items ++ typeOffsets dim vars acc.next ts⟩ := by
  induction ts generalizing acc with
  | nil => simp [typeOffsets]
  | cons t ts ih =>
    have htm : t ∉ acc.idxType.keys := by
      intro hm
      rw [List.nodup_append] at ht
      exact ht.2.2 t hm t (by simp) rfl
    have hi : (Layout.placeType dim acc (t, vars.filter (·.ty = t))).idxType = ⟨acc.idxType.items ++ [(t, acc.next)]⟩ := by
      unfold Layout.placeType
      rw [(foldl_placeVar_type _ _).1, PyDict.set_of_not_mem htm]
    have hnx : ∀ (vs : List Var) (acc : Layout.Acc),
        (vs.foldl (Layout.placeVar dim) acc).next = acc.next + total (fun v => dim v.ty) vs := by
      intro vs
      induction vs with
      | nil => simp
      | cons v vs ih => intro acc; rw [List.foldl_cons, ih]; simp [Layout.placeVar, Nat.add_assoc]
    have hn : (Layout.placeType dim acc (t, vars.filter (·.ty = t))).next =
        acc.next + total (fun v => dim v.ty) (vars.filter (·.ty = t)) := by
      unfold Layout.placeType
      rw [hnx]
    rw [List.map_cons, List.foldl_cons, ih]
    · rw [hi, hn]; simp [typeOffsets]
    · rw [hi]; simpa [PyDict.keys] using ht

section
variable (C : Ty → VarClass α) (vars : List Var) (loc : Bool)

/-- `StorageLayout.make` for every list. -/
theorem make_any :
    (Layout.make C vars loc).localFlag = loc ∧
    (Layout.make C vars loc).getVariables = (grouped vars).eraseDups ∧
    (Layout.make C vars loc).dim = total (fun v => dimOf C loc v.ty) (grouped vars) ∧
    (∀ v i, (Layout.make C vars loc).indexFromVar.get? v = some i ↔
      ∃ pre post, grouped vars = pre ++ v :: post ∧ v ∉ post ∧ i = total (fun v => dimOf C loc v.ty) pre) ∧
    (Layout.make C vars loc).indexFromType = ⟨typeOffsets (dimOf C loc) vars 0 (firstTypes vars)⟩ ∧
    (Layout.make C vars loc).countFromType =
      ⟨(firstTypes vars).map fun t => (t, (vars.filter (·.ty = t)).length)⟩ := by
  have hg : (((firstTypes vars).map fun t => (t, vars.filter (·.ty = t))).flatMap (·.2)) = grouped vars := by
    simp [grouped, List.flatMap_map]
  obtain ⟨h1, h2, -, h4⟩ := foldl_placeVar_any (dim := dimOf C loc) (grouped vars) .empty
  have h5 := foldl_placeType_any (dim := dimOf C loc) ((firstTypes vars).map fun t => (t, vars.filter (·.ty = t)))
    ⟨.empty, .empty, 0⟩
  rw [hg] at h5
  unfold Layout.make Layout.getVariables
  simp only [bucket_eq]
  refine ⟨trivial, ?_, ?_, ?_, ?_, ?_⟩
  · rw [h5.1, h1]
  · rw [h5.2, h2]
  · rw [h5.1]; exact h4
  · rw [foldl_placeType_types]
    · simp [PyDict.empty]
    · simpa [PyDict.empty, PyDict.keys] using nodup_firstTypes
  · simp [List.map_map, Function.comp_def]

theorem make_any_types : (Layout.make C vars loc).getVariableTypes = firstTypes vars := by
  unfold Layout.getVariableTypes
  rw [(make_any C vars loc).2.2.2.2.1]
  simp [PyDict.keys, map_fst_typeOffsets]

theorem make_any_count {t : Ty} (ht : t ∈ firstTypes vars) :
    (Layout.make C vars loc).countFromType.get? t = some (vars.filter (·.ty = t)).length := by
  rw [PyDict.get?_eq_some_iff]
  · rw [(make_any C vars loc).2.2.2.2.2]; exact List.mem_map.2 ⟨t, ht, rfl⟩
  · rw [(make_any C vars loc).2.2.2.2.2]
    simpa [PyDict.keys, Function.comp_def] using nodup_firstTypes

theorem make_any_index_type {as bs : List Ty} {t : Ty} (hg : firstTypes vars = as ++ t :: bs) :
    (Layout.make C vars loc).indexFromType.get? t =
      some (total (fun v => dimOf C loc v.ty) (as.flatMap fun t => vars.filter (·.ty = t))) := by
  have hn : (Layout.make C vars loc).indexFromType.keys.Nodup := by
    have := make_any_types C vars loc
    unfold Layout.getVariableTypes at this
    rw [this]; exact nodup_firstTypes
  rw [PyDict.get?_eq_some_iff hn, (make_any C vars loc).2.2.2.2.1]
  have aux : ∀ (as : List Ty) n, (t, n + total (fun v => dimOf C loc v.ty) (as.flatMap fun t => vars.filter (·.ty = t))) ∈
      typeOffsets (dimOf C loc) vars n (as ++ t :: bs) := by
    intro as
    induction as with
    | nil => intro n; simp [typeOffsets]
    | cons s as ih =>
      intro n
      simp only [List.cons_append, typeOffsets, List.flatMap_cons, total_append, List.mem_cons]
      right
      have := ih (n + total (fun v => dimOf C loc v.ty) (vars.filter (·.ty = s)))
      rwa [Nat.add_assoc] at this
  have := aux as 0
  rw [Nat.zero_add] at this
  simp only [hg]
  exact this

end

end Jaxfg
