/- Lemmas about variable assignments: the storage vector is a concatenation of per-variable blocks. -/
import Verif.Spec.Assign
import Verif.Lemmas.Layout

namespace Jaxfg
open Spec
variable {α : Type _}

/-! ### Flattening -/

theorem splitLeaves_flatten {ls : List (Arr α)} (h : ∀ a ∈ ls, a.data.length = a.shape.prod) :
    splitLeaves (ls.map (·.shape)) (ls.flatMap (·.data)) = ls := by
  induction ls with
  | nil => rfl
  | cons a ls ih =>
    have ha := h a (by simp)
    simp only [List.map_cons, splitLeaves, List.flatMap_cons]
    rw [← ha, List.take_left, List.drop_left, ih (fun b hb => h b (by simp [hb]))]

theorem flatMap_splitLeaves {ss : List (List Nat)} {l : List α} (h : l.length = (ss.map List.prod).sum) :
    (splitLeaves ss l).flatMap (·.data) = l := by
  induction ss generalizing l with
  | nil => simp at h; simp [splitLeaves, h]
  | cons s ss ih =>
    simp only [List.map_cons, List.sum_cons] at h
    simp only [splitLeaves, List.flatMap_cons]
    rw [ih (by simp [h]), List.take_append_drop]

theorem map_shape_splitLeaves {ss : List (List Nat)} {l : List α} : (splitLeaves ss l).map (·.shape) = ss := by
  induction ss generalizing l with
  | nil => rfl
  | cons s ss ih => simp [splitLeaves, ih]

theorem wellShaped_splitLeaves {ss : List (List Nat)} {l : List α} (h : l.length = (ss.map List.prod).sum) :
    ∀ a ∈ splitLeaves ss l, a.data.length = a.shape.prod := by
  induction ss generalizing l with
  | nil => simp [splitLeaves]
  | cons s ss ih =>
    simp only [List.map_cons, List.sum_cons] at h
    simp only [splitLeaves, List.mem_cons]
    rintro a (rfl | ha)
    · simp; omega
    · exact ih (by simp [h]) a ha

theorem flatten_length {v : Value α} (h : WellShaped v) : v.flatten.length = ((v.leaves.map (·.shape)).map List.prod).sum := by
  unfold Value.flatten WellShaped at *
  generalize v.leaves = ls at h
  induction ls with
  | nil => rfl
  | cons a ls ih =>
    simp only [List.flatMap_cons, List.length_append, List.map_cons, List.sum_cons]
    rw [h a (by simp), ih (fun b hb => h b (by simp [hb]))]

theorem isValueOf_length {c : VarClass α} (hc : WellShaped c.default) {v : Value α} (h : IsValueOf c v) :
    v.flatten.length = c.paramDim := by
  unfold VarClass.paramDim
  rw [flatten_length h.2.2, flatten_length hc, h.2.1]

theorem unravel_flatten {c : VarClass α} {v : Value α} (h : IsValueOf c v) : unravel c.default v.flatten = v := by
  obtain ⟨h1, h2, h3⟩ := h
  unfold unravel Value.flatten
  rw [← h2, splitLeaves_flatten h3, ← h1]

theorem flatten_unravel {c : VarClass α} (hc : WellShaped c.default) {l : List α} (h : l.length = c.paramDim) :
    (unravel c.default l).flatten = l := by
  unfold unravel Value.flatten
  apply flatMap_splitLeaves
  rw [h, VarClass.paramDim, flatten_length hc]

theorem isValueOf_unravel {c : VarClass α} (hc : WellShaped c.default) {l : List α} (h : l.length = c.paramDim) :
    IsValueOf c (unravel c.default l) := by
  refine ⟨rfl, map_shape_splitLeaves, ?_⟩
  apply wellShaped_splitLeaves
  rw [h, VarClass.paramDim, flatten_length hc]

theorem unflatten_ok {c : VarClass α} {l : List α} (h : l.length = c.paramDim) :
    c.unflatten l = .ok (unravel c.default l) := by
  simp [VarClass.unflatten, h]

/-! ### Block representation -/

/-- The assignments object `a` over `vars` stores the vector `f v` for each variable `v`. -/
structure Rep (C : Ty → VarClass α) (vars : List Var) (loc : Bool) (f : Var → List α) (a : Assign α) : Prop where
  nodup : vars.Nodup
  layout : a.layout = Layout.make C vars loc
  len : ∀ v ∈ vars, (f v).length = dimOf C loc v.ty
  storage : a.storage = (grouped vars).flatMap f

section
variable {C : Ty → VarClass α} {vars : List Var} {loc : Bool} {f : Var → List α} {a : Assign α}

theorem make_localFlag : (Layout.make C vars loc).localFlag = loc := rfl

theorem Rep.flag (h : Rep C vars loc f a) : a.layout.localFlag = loc := by rw [h.layout]; rfl

theorem Rep.len' (h : Rep C vars loc f a) : ∀ v ∈ grouped vars, (f v).length = dimOf C loc v.ty :=
  fun v hv => h.len v (mem_grouped.1 hv)

theorem Rep.storage_length (h : Rep C vars loc f a) :
    a.storage.length = total (fun v => dimOf C loc v.ty) (grouped vars) := by
  rw [h.storage]; exact length_flatMap_blocks h.len'

theorem Rep.storage_length' (h : Rep C vars loc f a) : a.storage.length = a.layout.dim := by
  rw [h.storage_length, h.layout, make_dim C h.nodup]

theorem Rep.isAssignment (h : Rep C vars loc f a) : IsAssignmentOf C vars a :=
  ⟨h.nodup, by rw [h.flag]; exact h.layout, h.storage_length'⟩

theorem exists_rep (h : IsAssignmentOf C vars a) : ∃ f, Rep C vars a.layout.localFlag f a := by
  obtain ⟨hn, hl, hs⟩ := h
  rw [hl, make_dim C hn] at hs
  obtain ⟨f, hf, hsf⟩ := exists_blocks (fun v => dimOf C a.layout.localFlag v.ty) (nodup_grouped hn) a.storage hs
  exact ⟨f, hn, hl, fun v hv => hf v (mem_grouped.2 hv), hsf⟩

/-- Index and contents of a variable's block. -/
theorem Rep.index (h : Rep C vars loc f a) {v : Var} (hv : v ∈ vars) :
    ∃ i, a.layout.indexFromVar.get? v = some i ∧ i + dimOf C loc v.ty ≤ a.storage.length ∧
      slice a.storage i (dimOf C loc v.ty) = f v := by
  obtain ⟨as, bs, hg⟩ := List.append_of_mem (mem_grouped.2 hv)
  refine ⟨total (fun v : Var => dimOf C loc v.ty) as, ?_, ?_, ?_⟩
  · rw [h.layout]; exact make_index C h.nodup loc hg
  · rw [h.storage_length, hg, total_append, total_cons]; omega
  · have hl := h.len'
    rw [h.storage, hg]
    rw [hg] at hl
    exact slice_flatMap (dim := fun v : Var => dimOf C loc v.ty) hl

theorem Rep.mem_keys (h : Rep C vars loc f a) {v : Var} : v ∈ a.layout.indexFromVar.keys ↔ v ∈ vars := by
  have := make_getVariables C h.nodup loc
  rw [← h.layout] at this
  unfold Layout.getVariables at this
  rw [this, mem_grouped]

theorem Rep.block_eq (h : Rep C vars loc f a) {v : Var} (hv : v ∈ vars) : block C a v = f v := by
  obtain ⟨i, h1, _, h3⟩ := h.index hv
  unfold block
  rw [h1, h.flag]
  exact h3

/-- Two representations of the same object agree. -/
theorem Rep.congr (h : Rep C vars loc f a) {g : Var → List α} (hfg : ∀ v ∈ vars, f v = g v) : Rep C vars loc g a where
  nodup := h.nodup
  layout := h.layout
  len v hv := by rw [← hfg v hv]; exact h.len v hv
  storage := by
    rw [h.storage, List.flatMap_def, List.flatMap_def]
    congr 1
    apply List.map_congr_left
    intro v hv
    exact hfg v (mem_grouped.1 hv)

theorem Rep.getValue_ok (h : Rep C vars false f a) {v : Var} (hv : v ∈ vars) :
    a.getValue C v = .ok (unravel (C v.ty).default (f v)) := by
  obtain ⟨i, h1, _, h3⟩ := h.index hv
  unfold Assign.getValue
  rw [PyDict.get_ok_of h1]
  have hd : dimOf C false v.ty = (C v.ty).paramDim := rfl
  rw [hd] at h3
  simp only [py_bind_ok, h3]
  exact unflatten_ok (h.len v hv)

theorem Rep.getValue_error (h : Rep C vars loc f a) {v : Var} (hv : v ∉ vars) :
    a.getValue C v = .error .key := by
  unfold Assign.getValue
  rw [PyDict.get_error_of (fun hm => hv (h.mem_keys.1 hm))]
  rfl

/-- Writing one block. -/
theorem Rep.setSlice_ok (h : Rep C vars loc f a) {v : Var} (hv : v ∈ vars) {x : List α}
    (hx : x.length = dimOf C loc v.ty) :
    ∃ i, a.layout.indexFromVar.get? v = some i ∧ ∃ s, setSlice a.storage i (dimOf C loc v.ty) x = .ok s ∧
      Rep C vars loc (fun w => if w = v then x else f w) ⟨s, a.layout⟩ := by
  obtain ⟨as, bs, hg⟩ := List.append_of_mem (mem_grouped.2 hv)
  have hng := nodup_grouped h.nodup
  rw [hg] at hng
  have hva : v ∉ as := by
    intro hm
    exact (List.nodup_append.1 hng).2.2 v hm v (by simp) rfl
  have hvb : v ∉ bs := (List.nodup_cons.1 (List.nodup_append.1 hng).2.1).1
  refine ⟨total (fun v : Var => dimOf C loc v.ty) as, by rw [h.layout]; exact make_index C h.nodup loc hg,
    as.flatMap f ++ x ++ bs.flatMap f, ?_, h.nodup, h.layout, ?_, ?_⟩
  · rw [h.storage, hg, List.flatMap_append, List.flatMap_cons, ← List.append_assoc]
    apply setSlice_middle
    · rw [length_flatMap_blocks (dim := fun v : Var => dimOf C loc v.ty)]
      intro w hw
      exact h.len' w (by rw [hg]; simp [hw])
    · exact (h.len v hv).symm
    · exact hx
  · intro w hw
    by_cases hwv : w = v
    · subst hwv; simp [hx]
    · simp only [hwv, if_false]; exact h.len w hw
  · rw [hg, flatMap_update_middle hva hvb]

theorem Rep.setValue_ok (h : Rep C vars false f a) {v : Var} (hv : v ∈ vars) {x : Value α}
    (hx : x.flatten.length = (C v.ty).paramDim) :
    ∃ b, a.setValue C v x = .ok b ∧ b.layout = a.layout ∧ Rep C vars false (fun w => if w = v then x.flatten else f w) b := by
  obtain ⟨i, h1, s, h2, h3⟩ := h.setSlice_ok hv (x := x.flatten) hx
  refine ⟨⟨s, a.layout⟩, ?_, rfl, h3⟩
  unfold Assign.setValue
  rw [PyDict.get_ok_of h1]
  have hd : dimOf C false v.ty = (C v.ty).paramDim := rfl
  rw [hd] at h2
  simp [h2]

end

/-! ### Overwriting all blocks one after the other -/

theorem foldlM_setBlocks {ι : Type _} {dim : ι → Nat} {old new : ι → List α} {F : List α → ι → Py (List α)}
    {vs : List ι}
    (hold : ∀ v ∈ vs, (old v).length = dim v) (hnew : ∀ v ∈ vs, (new v).length = dim v)
    (hF : ∀ s as v bs, vs = as ++ v :: bs → F s v = setSlice s (total dim as) (dim v) (new v)) :
    vs.foldlM F (vs.flatMap old) = .ok (vs.flatMap new) := by
  have aux : ∀ (bs as : List ι), vs = as ++ bs →
      bs.foldlM F (as.flatMap new ++ bs.flatMap old) = .ok (as.flatMap new ++ bs.flatMap new) := by
    intro bs
    induction bs with
    | nil => intro as _; rfl
    | cons v bs ih =>
      intro as hg
      rw [List.foldlM_cons, hF _ as v bs hg]
      have hset : setSlice (as.flatMap new ++ (v :: bs).flatMap old) (total dim as) (dim v) (new v) =
          .ok (as.flatMap new ++ new v ++ bs.flatMap old) := by
        rw [List.flatMap_cons, ← List.append_assoc]
        apply setSlice_middle
        · rw [length_flatMap_blocks (dim := dim)]
          intro w hw; exact hnew w (by rw [hg]; simp [hw])
        · exact (hold v (by rw [hg]; simp)).symm
        · exact hnew v (by rw [hg]; simp)
      rw [hset, py_bind_ok]
      have := ih (as ++ [v]) (by simp [hg])
      simpa using this
  simpa using aux vs [] rfl

/-! ### Gathers -/

theorem gather_range' [Zero α] {l : List α} {i n : Nat} (h : i + n ≤ l.length) :
    gather l (List.range' i n) = slice l i n := by
  apply List.ext_getElem
  · simp [gather, slice]; omega
  · intro k h1 h2
    simp only [gather, List.length_map, List.length_range'] at h1
    simp only [gather, slice, List.getElem_map, List.getElem_range', List.getElem_take, List.getElem_drop, Nat.one_mul]
    have hk : i + k < l.length := by omega
    rw [show min (i + k) (l.length - 1) = i + k by omega, List.getD_eq_getElem?_getD, List.getElem?_eq_getElem hk]
    rfl

theorem gather_flatMap [Zero α] {ι : Type _} {l : List α} {vs : List ι} {g : ι → List Nat} :
    gather l (vs.flatMap g) = vs.flatMap fun v => gather l (g v) := by
  induction vs with
  | nil => rfl
  | cons v vs ih =>
    simp only [List.flatMap_cons, ← ih]
    simp [gather]

theorem flatMap_replicate_zero {ι : Type _} {dim : ι → Nat} {vs : List ι} {z : α} :
    List.replicate (total dim vs) z = vs.flatMap fun v => List.replicate (dim v) z := by
  induction vs with
  | nil => rfl
  | cons v vs ih => rw [total_cons, List.flatMap_cons, ← ih, List.replicate_add]

/-! ### Layout equality -/

theorem layoutEq_iff (C : Ty → VarClass α) {vars ws : List Var} {l₁ l₂ : Bool} (hv : vars.Nodup) (hw : ws.Nodup) :
    (Layout.make C vars l₁).eq (Layout.make C ws l₂) = true ↔
      l₁ = l₂ ∧ (Layout.make C vars l₁).dim = (Layout.make C ws l₂).dim ∧
      (∀ v, (Layout.make C vars l₁).indexFromVar.get? v = (Layout.make C ws l₂).indexFromVar.get? v) ∧
      (∀ t, (Layout.make C vars l₁).indexFromType.get? t = (Layout.make C ws l₂).indexFromType.get? t) ∧
      (∀ t, (Layout.make C vars l₁).countFromType.get? t = (Layout.make C ws l₂).countFromType.get? t) := by
  have hc : ∀ {us : List Var} {l : Bool}, us.Nodup → (Layout.make C us l).countFromType.keys.Nodup := by
    intro us l hu
    rw [make_eq C hu]
    simpa [PyDict.keys, Function.comp_def] using nodup_firstTypes
  unfold Layout.eq
  rw [Bool.and_eq_true, Bool.and_eq_true, Bool.and_eq_true, Bool.and_eq_true,
    PyDict.eq_iff (nodup_keys_indexFromVar C hv l₁) (nodup_keys_indexFromVar C hw l₂),
    PyDict.eq_iff (nodup_keys_indexFromType C hv l₁) (nodup_keys_indexFromType C hw l₂),
    PyDict.eq_iff (hc hv) (hc hw), decide_eq_true_eq, decide_eq_true_eq]
  simp only [make_localFlag, and_assoc]

theorem layoutEq_refl (C : Ty → VarClass α) {vars : List Var} {l : Bool} (hv : vars.Nodup) :
    (Layout.make C vars l).eq (Layout.make C vars l) = true :=
  (layoutEq_iff C hv hv).2 ⟨rfl, rfl, fun _ => rfl, fun _ => rfl, fun _ => rfl⟩

theorem layoutEq_symm (C : Ty → VarClass α) {vars ws : List Var} {l₁ l₂ : Bool} (hv : vars.Nodup) (hw : ws.Nodup)
    (h : (Layout.make C vars l₁).eq (Layout.make C ws l₂) = true) :
    (Layout.make C ws l₂).eq (Layout.make C vars l₁) = true := by
  obtain ⟨h1, h2, h3, h4, h5⟩ := (layoutEq_iff C hv hw).1 h
  exact (layoutEq_iff C hw hv).2 ⟨h1.symm, h2.symm, fun v => (h3 v).symm, fun v => (h4 v).symm, fun v => (h5 v).symm⟩

theorem layoutEq_mem (C : Ty → VarClass α) {vars ws : List Var} {l₁ l₂ : Bool} (hv : vars.Nodup) (hw : ws.Nodup)
    (h : (Layout.make C vars l₁).eq (Layout.make C ws l₂) = true) (v : Var) : v ∈ vars ↔ v ∈ ws := by
  obtain ⟨_, _, h3, _, _⟩ := (layoutEq_iff C hv hw).1 h
  have key : ∀ {us : List Var} {l : Bool}, us.Nodup → ((Layout.make C us l).indexFromVar.get? v = none ↔ v ∉ us) := by
    intro us l hu
    rw [PyDict.get?_eq_none_iff]
    have := make_getVariables C hu l
    unfold Layout.getVariables at this
    rw [this, mem_grouped]
  rw [← not_iff_not, ← key hv (l := l₁), ← key hw (l := l₂), h3]

/-- Equal layouts list the variables of positive size in the same order. -/
theorem grouped_eq_of_layoutEq (C : Ty → VarClass α) {vars ws : List Var} {l₁ l₂ : Bool} (hv : vars.Nodup)
    (hw : ws.Nodup) (h : (Layout.make C vars l₁).eq (Layout.make C ws l₂) = true)
    (hpos : ∀ v ∈ vars, 0 < dimOf C l₁ v.ty) : grouped vars = grouped ws := by
  obtain ⟨hl, _, h3, _, _⟩ := (layoutEq_iff C hv hw).1 h
  subst hl
  have hperm : (grouped vars).Perm (grouped ws) := by
    rw [List.perm_ext_iff_of_nodup (nodup_grouped hv) (nodup_grouped hw)]
    intro v; rw [mem_grouped, mem_grouped]; exact layoutEq_mem C hv hw h v
  -- both lists are sorted by the common index
  set idx : Var → Nat := fun v => ((Layout.make C vars l₁).indexFromVar.get? v).getD 0 with hidx
  have sorted : ∀ {us : List Var}, us.Nodup → (∀ v ∈ us, 0 < dimOf C l₁ v.ty) →
      (∀ v, (Layout.make C vars l₁).indexFromVar.get? v = (Layout.make C us l₁).indexFromVar.get? v) →
      (grouped us).Pairwise (fun u v => idx u < idx v) := by
    intro us hu hp he
    have aux : ∀ (bs as : List Var), grouped us = as ++ bs → bs.Pairwise (fun u v => idx u < idx v) := by
      intro bs
      induction bs with
      | nil => intro _ _; exact List.Pairwise.nil
      | cons b bs ih =>
        intro as hg
        refine List.Pairwise.cons ?_ (ih (as ++ [b]) (by simp [hg]))
        intro c hc
        obtain ⟨xs, ys, hx⟩ := List.append_of_mem hc
        have hb : idx b = total (fun v : Var => dimOf C l₁ v.ty) as := by
          simp only [hidx, he, make_index C hu l₁ hg]; rfl
        have hcg : grouped us = (as ++ b :: xs) ++ c :: ys := by simp [hg, hx]
        have hcc : idx c = total (fun v : Var => dimOf C l₁ v.ty) (as ++ b :: xs) := by
          simp only [hidx, he, make_index C hu l₁ hcg]; rfl
        have := hp b (mem_grouped.1 (by rw [hg]; simp))
        rw [hb, hcc, total_append, total_cons]
        omega
    exact aux _ [] rfl
  refine List.Perm.eq_of_pairwise (le := fun u v => idx u < idx v) ?_ (sorted hv hpos (fun _ => rfl)) (sorted hw ?_ h3) hperm
  · intro a b _ _ h1 h2; omega
  · intro v hvw; exact hpos v ((layoutEq_mem C hv hw h v).2 hvw)

/-! ### update_storage_layout -/

theorem sameSet_iff {xs ys : List Var} : Assign.sameSet xs ys = true ↔ ∀ v, v ∈ xs ↔ v ∈ ys := by
  simp only [Assign.sameSet, Bool.and_eq_true, List.all_eq_true, decide_eq_true_eq]
  constructor
  · rintro ⟨h1, h2⟩ v; exact ⟨h1 v, h2 v⟩
  · intro h; exact ⟨fun v hv => (h v).1 hv, fun v hv => (h v).2 hv⟩

section
variable {C : Ty → VarClass α} {vars ws : List Var} {loc : Bool} {f : Var → List α} {a : Assign α}

theorem Rep.shuffle (h : Rep C vars loc f a) (hw : ws.Nodup) (hs : ∀ v, v ∈ vars ↔ v ∈ ws) :
    ∃ g : Var → List Nat, Assign.shuffleIndices C a.layout (Layout.make C ws loc) = .ok ((grouped ws).flatMap g) ∧
      ∀ v ∈ ws, ∃ i, a.layout.indexFromVar.get? v = some i ∧ g v = List.range' i (dimOf C loc v.ty) := by
  refine ⟨fun v => List.range' ((a.layout.indexFromVar.get? v).getD 0) (dimOf C loc v.ty), ?_, ?_⟩
  · unfold Assign.shuffleIndices
    rw [make_getVariables C hw, make_dim C hw, flatMap_replicate_zero]
    apply foldlM_setBlocks (dim := fun v : Var => dimOf C loc v.ty)
    · intro v _; simp
    · intro v _; simp
    · intro s as v bs hg
      have hv : v ∈ vars := (hs v).2 (mem_grouped.1 (by rw [hg]; simp))
      obtain ⟨i, h1, _, _⟩ := h.index hv
      rw [PyDict.get_ok_of h1, PyDict.get_ok_of (make_index C hw loc hg)]
      simp [h1, make_localFlag]
  · intro v hv
    obtain ⟨i, h1, _, _⟩ := h.index ((hs v).2 hv)
    exact ⟨i, h1, by simp [h1]⟩

/-- `update_storage_layout` to a layout of the same variables keeps every block. -/
theorem Rep.update [Zero α] (h : Rep C vars loc f a) (hw : ws.Nodup) (hs : ∀ v, v ∈ vars ↔ v ∈ ws) :
    ∃ b, a.updateStorageLayout C (Layout.make C ws loc) = .ok b ∧
      ((a.layout.eq (Layout.make C ws loc) = true ∧ b = a) ∨
       (a.layout.eq (Layout.make C ws loc) = false ∧ Rep C ws loc f b)) := by
  unfold Assign.updateStorageLayout
  by_cases heq : a.layout.eq (Layout.make C ws loc) = true
  · exact ⟨a, by simp [heq], Or.inl ⟨heq, rfl⟩⟩
  · have heq' : a.layout.eq (Layout.make C ws loc) = false := by simpa using heq
    have hperm : vars.Perm ws := (List.perm_ext_iff_of_nodup h.nodup hw).2 hs
    have hdim : a.layout.dim = (Layout.make C ws loc).dim := by
      rw [h.layout, make_dim C h.nodup, make_dim C hw]
      exact total_perm ((grouped_perm vars).trans (hperm.trans (grouped_perm ws).symm))
    have hsame : Assign.sameSet a.layout.getVariables (Layout.make C ws loc).getVariables = true := by
      rw [sameSet_iff, h.layout, make_getVariables C h.nodup, make_getVariables C hw]
      intro v; rw [mem_grouped, mem_grouped]; exact hs v
    obtain ⟨g, hg1, hg2⟩ := h.shuffle hw hs
    have hgather : gather a.storage ((grouped ws).flatMap g) = (grouped ws).flatMap f := by
      rw [gather_flatMap, List.flatMap_def, List.flatMap_def]
      congr 1
      apply List.map_congr_left
      intro v hv
      have hv' := (hs v).2 (mem_grouped.1 hv)
      obtain ⟨i, hi, hgi⟩ := hg2 v (mem_grouped.1 hv)
      obtain ⟨j, hj, hj2, hj3⟩ := h.index hv'
      rw [hi] at hj
      injection hj with hj
      subst hj
      rw [hgi, gather_range' hj2, hj3]
    have hlen : ((grouped ws).flatMap f).length = a.storage.length := by
      rw [h.storage_length, length_flatMap_blocks (dim := fun v : Var => dimOf C loc v.ty)]
      · exact total_perm ((grouped_perm ws).trans (hperm.symm.trans (grouped_perm vars).symm))
      · intro v hv
        exact h.len v ((hs v).2 (mem_grouped.1 hv))
    refine ⟨⟨(grouped ws).flatMap f, Layout.make C ws loc⟩, ?_, Or.inr ⟨heq', hw, rfl, ?_, rfl⟩⟩
    · rw [hg1]
      simp [heq', hdim, h.flag, make_localFlag, hsame, hgather, hlen]
    · intro v hv
      exact h.len v ((hs v).2 hv)

end

/-! ### Operations on the slab of a whole variable type -/

theorem total_flatMap {ι κ : Type _} {dim : κ → Nat} {g : ι → List κ} {vs : List ι} :
    total dim (vs.flatMap g) = total (fun v => total dim (g v)) vs := by
  induction vs with
  | nil => rfl
  | cons v vs ih => rw [List.flatMap_cons, total_append, total_cons, ih]

section
variable {C : Ty → VarClass α} {vars ws : List Var} {loc : Bool} {f : Var → List α} {a : Assign α}

/-- The variables of one type, in layout order. -/
def ofType (vars : List Var) (t : Ty) : List Var := vars.filter (·.ty = t)

theorem grouped_eq (vars : List Var) : grouped vars = (firstTypes vars).flatMap (ofType vars) := rfl

theorem mem_ofType {v : Var} {t : Ty} : v ∈ ofType vars t ↔ v ∈ vars ∧ v.ty = t := by simp [ofType]

theorem total_ofType {t : Ty} : total (fun v : Var => dimOf C loc v.ty) (ofType vars t) = dimOf C loc t * (ofType vars t).length := by
  rw [total_const (d := dimOf C loc t), Nat.mul_comm]
  intro v hv; rw [(mem_ofType.1 hv).2]

theorem Rep.storage_types (h : Rep C vars loc f a) :
    a.storage = (firstTypes vars).flatMap fun t => (ofType vars t).flatMap f := by
  rw [h.storage, grouped_eq, List.flatMap_assoc]

theorem Rep.len_ofType (h : Rep C vars loc f a) {t : Ty} :
    ((ofType vars t).flatMap f).length = dimOf C loc t * (ofType vars t).length := by
  rw [length_flatMap_blocks (dim := fun v : Var => dimOf C loc v.ty), total_ofType]
  intro v hv; exact h.len v (mem_ofType.1 hv).1

theorem Rep.typeIndex (h : Rep C vars loc f a) {as bs : List Ty} {t : Ty} (hg : firstTypes vars = as ++ t :: bs) :
    a.layout.indexFromType.get t = .ok (total (fun t => dimOf C loc t * (ofType vars t).length) as) := by
  apply PyDict.get_ok_of
  rw [h.layout, make_index_type C h.nodup loc hg]
  congr 1
  change total _ (as.flatMap (ofType vars)) = _
  rw [total_flatMap]
  congr 1
  funext t
  exact total_ofType

theorem Rep.typeCount (h : Rep C vars loc f a) {t : Ty} (ht : t ∈ firstTypes vars) :
    a.layout.countFromType.get t = .ok (ofType vars t).length := by
  apply PyDict.get_ok_of
  rw [h.layout]
  exact make_count C h.nodup loc ht

theorem Rep.typeSlice (h : Rep C vars loc f a) {as bs : List Ty} {t : Ty} (hg : firstTypes vars = as ++ t :: bs) :
    slice a.storage (total (fun t => dimOf C loc t * (ofType vars t).length) as) (dimOf C loc t * (ofType vars t).length)
      = (ofType vars t).flatMap f := by
  rw [h.storage_types, hg]
  exact slice_flatMap (dim := fun t => dimOf C loc t * (ofType vars t).length) (fun w _ => h.len_ofType)

theorem Rep.typeRows (h : Rep C vars loc f a) {as bs : List Ty} {t : Ty} (hg : firstTypes vars = as ++ t :: bs) :
    reshape2 (slice a.storage (total (fun t => dimOf C loc t * (ofType vars t).length) as)
      (dimOf C loc t * (ofType vars t).length)) (ofType vars t).length (dimOf C loc t) = .ok ((ofType vars t).map f) := by
  rw [h.typeSlice hg, List.flatMap_def]
  apply reshape2_flatten
  · simp
  · intro r hr
    obtain ⟨v, hv, rfl⟩ := List.mem_map.1 hr
    rw [h.len v (mem_ofType.1 hv).1, (mem_ofType.1 hv).2]

theorem Rep.unflattenRows (h : Rep C vars false f a) {t : Ty} :
    ((ofType vars t).map f).mapM (C t).unflatten = .ok ((ofType vars t).map fun v => unravel (C t).default (f v)) := by
  rw [mapM_ok (g := unravel (C t).default), List.map_map]
  · rfl
  · intro r hr
    obtain ⟨v, hv, rfl⟩ := List.mem_map.1 hr
    apply unflatten_ok
    rw [h.len v (mem_ofType.1 hv).1, (mem_ofType.1 hv).2]; rfl

theorem Rep.stacked_ok (h : Rep C vars false f a) {t : Ty} (ht : t ∈ firstTypes vars) :
    a.getStackedValue C t = .ok ((ofType vars t).map fun v => unravel (C t).default (f v)) := by
  obtain ⟨as, bs, hg⟩ := List.append_of_mem ht
  unfold Assign.getStackedValue
  rw [h.typeIndex hg, h.typeCount ht]
  have := h.typeRows hg
  have hd : dimOf C false t = (C t).paramDim := rfl
  rw [hd] at this
  simp only [py_bind_ok, this, h.unflattenRows]

/-- Retraction acts block by block, when the two layouts list the variables of each type in the same order. -/
theorem Rep.retract_ok [Zero α] (hC : GoodClasses C) (h : Rep C vars false f a) {δ : Assign α} {d : Var → List α}
    (hδ : Rep C ws true d δ) (hord : ∀ t ∈ firstTypes vars, ofType vars t = ofType ws t) :
    ∃ b, a.manifoldRetract C δ = .ok b ∧ b.layout = a.layout ∧
      Rep C vars false (fun v => ((C v.ty).retract (unravel (C v.ty).default (f v)) (d v)).flatten) b := by
  set g : Var → List α := fun v => ((C v.ty).retract (unravel (C v.ty).default (f v)) (d v)).flatten with hgdef
  have hglen : ∀ v ∈ vars, (g v).length = dimOf C false v.ty := by
    intro v hv
    have hw : v ∈ ws := by
      have : v ∈ ofType vars v.ty := mem_ofType.2 ⟨hv, rfl⟩
      rw [hord _ (mem_firstTypes.2 ⟨v, hv, rfl⟩)] at this
      exact (mem_ofType.1 this).1
    have hval : IsValueOf (C v.ty) (unravel (C v.ty).default (f v)) := isValueOf_unravel (hC v.ty).1 (h.len v hv)
    exact isValueOf_length (hC v.ty).1 ((hC v.ty).2 _ _ hval (hδ.len v hw))
  have hrep : Rep C vars false g ⟨(grouped vars).flatMap g, a.layout⟩ := ⟨h.nodup, h.layout, hglen, rfl⟩
  refine ⟨⟨(grouped vars).flatMap g, a.layout⟩, ?_, rfl, hrep⟩
  have hfold : a.layout.getVariableTypes.foldlM (Assign.retractType C a δ) (List.replicate a.storage.length 0)
      = .ok ((grouped vars).flatMap g) := by
    rw [h.layout, make_getVariableTypes C h.nodup, h.storage_length, grouped_eq, total_flatMap, List.flatMap_assoc,
      flatMap_replicate_zero]
    apply foldlM_setBlocks (dim := fun t => dimOf C false t * (ofType vars t).length)
    · intro t _; rw [List.length_replicate, total_ofType]
    · intro t _; exact hrep.len_ofType
    · intro s as t bs hg
      have ht : t ∈ firstTypes vars := by rw [hg]; simp
      have hcw : (ofType vars t) = ofType ws t := hord t ht
      have htw : t ∈ firstTypes ws := by
        obtain ⟨v, hv, hvt⟩ := mem_firstTypes.1 ht
        have : v ∈ ofType ws t := by rw [← hcw]; exact mem_ofType.2 ⟨hv, hvt⟩
        exact mem_firstTypes.2 ⟨v, mem_ofType.1 this⟩
      obtain ⟨as', bs', hg'⟩ := List.append_of_mem htw
      have hr1 := h.typeRows hg
      have hr2 := hδ.typeRows hg'
      rw [show dimOf C false t = (C t).paramDim from rfl] at hr1
      rw [show dimOf C true t = (C t).localDim from rfl] at hr2
      unfold Assign.retractType
      rw [h.typeCount ht, h.typeIndex hg, hδ.typeIndex hg']
      simp only [py_bind_ok, hr1]
      rw [hcw, hr2, py_bind_ok, ← hcw, h.unflattenRows, py_bind_ok]
      have hz : List.flatMap Value.flatten (List.zipWith (C t).retract
          ((ofType vars t).map fun v => unravel (C t).default (f v)) ((ofType vars t).map d)) = (ofType vars t).flatMap g := by
        rw [List.zipWith_map, List.zipWith_self, List.flatMap_def, List.map_map, List.flatMap_def]
        congr 1
        apply List.map_congr_left
        intro v hv
        simp [hgdef, (mem_ofType.1 hv).2]
      rw [hz]
      rfl
  unfold Assign.manifoldRetract
  simp only [h.flag, hδ.flag, Bool.not_false, pyAssert_true, py_bind_ok, hfold]
  rfl

end

end Jaxfg
