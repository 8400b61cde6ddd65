/-
Properties C15 and C33 in full: what `get_value` reads from a local object, and what `as_dense` holds when coordinates
repeat (jaxfg/core/_variable_assignments.py, jaxfg/sparse/_sparse_matrix.py).
-/
import Verif.Props.Assign
import Verif.Props.Sparse

namespace Jaxfg.Props
open Spec
variable {α : Type}

/-- **C15, what the code does.** On every local object, `get_value(v)` reads as many numbers as the class has parameters,
starting at the first number of `v`'s block: `v`'s block cut short, or followed by the beginning of what is stored after it.
It raises `ValueError` iff the vector ends before. (Missing: that these are the numbers of `v`'s block, which is false when
the two dimensions of the class differ.) -/
theorem C15_local_read_exact_partial (C : Ty → VarClass α) (hC : ∀ t, WellShaped (C t).default) (vars : List Var)
    (a : Assign α) (ha : IsAssignmentOf C vars a) (hl : a.layout.localFlag = true) (v : Var) (hv : v ∈ vars) :
    ∃ before after : List α, a.storage = before ++ block C a v ++ after ∧
      a.layout.indexFromVar.get? v = some before.length ∧ (block C a v).length = (C v.ty).localDim ∧
      ((C v.ty).paramDim ≤ (block C a v ++ after).length → ∃ x, a.getValue C v = .ok x ∧
        x.flatten = (block C a v ++ after).take (C v.ty).paramDim) ∧
      ((block C a v ++ after).length < (C v.ty).paramDim → a.getValue C v = .error .value) := by
  obtain ⟨f, hf⟩ := exists_rep ha
  obtain ⟨i, h1, h2, h3⟩ := hf.index hv
  have hd : dimOf C a.layout.localFlag v.ty = (C v.ty).localDim := by rw [hl]; rfl
  have hlen := hf.len v hv
  have hb := hf.block_eq hv
  rw [hd] at h2 h3 hlen
  have hrest : a.storage.drop i = block C a v ++ a.storage.drop (i + (C v.ty).localDim) := by
    rw [hb, ← h3, slice, ← List.drop_drop, List.take_append_drop]
  refine ⟨a.storage.take i, a.storage.drop (i + (C v.ty).localDim), ?_, ?_, by rw [hb, hlen], ?_, ?_⟩
  · rw [List.append_assoc, ← hrest, List.take_append_drop]
  · rw [h1, List.length_take, min_eq_left (by omega)]
  · intro hle
    rw [← hrest] at hle ⊢
    have hs : (slice a.storage i (C v.ty).paramDim).length = (C v.ty).paramDim := by
      rw [slice, List.length_take, min_eq_left hle]
    refine ⟨unravel (C v.ty).default (slice a.storage i (C v.ty).paramDim), ?_, flatten_unravel (hC v.ty) hs⟩
    unfold Assign.getValue
    rw [PyDict.get_ok_of h1, py_bind_ok]
    exact unflatten_ok hs
  · intro hlt
    rw [← hrest] at hlt
    unfold Assign.getValue
    rw [PyDict.get_ok_of h1, py_bind_ok, VarClass.unflatten, if_neg]
    rw [slice, List.length_take]
    omega

/-- **C15, exactly when it holds.** On a local object `get_value(v)` returns `v`'s block iff the class has as many local
parameters as parameters. -/
theorem C15_exactly_equal_dims_partial (C : Ty → VarClass α) (hC : ∀ t, WellShaped (C t).default) (vars : List Var)
    (a : Assign α) (ha : IsAssignmentOf C vars a) (hl : a.layout.localFlag = true) (v : Var) (hv : v ∈ vars) :
    (∃ x, a.getValue C v = .ok x ∧ x.flatten = block C a v) ↔ (C v.ty).localDim = (C v.ty).paramDim := by
  refine ⟨?_, C15_local_read_partial C hC vars a ha v hv⟩
  rintro ⟨x, hx, hflat⟩
  obtain ⟨before, after, _, _, h3, h4, h5⟩ := C15_local_read_exact_partial C hC vars a ha hl v hv
  rcases le_or_gt (C v.ty).paramDim (block C a v ++ after).length with hle | hlt
  · obtain ⟨y, hy, hyf⟩ := h4 hle
    rw [hx] at hy
    cases hy
    rw [← h3, ← hflat, hyf, List.length_take, min_eq_left hle]
  · rw [h5 hlt] at hx
    cases hx

/-- Non-vacuity: classes with 4 parameters and 3 local ones; the block of the first variable is followed by the second's,
the block of the second by nothing. -/
example : let δ : Assign Int := ⟨[1, 2, 3, 4, 5, 6], Layout.make exC [⟨0, 0⟩, ⟨0, 1⟩] true⟩
    IsAssignmentOf exC [⟨0, 0⟩, ⟨0, 1⟩] δ ∧ δ.layout.localFlag = true ∧ (exC 0).localDim ≠ (exC 0).paramDim ∧
      (∃ x, δ.getValue exC ⟨0, 0⟩ = .ok x ∧ x.flatten = [1, 2, 3, 4]) ∧ δ.getValue exC ⟨0, 1⟩ = .error .value :=
  ⟨⟨by decide, rfl, by decide⟩, rfl, by decide, ⟨⟨7, [⟨[4], [1, 2, 3, 4]⟩]⟩, rfl, by decide⟩, rfl⟩

/-- **C33, what the code does.** For every sparse matrix with in-range coordinates, an entry of `as_dense()` is zero if its
coordinate is not listed, and otherwise the value listed last for it; the product with every vector agrees with `A @ x` iff
at every coordinate the values listed before the last one sum to zero. (Missing: the agreement in general, which is false
when coordinates repeat.) -/
theorem C33_as_dense_exact_partial [CommRing α] (A : Coo α) (h : CooWF A) :
    ∃ D, A.asDense = .ok D ∧ D.length = A.shape.1 ∧ (∀ r ∈ D, r.length = A.shape.2) ∧
      (∀ (i : Fin A.shape.1) (j : Fin A.shape.2), mat D A.shape.1 A.shape.2 i j =
        (((A.rows.zip (A.cols.zip A.values)).filter fun e => e.1 = i.val ∧ e.2.1 = j.val).map (·.2.2)).getLastD 0) ∧
      ((∀ x : List α, x.length = A.shape.2 → ∃ y, A.matmul x = .ok y ∧
          (mat D A.shape.1 A.shape.2).mulVec (vec x A.shape.2) = vec y A.shape.1) ↔
        ∀ (i : Fin A.shape.1) (j : Fin A.shape.2),
          (((A.rows.zip (A.cols.zip A.values)).filter fun e => e.1 = i.val ∧ e.2.1 = j.val).map (·.2.2)).dropLast.sum = 0) := by
  obtain ⟨h1, h2, h3⟩ := foldl_denseSet A.shape.1 A.shape.2 (entries A)
    (List.replicate A.shape.1 (List.replicate A.shape.2 (0 : α))) (by simp)
    (by intro r hr; rw [(List.mem_replicate.1 hr).2]; simp) (entries_lt h)
  obtain ⟨D, hD⟩ : ∃ D, D = (entries A).foldl (fun acc p => acc.modify p.1 (·.set p.2.1 p.2.2))
      (List.replicate A.shape.1 (List.replicate A.shape.2 (0 : α))) := ⟨_, rfl⟩
  rw [← hD] at h1 h2 h3
  have hent : ∀ (i : Fin A.shape.1) (j : Fin A.shape.2), mat D A.shape.1 A.shape.2 i j =
      (((entries A).filter fun e => e.1 = i.val ∧ e.2.1 = j.val).map (·.2.2)).getLastD 0 := by
    intro i j
    rw [h3 i j]
    have hi : i.val < A.shape.1 := i.2
    have hj : j.val < A.shape.2 := j.2
    rw [List.getLastD_eq_getLast?, List.getLast?_map]
    cases ((entries A).filter fun e => e.1 = i.val ∧ e.2.1 = j.val).getLast? with
    | none => simp [mat, List.getD_eq_getElem?_getD, hi, hj]
    | some e => rfl
  have hsum : ∀ l : List α, l.sum = l.dropLast.sum + l.getLastD 0 := by
    intro l
    rcases List.eq_nil_or_concat l with rfl | ⟨l', x, rfl⟩
    · simp
    · simp
  refine ⟨D, ?_, h1, h2, hent, ?_⟩
  · unfold Coo.asDense
    simp [h.1, h.2.1, entries, hD]
  · have hcoo : ∀ (i : Fin A.shape.1) (j : Fin A.shape.2), cooMatrix A A.shape.1 A.shape.2 i j =
        (((entries A).filter fun e => e.1 = i.val ∧ e.2.1 = j.val).map (·.2.2)).dropLast.sum + mat D A.shape.1 A.shape.2 i j := by
      intro i j
      rw [hent i j, ← hsum]
      rfl
    constructor
    · intro hx i j
      obtain ⟨y, hy, he⟩ := hx (List.ofFn fun k => if k = j then 1 else 0) (by simp)
      obtain ⟨y', hy', _, hy3⟩ := matmul_ok h (x := List.ofFn fun k : Fin A.shape.2 => if k = j then (1 : α) else 0) (by simp)
      rw [hy] at hy'
      cases hy'
      have hv : vec (List.ofFn fun k : Fin A.shape.2 => if k = j then (1 : α) else 0) A.shape.2 = Pi.single j 1 := by
        funext k
        simp [vec, Pi.single_apply, List.getD_eq_getElem?_getD]
      rw [hy3, hv, Matrix.mulVec_single_one, Matrix.mulVec_single_one] at he
      have := congrFun he i
      simp only [Matrix.col_apply] at this
      have h4 := hcoo i j
      rw [← this] at h4
      exact (left_eq_add.1 (h4.trans (add_comm _ _)) : _ = _)
    · intro hz x hx
      obtain ⟨y, hy1, _, hy3⟩ := matmul_ok h hx
      refine ⟨y, hy1, ?_⟩
      rw [hy3]
      congr 1
      funext i j
      rw [hcoo i j]
      have := hz i j
      rw [show (((entries A).filter fun e => e.1 = i.val ∧ e.2.1 = j.val).map (·.2.2)).dropLast.sum = 0 from this, zero_add]

/-- Non-vacuity: the matrix with the repeated coordinate of the negation; the values before the last one at (1, 2) sum to 2. -/
example : CooWF exCoo ∧ exCoo.asDense = .ok [[0, 1, 0], [3, 0, 4]] ∧
    (((exCoo.rows.zip (exCoo.cols.zip exCoo.values)).filter fun e => e.1 = 1 ∧ e.2.1 = 2).map (·.2.2)).dropLast.sum = 2 :=
  ⟨by unfold CooWF; decide, by decide, by decide⟩

end Jaxfg.Props
