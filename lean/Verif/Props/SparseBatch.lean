/-
Property C123: sparse matrices with batch axes (jaxfg/sparse/_sparse_matrix.py).
-/
import Verif.Spec.SparseBatch
import Verif.Props.Sparse
import Mathlib.Data.Matrix.Basic

namespace Jaxfg.Props
open Spec
variable {α : Type}

/-- Two 2x3 matrices. -/
def exBatch : NdCoo Int :=
  { values := ⟨[2, 2], [1, 2, 3, 4]⟩, rows := ⟨[2, 2], [0, 1, 1, 1]⟩, cols := ⟨[2, 2], [1, 2, 0, 2]⟩, shape := (2, 3) }

theorem exBatch_batched : Batched exBatch [2] 2 :=
  ⟨⟨rfl, rfl⟩, ⟨rfl, rfl⟩, ⟨rfl, rfl⟩, by decide, by decide⟩

theorem bcast_self (a : Arr α) {shape : List Nat} (h : a.shape = shape) : a.bcast shape = some a := by
  subst h
  unfold Arr.bcast
  simp

/-- A list in pieces of the same length. -/
theorem flatMap_pieces {β : Type _} (N : Nat) : ∀ (k : Nat) (l : List β), l.length = k * N →
    (List.range k).flatMap (fun b => (l.drop (b * N)).take N) = l
  | 0, l, h => by
    have : l = [] := List.length_eq_zero_iff.1 (by simpa using h)
    simp [this]
  | k + 1, l, h => by
    rw [List.range_succ_eq_map, List.flatMap_cons, List.flatMap_map]
    have ih := flatMap_pieces N k (l.drop N) (by rw [List.length_drop, h, Nat.add_mul]; omega)
    have : (fun b => (l.drop ((b + 1) * N)).take N) = fun b => ((l.drop N).drop (b * N)).take N := by
      funext b
      rw [List.drop_drop, Nat.add_mul, Nat.one_mul, Nat.add_comm N]
    simp only [Nat.succ_eq_add_one, this, ih, Nat.zero_mul, List.drop_zero, List.take_append_drop]

/-- The entries of all matrices of the batch in one list. -/
theorem entries_batch {A : NdCoo α} {batch : List Nat} {N : Nat} (h : Batched A batch N) :
    entries (⟨A.values.data, A.rows.data, A.cols.data, A.shape⟩ : Coo α) = (List.range batch.prod).flatMap fun b => entries (member A N b) := by
  unfold entries member
  simp only
  rw [← flatMap_pieces N batch.prod (A.rows.data.zip (A.cols.data.zip A.values.data))
    (by rw [List.length_zip, List.length_zip, h.rows.2, h.cols.2, h.values.2]; simp)]
  refine List.flatMap_congr fun b _ => ?_
  simp only [List.zip_eq_zipWith, List.drop_zipWith, List.take_zipWith]

theorem cooMatrix_batch [AddCommMonoid α] {A : NdCoo α} {batch : List Nat} {N : Nat} (h : Batched A batch N) (m n : Nat) :
    cooMatrix (⟨A.values.data, A.rows.data, A.cols.data, A.shape⟩ : Coo α) m n = ∑ b ∈ Finset.range batch.prod, cooMatrix (member A N b) m n := by
  funext i j
  rw [Matrix.sum_apply]
  unfold cooMatrix
  rw [entries_batch h, List.filter_flatMap, List.map_flatMap]
  generalize batch.prod = k
  induction k with
  | zero => rfl
  | succ k ih => rw [List.range_succ, List.flatMap_append, List.sum_append, ih, Finset.sum_range_succ]; simp

theorem bcast_one (a : Arr α) (n k : Nat) (h : a.shape = [k]) : a.bcast [n] = if n = k then some a else none := by
  by_cases hn : n = k
  · subst hn
    rw [if_pos rfl, bcast_self a h]
  · rw [if_neg hn]
    unfold Arr.bcast
    simp [h, hn]

/-- **C123, one axis.** On arrays of one axis, whatever their lengths, this is the model of C31-C34. -/
theorem C123_one_axis [CommSemiring α] (A : Coo α) (x : List α) :
    let B : NdCoo α := ⟨⟨[A.values.length], A.values⟩, ⟨[A.rows.length], A.rows⟩, ⟨[A.cols.length], A.cols⟩, A.shape⟩
    B.matmul x = (A.matmul x).map (fun y => ⟨[A.shape.1], y⟩) ∧ B.asDense = A.asDense ∧ B.asScipy = A.asScipy := by
  refine ⟨?_, ?_, ?_⟩
  · unfold NdCoo.matmul Coo.matmul
    simp only
    by_cases hx : x.length = A.shape.2
    · simp only [hx, decide_true, pyAssert_true, py_bind_ok]
      rw [bcast_one (a := ⟨[A.values.length], A.values⟩) (h := rfl), bcast_one (h := rfl)]
      by_cases h1 : A.values.length = A.cols.length
      · rw [if_pos h1.symm]
        simp only [py_bind_ok, py_pure]
        rw [bcast_one (h := rfl)]
        by_cases h2 : A.rows.length = A.cols.length
        · simp [h1, h2]
          rfl
        · simp [h1, h2]
          rfl
      · rw [if_neg (Ne.symm h1), if_neg h1]
        simp [h1]
        rfl
    · simp [hx, pyAssert]
      rfl
  · unfold NdCoo.asDense Coo.asDense
    simp only
    by_cases h1 : A.rows.length = A.cols.length
    · rw [bcast_one (h := rfl)]
      by_cases h2 : A.values.length = A.rows.length
      · simp [h1, h2]
      · have h3 : ¬ A.rows.length = A.values.length := Ne.symm h2
        rw [h1] at h2 h3
        simp [h1, h2, h3]
    · simp [h1]
  · unfold NdCoo.asScipy
    simp

/-- **C123, negation.** With batch axes, `A @ x` never returns the batch of the products. -/
theorem C123_not_batched [CommSemiring α] (A : NdCoo α) (batch : List Nat) (N : Nat) (hb : batch ≠ []) (x : List α) (y : Arr α)
    (hy : A.matmul x = .ok y) : ¬ IsBatchOfProducts A batch N x y := by
  intro h
  have hl := congrArg List.length h.1
  have hs : y.shape.length = 1 := by
    unfold NdCoo.matmul at hy
    by_cases hx : x.length = A.shape.2
    · simp only [hx, decide_true, pyAssert_true, py_bind_ok, py_pure, py_throw] at hy
      split at hy <;> simp only [py_bind_error] at hy
      · split at hy
        · rw [← Except.ok.inj hy]; rfl
        · cases hy
      · split at hy
        · rw [← Except.ok.inj hy]; rfl
        · cases hy
      · cases hy
    · simp only [hx, decide_false, pyAssert_false, py_bind_error] at hy
      cases hy
  rw [hs, List.length_append, List.length_singleton] at hl
  exact hb (List.length_eq_zero_iff.1 (by omega))

/-- **C123, what the product is.** For every batch of matrices as documented, `A @ x` is the sum of the products of all matrices of
the batch with `x`. Without batch axes it is the product, see C31. -/
theorem C123_product_partial [CommSemiring α] (A : NdCoo α) (batch : List Nat) (N : Nat) (h : Batched A batch N) (x : List α)
    (hx : x.length = A.shape.2) : ∃ y, A.matmul x = .ok ⟨[A.shape.1], y⟩ ∧ y.length = A.shape.1 ∧
      vec y A.shape.1 = ∑ b ∈ Finset.range batch.prod, (cooMatrix (member A N b) A.shape.1 A.shape.2).mulVec (vec x A.shape.2) := by
  have hwf : CooWF (⟨A.values.data, A.rows.data, A.cols.data, A.shape⟩ : Coo α) :=
    ⟨by rw [h.rows.2, h.values.2], by rw [h.cols.2, h.values.2], h.rowsIn, h.colsIn⟩
  obtain ⟨y, h1, h2, h3⟩ := matmul_ok hwf hx
  refine ⟨y, ?_, h2, ?_⟩
  · have e1 : A.values.bcast A.cols.shape = some A.values := bcast_self _ (by rw [h.values.1, h.cols.1])
    have l1 : A.values.data.length = A.cols.data.length := by rw [h.values.2, h.cols.2]
    have l2 : A.rows.data.length = A.cols.data.length := by rw [h.rows.2, h.cols.2]
    unfold Coo.matmul at h1
    simp only [hx, decide_true, pyAssert_true, l1, l2, py_bind_ok, ne_eq, not_true_eq_false, if_false, py_pure] at h1
    unfold NdCoo.matmul
    simp only [hx, decide_true, pyAssert_true, py_bind_ok, e1, py_pure]
    rw [bcast_self (α := α) _ (show A.cols.shape = A.rows.shape by rw [h.cols.1, h.rows.1])]
    have := Except.ok.inj h1
    rw [← this]
  · rw [h3, cooMatrix_batch h]
    exact Matrix.sum_mulVec ..

/-- The sum is not the product of any of the matrices: here the products are (100, 2000) and (0, 4030). -/
example : Batched exBatch [2] 2 ∧ exBatch.matmul [10, 100, 1000] = .ok ⟨[2], [100, 6030]⟩ ∧
    (member exBatch 2 0).matmul [10, 100, 1000] = .ok [100, 2000] ∧ (member exBatch 2 1).matmul [10, 100, 1000] = .ok [0, 4030] :=
  ⟨exBatch_batched, by decide, by decide, by decide⟩

/-- **C123, shared coordinates.** A batch of values with coordinates of one axis: `A @ x` raises for every `x`. -/
theorem C123_shared_coordinates [CommSemiring α] (A : NdCoo α) (batch : List Nat) (N : Nat) (hb : batch ≠ [])
    (hv : A.values.shape = batch ++ [N]) (hr : A.rows.shape = [N]) (hc : A.cols.shape = [N]) (x : List α) (hx : x.length = A.shape.2) :
    A.matmul x = .error .value := by
  have hl : batch.length ≠ 0 := fun h => hb (List.length_eq_zero_iff.1 h)
  have none1 : ∀ {a : Arr α}, a.shape = batch ++ [N] → a.bcast [N] = none := by
    intro a ha
    unfold Arr.bcast
    rw [if_neg]
    intro h
    rw [ha] at h
    have := congrArg List.length h
    rw [List.length_drop, List.length_append, List.length_singleton] at this
    omega
  have some1 : ∀ {a : Arr α}, a.shape = [N] → ∃ d, a.bcast (batch ++ [N]) = some ⟨batch ++ [N], d⟩ := by
    intro a ha
    unfold Arr.bcast
    rw [if_pos (by rw [ha]; simp)]
    exact ⟨_, rfl⟩
  obtain ⟨d, hd⟩ := some1 (a := ⟨[N], gather x A.cols.data⟩) rfl
  unfold NdCoo.matmul
  simp only [hx, decide_true, pyAssert_true, py_bind_ok, hc, none1 hv, hv, hd, hr, py_pure]
  rw [none1 rfl]
  rfl

example : (⟨⟨[2, 2], [1, 2, 3, 4]⟩, ⟨[2], [0, 1]⟩, ⟨[2], [1, 2]⟩, (2, 3)⟩ : NdCoo Int).matmul [10, 100, 1000] = .error .value := by decide

/-- **C123, scipy.** A batch cannot be converted to scipy (so CHOLMOD cannot be used). -/
theorem C123_scipy (A : NdCoo α) (batch : List Nat) (N : Nat) (hb : batch ≠ []) (hv : A.values.shape = batch ++ [N]) : A.asScipy = .error .value := by
  unfold NdCoo.asScipy
  rw [if_neg]
  rintro ⟨h, -⟩
  rw [hv, List.length_append, List.length_singleton] at h
  exact hb (List.length_eq_zero_iff.1 (by omega))

/-- **C123, transposes.** The transpose of a batch is the batch of the transposes, and transposing twice changes nothing. -/
theorem C123_transpose (A : NdCoo α) (batch : List Nat) (N : Nat) (h : Batched A batch N) :
    A.T.T = A ∧ Batched A.T batch N ∧ ∀ b, member A.T N b = (member A N b).T :=
  ⟨rfl, ⟨h.values, h.cols, h.rows, h.colsIn, h.rowsIn⟩, fun _ => rfl⟩

/-- **C123, dense.** `as_dense()` writes all matrices of a batch into one matrix, over each other. -/
theorem C123_dense_partial [Zero α] (A : NdCoo α) (batch : List Nat) (N : Nat) (h : Batched A batch N) :
    ∃ D, A.asDense = .ok D ∧ D.length = A.shape.1 ∧ (∀ row ∈ D, row.length = A.shape.2) ∧
      ∀ (i : Fin A.shape.1) (j : Fin A.shape.2), mat D A.shape.1 A.shape.2 i j =
        match (((List.range batch.prod).flatMap fun b => entries (member A N b)).filter fun e => e.1 = i.val ∧ e.2.1 = j.val).getLast? with
        | some e => e.2.2
        | none => 0 := by
  have hin : ∀ e ∈ entries (⟨A.values.data, A.rows.data, A.cols.data, A.shape⟩ : Coo α), e.1 < A.shape.1 ∧ e.2.1 < A.shape.2 := by
    rintro ⟨r, c, v⟩ he
    have h1 := List.of_mem_zip he
    exact ⟨h.rowsIn r h1.1, h.colsIn c (List.of_mem_zip h1.2).1⟩
  have key := foldl_denseSet A.shape.1 A.shape.2 (entries (⟨A.values.data, A.rows.data, A.cols.data, A.shape⟩ : Coo α))
    (List.replicate A.shape.1 (List.replicate A.shape.2 0)) (by simp) (by simp) hin
  obtain ⟨h1, h2, h3⟩ := key
  refine ⟨_, ?_, h1, h2, fun i j => ?_⟩
  · unfold NdCoo.asDense
    rw [bcast_self _ (show A.values.shape = A.rows.shape by rw [h.values.1, h.rows.1])]
    simp only [h.rows.1, h.cols.1, ne_eq, not_true_eq_false, if_false, py_bind_ok, py_pure]
    rfl
  · rw [h3 i j, entries_batch h]
    have h0 : mat (List.replicate A.shape.1 (List.replicate A.shape.2 (0 : α))) A.shape.1 A.shape.2 i j = 0 := by
      simp [mat, List.getD_eq_getElem?_getD]
    rw [h0]
    cases (List.filter (fun e => decide (e.1 = i.val ∧ e.2.1 = j.val)) ((List.range batch.prod).flatMap fun b => entries (member A N b))).getLast? <;> rfl

example : exBatch.asDense = .ok [[0, 1, 0], [3, 0, 4]] := by decide

end Jaxfg.Props
