/-
Properties C31-C34: sparse matrices (jaxfg/sparse/_sparse_matrix.py).
-/
import Verif.Lemmas.Sparse

namespace Jaxfg.Props
open Spec
variable {α : Type}

/-- A 2x3 matrix with a repeated coordinate: the entry at (1, 2) is listed twice. -/
def exCoo : Coo Int := { values := [1, 2, 3, 4], rows := [0, 1, 1, 1], cols := [1, 2, 0, 2], shape := (2, 3) }

/-- **C31.** For every sparse matrix with in-range coordinates (repeated coordinates allowed) and every vector of matching
length, `A @ x` succeeds and is the product of the matrix denoted by `A` (values at one coordinate add up) with `x`. -/
theorem C31_matmul [CommSemiring α] (A : Coo α) (h : CooWF A) (x : List α) (hx : x.length = A.shape.2) :
    ∃ y, A.matmul x = .ok y ∧ y.length = A.shape.1 ∧
      vec y A.shape.1 = (cooMatrix A A.shape.1 A.shape.2).mulVec (vec x A.shape.2) := matmul_ok h hx

/-- Vectors of any other length are rejected. -/
theorem C31_wrong_length_raises [CommSemiring α] (A : Coo α) (x : List α) (hx : x.length ≠ A.shape.2) :
    A.matmul x = .error .assertion := by simp [Coo.matmul, hx]

example : CooWF exCoo ∧ exCoo.matmul [10, 100, 1000] = .ok [100, 6030] ∧ cooMatrix exCoo 2 3 1 2 = 6 := by
  refine ⟨?_, by decide, by decide⟩
  unfold CooWF; decide

theorem cooWF_T {A : Coo α} (h : CooWF A) : CooWF A.T := ⟨h.2.1, h.1, h.2.2.2, h.2.2.1⟩

theorem entries_T {A : Coo α} : entries A.T = (entries A).map fun e => (e.2.1, e.1, e.2.2) := by
  unfold entries Coo.T
  apply List.ext_getElem
  · simp; omega
  · intro k h1 h2; simp

theorem cooMatrix_T [AddCommMonoid α] {A : Coo α} {m n : Nat} : cooMatrix A.T n m = (cooMatrix A m n).transpose := by
  funext j i
  simp only [cooMatrix, entries_T, Matrix.transpose_apply, List.filter_map, List.map_map]
  have : ((fun e : Nat × Nat × α => decide (e.1 = j.val ∧ e.2.1 = i.val)) ∘ fun e : Nat × Nat × α => (e.2.1, e.1, e.2.2)) =
      fun e => decide (e.1 = i.val ∧ e.2.1 = j.val) := by
    funext e; simp [Bool.and_comm]
  rw [this]
  rfl

/-- **C32.** `A.T.T == A`; `A.T` denotes the transposed matrix; and for all vectors `(A.T @ y) · x = y · (A @ x)`. -/
theorem C32_transpose [CommSemiring α] (A : Coo α) (h : CooWF A) :
    A.T.T = A ∧ cooMatrix A.T A.shape.2 A.shape.1 = (cooMatrix A A.shape.1 A.shape.2).transpose ∧
    ∀ x y : List α, x.length = A.shape.2 → y.length = A.shape.1 → ∃ u v, A.matmul x = .ok u ∧ A.T.matmul y = .ok v ∧
      vec v A.shape.2 ⬝ᵥ vec x A.shape.2 = vec y A.shape.1 ⬝ᵥ vec u A.shape.1 := by
  refine ⟨rfl, cooMatrix_T, ?_⟩
  intro x y hx hy
  obtain ⟨u, hu, _, hu2⟩ := matmul_ok h hx
  obtain ⟨v, hv, _, hv2⟩ := matmul_ok (cooWF_T h) (x := y) hy
  refine ⟨u, v, hu, hv, ?_⟩
  have hv3 : vec v A.shape.2 = (cooMatrix A.T A.shape.2 A.shape.1).mulVec (vec y A.shape.1) := hv2
  rw [hv3, hu2, cooMatrix_T, Matrix.mulVec_transpose, Matrix.dotProduct_mulVec]

/-! ### C33 -/

/-- **C33, negation.** With a repeated coordinate, `as_dense()` keeps one of the values instead of their sum, so its
product with a vector differs from `A @ x`. -/
theorem C33_as_dense_overwrites :
    ∃ (A : Coo Int) (D : List (List Int)) (x y : List Int), CooWF A ∧ A.asDense = .ok D ∧ A.matmul x = .ok y ∧
      (mat D 2 3).mulVec (vec x 3) ≠ vec y 2 := by
  refine ⟨exCoo, [[0, 1, 0], [3, 0, 4]], [0, 0, 1], [0, 6], by unfold CooWF; decide, by decide, by decide, ?_⟩
  intro h
  have := congrFun h 1
  revert this
  decide

theorem foldl_denseSet [Zero α] (m n : Nat) (es : List (Nat × Nat × α)) (D : List (List α)) (hD : D.length = m)
    (hrow : ∀ r ∈ D, r.length = n) (hes : ∀ e ∈ es, e.1 < m ∧ e.2.1 < n) :
    let D' := es.foldl (fun acc p => acc.modify p.1 (·.set p.2.1 p.2.2)) D
    D'.length = m ∧ (∀ r ∈ D', r.length = n) ∧ ∀ (i : Fin m) (j : Fin n), mat D' m n i j =
      match (es.filter fun e => e.1 = i.val ∧ e.2.1 = j.val).getLast? with
      | some e => e.2.2
      | none => mat D m n i j := by
  induction es generalizing D with
  | nil => exact ⟨hD, hrow, fun _ _ => rfl⟩
  | cons e es ih =>
    have he := hes e (by simp)
    set D1 := D.modify e.1 (·.set e.2.1 e.2.2) with hD1
    have hl : D1.length = m := by simp [hD1, hD]
    have hr : ∀ r ∈ D1, r.length = n := by
      intro r hr
      obtain ⟨k, hk, rfl⟩ := List.getElem_of_mem hr
      have hk' : k < D.length := by simpa [hD1] using hk
      simp only [hD1, List.getElem_modify]
      split
      · rw [List.length_set]; exact hrow _ (List.getElem_mem _)
      · exact hrow _ (List.getElem_mem _)
    obtain ⟨h1, h2, h3⟩ := ih D1 hl hr (fun e' he' => hes e' (by simp [he']))
    refine ⟨h1, h2, ?_⟩
    intro i j
    simp only [List.foldl_cons]
    rw [h3 i j]
    have hmat : mat D1 m n i j = if e.1 = i.val ∧ e.2.1 = j.val then e.2.2 else mat D m n i j := by
      have hiD : i.val < D.length := by rw [hD]; exact i.2
      have hjr : j.val < (D[i.val]).length := by rw [hrow _ (List.getElem_mem _)]; exact j.2
      simp only [mat, hD1, List.getD_eq_getElem?_getD, List.getElem?_modify, List.getElem?_eq_getElem hiD,
        Option.getD_some]
      by_cases hi : e.1 = i.val
      · simp only [hi, if_true, true_and]
        by_cases hj : e.2.1 = j.val
        · simp [hj, hjr]
        · simp [hj]
      · simp [hi]
    by_cases hm : e.1 = i.val ∧ e.2.1 = j.val
    · rw [List.filter_cons_of_pos (by simpa using hm)]
      rw [hmat, if_pos hm, List.getLast?_cons]
      cases (es.filter fun e => decide (e.1 = i.val ∧ e.2.1 = j.val)).getLast? <;> rfl
    · rw [List.filter_cons_of_neg (by simpa using hm), hmat, if_neg hm]

/-- **C33, what does hold.** When no coordinate is repeated, `as_dense()` is the matrix denoted by `A`, so its product with
any vector is `A @ x`. (Missing: repeated coordinates, for which it is false.) -/
theorem C33_as_dense_partial [CommSemiring α] (A : Coo α) (h : CooWF A) (hnd : (A.rows.zip A.cols).Nodup) :
    ∃ D, A.asDense = .ok D ∧ D.length = A.shape.1 ∧ (∀ r ∈ D, r.length = A.shape.2) ∧
      mat D A.shape.1 A.shape.2 = cooMatrix A A.shape.1 A.shape.2 ∧
      ∀ x : List α, x.length = A.shape.2 → ∃ y, A.matmul x = .ok y ∧
        (mat D A.shape.1 A.shape.2).mulVec (vec x A.shape.2) = vec y A.shape.1 := by
  obtain ⟨h1, h2, h3⟩ := foldl_denseSet A.shape.1 A.shape.2 (entries A)
    (List.replicate A.shape.1 (List.replicate A.shape.2 (0 : α))) (by simp)
    (by intro r hr; rw [(List.mem_replicate.1 hr).2]; simp) (entries_lt h)
  have hmat : mat ((entries A).foldl (fun acc p => acc.modify p.1 (·.set p.2.1 p.2.2))
      (List.replicate A.shape.1 (List.replicate A.shape.2 (0 : α)))) A.shape.1 A.shape.2 =
      cooMatrix A A.shape.1 A.shape.2 := by
    funext i j
    rw [h3 i j]
    unfold cooMatrix
    -- at most one entry per coordinate
    have hcoord : ((entries A).map fun e => (e.1, e.2.1)).Nodup := by
      have : ((entries A).map fun e => (e.1, e.2.1)) = A.rows.zip A.cols := by
        unfold entries
        apply List.ext_getElem
        · simp [h.1, h.2.1]
        · intro k _ _; simp
      rw [this]; exact hnd
    have hfil : (((entries A).filter fun e => e.1 = i.val ∧ e.2.1 = j.val).map fun e => (e.1, e.2.1)).Nodup :=
      hcoord.sublist (List.filter_sublist.map _)
    have hall : ∀ e ∈ (entries A).filter fun e => e.1 = i.val ∧ e.2.1 = j.val, (e.1, e.2.1) = (i.val, j.val) := by
      intro e he
      have := (List.mem_filter.1 he).2
      simp only [decide_eq_true_eq] at this
      rw [this.1, this.2]
    generalize ((entries A).filter fun e => e.1 = i.val ∧ e.2.1 = j.val) = l at hfil hall
    rcases l with _ | ⟨e, _ | ⟨e', l⟩⟩
    · have hi : i.val < A.shape.1 := i.2
      have hj : j.val < A.shape.2 := j.2
      simp [mat, List.getD_eq_getElem?_getD, hi, hj]
    · simp
    · have he := hall e (by simp)
      have he' := hall e' (by simp)
      simp only [List.map_cons, List.nodup_cons] at hfil
      rw [he, he'] at hfil
      simp at hfil
  refine ⟨_, ?_, h1, h2, hmat, ?_⟩
  · unfold Coo.asDense
    simp [h.1, h.2.1, entries]
  · intro x hx
    obtain ⟨y, hy1, _, hy3⟩ := matmul_ok h hx
    exact ⟨y, hy1, by rw [hmat, hy3]⟩

example : let A : Coo Int := { values := [1, 2, 3], rows := [0, 1, 1], cols := [1, 2, 0], shape := (2, 3) }
    CooWF A ∧ (A.rows.zip A.cols).Nodup ∧ A.asDense = .ok [[0, 1, 0], [3, 0, 2]] :=
  ⟨by unfold CooWF; decide, by decide, by decide⟩

/-! ### C34 -/

/-- The matrix a `scipy.sparse.coo_matrix` denotes (scipy documentation: duplicate entries are summed). -/
def scipyMatrix [AddCommMonoid α] (m : ScipyCoo α) : Matrix (Fin m.shape.1) (Fin m.shape.2) α :=
  fun i j => (((m.row.zip (m.col.zip m.data)).filter fun e => e.1 = i.val ∧ e.2.1 = j.val).map (·.2.2)).sum

/-- **C34.** For every sparse matrix with in-range coordinates, conversion to scipy succeeds, denotes the same matrix and
converts back to an equal object; a matrix with an out-of-range coordinate or arrays of different lengths is rejected;
and converting any scipy matrix keeps the denoted matrix. -/
theorem C34_scipy [AddCommMonoid α] :
    (∀ A : Coo α, CooWF A → ∃ m, A.asScipy = .ok m ∧ Coo.fromScipy m = A ∧ m.shape = A.shape ∧
      ∀ (i : Fin m.shape.1) (j : Fin m.shape.2), scipyMatrix m i j = cooMatrix A m.shape.1 m.shape.2 i j) ∧
    (∀ A : Coo α, ¬ CooWF A → A.asScipy = .error .value) ∧
    (∀ m : ScipyCoo α, cooMatrix (Coo.fromScipy m) m.shape.1 m.shape.2 = scipyMatrix m) := by
  refine ⟨?_, ?_, fun _ => rfl⟩
  · intro A ⟨h1, h2, h3, h4⟩
    refine ⟨⟨A.values, A.rows, A.cols, A.shape⟩, ?_, rfl, rfl, fun _ _ => rfl⟩
    unfold Coo.asScipy
    rw [if_pos]
    refine ⟨by omega, by omega, by simpa using h3, by simpa using h4⟩
  · intro A hA
    unfold Coo.asScipy
    rw [if_neg]
    rintro ⟨h1, h2, h3, h4⟩
    exact hA ⟨by omega, by omega, by simpa using h3, by simpa using h4⟩

end Jaxfg.Props
