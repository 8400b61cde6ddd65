/- Lemmas about scatter-add and sparse products. -/
import Verif.Spec.Sparse
import Verif.Lemmas.Blocks
import Mathlib.Algebra.BigOperators.Ring.Finset
import Mathlib.Algebra.BigOperators.Group.Finset.Basic
import Mathlib.Algebra.BigOperators.Fin
import Mathlib.Data.Matrix.Mul

namespace Jaxfg
open Spec
variable {α : Type _}

theorem length_scatterAdd [Add α] {l : List α} {upd : List (Nat × α)} : (scatterAdd l upd).length = l.length := by
  unfold scatterAdd
  induction upd generalizing l with
  | nil => rfl
  | cons p upd ih => rw [List.foldl_cons, ih]; simp

theorem getElem_scatterAdd [AddCommMonoid α] {l : List α} {upd : List (Nat × α)} {i : Nat} (hi : i < l.length) :
    (scatterAdd l upd)[i]'(by rw [length_scatterAdd]; exact hi) =
      l[i] + ((upd.filter fun p => p.1 = i).map (·.2)).sum := by
  unfold scatterAdd
  induction upd generalizing l with
  | nil => simp
  | cons p upd ih =>
    simp only [List.foldl_cons]
    rw [ih (l := l.modify p.1 (· + p.2)) (by simpa using hi), List.getElem_modify]
    by_cases hp : p.1 = i
    · simp [hp, add_assoc]
    · simp [hp]

theorem vec_eq [Zero α] {l : List α} {n : Nat} (h : l.length = n) (i : Fin n) : vec l n i = l[i.1]'(by rw [h]; exact i.2) := by
  unfold vec
  rw [List.getD_eq_getElem?_getD, List.getElem?_eq_getElem (by rw [h]; exact i.2)]
  rfl

theorem ext_vec [Zero α] {l l' : List α} {n : Nat} (h : l.length = n) (h' : l'.length = n) (he : vec l n = vec l' n) : l = l' := by
  apply List.ext_getElem (by rw [h, h'])
  intro i h1 h2
  have := congrFun he ⟨i, by rw [← h]; exact h1⟩
  rwa [vec_eq h, vec_eq h'] at this

/-- The list of a vector. -/
def ofVec {n : Nat} (f : Fin n → α) : List α := List.ofFn f

theorem length_ofVec {n : Nat} (f : Fin n → α) : (ofVec f).length = n := by simp [ofVec]

theorem vec_ofVec [Zero α] {n : Nat} (f : Fin n → α) : vec (ofVec f) n = f := by
  funext i
  rw [vec_eq (length_ofVec f)]; simp [ofVec]

theorem ofVec_vec [Zero α] {n : Nat} {l : List α} (h : l.length = n) : ofVec (vec l n) = l :=
  ext_vec (length_ofVec _) h (vec_ofVec _)

/-- The update list of the product: one (row, value * x[col]) per entry. -/
theorem matmul_updates [Zero α] [Mul α] {A : Coo α} (h : CooWF A) {x : List α} (hx : x.length = A.shape.2) :
    A.rows.zip (List.zipWith (· * ·) A.values (gather x A.cols)) =
      (entries A).map fun e => (e.1, e.2.2 * x.getD e.2.1 0) := by
  obtain ⟨h1, h2, _, h4⟩ := h
  unfold entries
  apply List.ext_getElem
  · simp [gather, h1, h2]
  · intro k hk1 hk2
    simp only [List.getElem_zip, List.getElem_zipWith, List.getElem_map, gather]
    have hk : k < A.cols.length := by
      simp [gather] at hk1; omega
    have := h4 A.cols[k] (List.getElem_mem _)
    rw [show min A.cols[k] (x.length - 1) = A.cols[k] by omega]

theorem sum_filter_eq [AddCommMonoid α] {β : Type _} {n : Nat} (l : List β) (key : β → Nat) (val : β → α)
    (hl : ∀ b ∈ l, key b < n) :
    (l.map val).sum = ∑ j : Fin n, ((l.filter fun b => key b = j.val).map val).sum := by
  induction l with
  | nil => simp
  | cons b l ih =>
    rw [List.map_cons, List.sum_cons, ih (fun c hc => hl c (by simp [hc]))]
    have hb : key b < n := hl b (by simp)
    have : ∀ j : Fin n, (((b :: l).filter fun b => key b = j.val).map val).sum =
        (if (⟨key b, hb⟩ : Fin n) = j then val b else 0) + ((l.filter fun b => key b = j.val).map val).sum := by
      intro j
      by_cases hj : key b = j
      · simp [hj]
      · have : ¬ (⟨key b, hb⟩ : Fin n) = j := fun he => hj (congrArg Fin.val he)
        simp [hj, this]
    simp only [this, Finset.sum_add_distrib, Finset.sum_ite_eq, Finset.mem_univ, if_true]

theorem entries_lt [Zero α] {A : Coo α} (h : CooWF A) : ∀ e ∈ entries A, e.1 < A.shape.1 ∧ e.2.1 < A.shape.2 := by
  rintro ⟨r, c, v⟩ he
  have h1 := List.of_mem_zip he
  have h2 := List.of_mem_zip h1.2
  exact ⟨h.2.2.1 r h1.1, h.2.2.2 c h2.1⟩

/-- The product succeeds and denotes the matrix-vector product. -/
theorem matmul_ok [CommSemiring α] {A : Coo α} (h : CooWF A) {x : List α} (hx : x.length = A.shape.2) :
    ∃ y, A.matmul x = .ok y ∧ y.length = A.shape.1 ∧
      vec y A.shape.1 = (cooMatrix A A.shape.1 A.shape.2).mulVec (vec x A.shape.2) := by
  refine ⟨scatterAdd (List.replicate A.shape.1 0) ((entries A).map fun e => (e.1, e.2.2 * x.getD e.2.1 0)), ?_, ?_, ?_⟩
  · unfold Coo.matmul
    rw [matmul_updates h hx]
    obtain ⟨h1, h2, _, _⟩ := h
    simp [hx, h1, h2]
  · simp [length_scatterAdd]
  · funext i
    rw [vec_eq (by simp [length_scatterAdd]), getElem_scatterAdd (by simp)]
    simp only [List.getElem_replicate, zero_add, Matrix.mulVec, dotProduct, cooMatrix]
    rw [List.filter_map, List.map_map]
    rw [sum_filter_eq (n := A.shape.2) _ (fun e => e.2.1) _ (fun e he => (entries_lt h e (List.mem_filter.1 he).1).2)]
    apply Finset.sum_congr rfl
    intro j _
    rw [List.filter_filter, ← List.sum_map_mul_right]
    have : ((entries A).filter fun e => decide (e.2.1 = (j : Nat)) && ((fun p : Nat × α => decide (p.1 = (i : Nat))) ∘
        fun e : Nat × Nat × α => (e.1, e.2.2 * x.getD e.2.1 0)) e) =
        (entries A).filter fun e => e.1 = i.val ∧ e.2.1 = j.val := by
      apply List.filter_congr
      intro e _
      simp [Bool.and_comm]
    rw [this]
    congr 1
    apply List.map_congr_left
    intro e he
    have := (List.mem_filter.1 he).2
    simp only [decide_eq_true_eq] at this
    simp only [Function.comp, vec, this.2]

end Jaxfg
