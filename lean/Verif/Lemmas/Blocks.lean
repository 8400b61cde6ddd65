/- Lemmas about slices, chunks and vectors that are concatenations of blocks. -/
import Verif.Model.Prelude
import Mathlib.Data.List.Basic
import Mathlib.Algebra.BigOperators.Group.List.Basic

namespace Jaxfg
variable {α β ι : Type _}

theorem length_slice_le {l : List α} {i n : Nat} : (slice l i n).length ≤ n := by
  simp [slice]; omega

theorem length_slice {l : List α} {i n : Nat} (h : i + n ≤ l.length) : (slice l i n).length = n := by
  simp [slice]; omega

theorem slice_append_middle {a b c : List α} : slice (a ++ b ++ c) a.length b.length = b := by
  simp [slice]

theorem slice_append_middle' {a b c : List α} {i n : Nat} (hi : i = a.length) (hn : n = b.length) :
    slice (a ++ b ++ c) i n = b := by
  subst hi hn; exact slice_append_middle

/-- Setting a slice that is in range to a vector of the right length replaces the middle part. -/
theorem setSlice_middle {a b c v : List α} {i n : Nat} (hi : i = a.length) (hn : n = b.length) (hv : v.length = n) :
    setSlice (a ++ b ++ c) i n v = .ok (a ++ v ++ c) := by
  subst hi
  have h1 : (slice (a ++ b ++ c) a.length n).length = n := by
    rw [slice_append_middle' rfl hn, hn]
  unfold setSlice
  simp only [h1, hv, if_true]
  congr 1
  subst hn
  rw [show a.length + b.length = (a ++ b).length by simp, List.drop_left]
  simp

theorem length_chunk {c d : Nat} {l : List α} : (chunk c d l).length = c := by
  induction c generalizing l with
  | zero => rfl
  | succ c ih => simp [chunk, ih]

/-- Chunks of a concatenation of rows are the rows. -/
theorem chunk_flatten {rows : List (List α)} {d : Nat} (h : ∀ r ∈ rows, r.length = d) :
    chunk rows.length d rows.flatten = rows := by
  induction rows with
  | nil => rfl
  | cons r rows ih =>
    have hr : r.length = d := h r (by simp)
    simp only [List.length_cons, chunk, List.flatten_cons]
    rw [List.take_append_of_le_length (by omega), List.take_of_length_le (by omega)]
    rw [← hr, List.drop_left, hr, ih (fun r' hr' => h r' (by simp [hr']))]

theorem flatten_length_const {rows : List (List α)} {d : Nat} (h : ∀ r ∈ rows, r.length = d) :
    rows.flatten.length = rows.length * d := by
  induction rows with
  | nil => simp
  | cons r rows ih =>
    simp only [List.flatten_cons, List.length_append, List.length_cons]
    rw [h r (by simp), ih (fun r' hr' => h r' (by simp [hr'])), Nat.succ_mul, Nat.add_comm]

theorem reshape2_flatten {rows : List (List α)} {c d : Nat} (hc : rows.length = c) (h : ∀ r ∈ rows, r.length = d) :
    reshape2 rows.flatten c d = .ok rows := by
  subst hc
  simp [reshape2, flatten_length_const h, chunk_flatten h]

/-- Total size of a list of blocks. -/
def total (dim : ι → Nat) (vs : List ι) : Nat := (vs.map dim).sum

@[simp] theorem total_nil {dim : ι → Nat} : total dim [] = 0 := rfl
@[simp] theorem total_cons {dim : ι → Nat} {v : ι} {vs : List ι} : total dim (v :: vs) = dim v + total dim vs := rfl
@[simp] theorem total_append {dim : ι → Nat} {vs ws : List ι} :
    total dim (vs ++ ws) = total dim vs + total dim ws := by simp [total]

theorem total_perm {dim : ι → Nat} {vs ws : List ι} (h : vs.Perm ws) : total dim vs = total dim ws :=
  (h.map dim).sum_eq

theorem total_const {dim : ι → Nat} {vs : List ι} {d : Nat} (h : ∀ v ∈ vs, dim v = d) :
    total dim vs = vs.length * d := by
  induction vs with
  | nil => simp
  | cons v vs ih =>
    rw [total_cons, ih (fun w hw => h w (by simp [hw])), h v (by simp), List.length_cons, Nat.succ_mul, Nat.add_comm]

/-- A storage vector made of one block per element of `vs`. -/
theorem length_flatMap_blocks {dim : ι → Nat} {f : ι → List α} {vs : List ι} (h : ∀ v ∈ vs, (f v).length = dim v) :
    (vs.flatMap f).length = total dim vs := by
  induction vs with
  | nil => rfl
  | cons v vs ih =>
    rw [List.flatMap_cons, List.length_append, total_cons, h v (by simp), ih (fun w hw => h w (by simp [hw]))]

/-- Reading the block of `v` out of a concatenation of blocks. -/
theorem slice_flatMap {dim : ι → Nat} {f : ι → List α} {as bs : List ι} {v : ι}
    (h : ∀ w ∈ as ++ v :: bs, (f w).length = dim w) :
    slice ((as ++ v :: bs).flatMap f) (total dim as) (dim v) = f v := by
  rw [List.flatMap_append, List.flatMap_cons, ← List.append_assoc]
  apply slice_append_middle'
  · rw [length_flatMap_blocks]
    intro w hw; exact h w (by simp [hw])
  · exact (h v (by simp)).symm

/-- Any vector of the right length is a concatenation of its blocks (given as consecutive slices). -/
theorem exists_blocks [DecidableEq ι] (dim : ι → Nat) {vs : List ι} (hn : vs.Nodup) (l : List α)
    (hl : l.length = total dim vs) :
    ∃ f : ι → List α, (∀ v ∈ vs, (f v).length = dim v) ∧ l = vs.flatMap f := by
  induction vs generalizing l with
  | nil =>
    refine ⟨fun _ => [], by simp, ?_⟩
    simpa using hl
  | cons v vs ih =>
    rw [List.nodup_cons] at hn
    rw [total_cons] at hl
    obtain ⟨f, hf, hlf⟩ := ih hn.2 (l.drop (dim v)) (by simp [hl])
    refine ⟨fun w => if w = v then l.take (dim v) else f w, ?_, ?_⟩
    · intro w hw
      by_cases h : w = v
      · subst h; simp; omega
      · simp only [h, if_false]
        exact hf w (by simpa [h] using hw)
    · rw [List.flatMap_cons]
      simp only [if_true]
      have : vs.flatMap (fun w => if w = v then l.take (dim v) else f w) = vs.flatMap f := by
        rw [List.flatMap_def, List.flatMap_def]
        congr 1
        apply List.map_congr_left
        intro w hw
        have : w ≠ v := by rintro rfl; exact hn.1 hw
        simp [this]
      rw [this, ← hlf, List.take_append_drop]

/-- Updating one block. -/
theorem flatMap_update_middle [DecidableEq ι] {f : ι → List α} {as bs : List ι} {v : ι} {x : List α}
    (ha : v ∉ as) (hb : v ∉ bs) :
    (as ++ v :: bs).flatMap (fun w => if w = v then x else f w) = as.flatMap f ++ x ++ bs.flatMap f := by
  have aux : ∀ l : List ι, v ∉ l → l.flatMap (fun w => if w = v then x else f w) = l.flatMap f := by
    intro l hl
    rw [List.flatMap_def, List.flatMap_def]
    congr 1
    apply List.map_congr_left
    intro w hw
    have : w ≠ v := by rintro rfl; exact hl hw
    simp [this]
  rw [List.flatMap_append, List.flatMap_cons, aux _ ha, aux _ hb]
  simp

/-- Monadic map over a list on which the function never raises. -/
theorem mapM_ok {f : α → Py β} {g : α → β} {l : List α} (h : ∀ x ∈ l, f x = .ok (g x)) :
    l.mapM f = .ok (l.map g) := by
  induction l with
  | nil => rfl
  | cons x l ih =>
    rw [List.mapM_cons, h x (by simp), ih (fun y hy => h y (by simp [hy]))]
    rfl

theorem forall₂_of_mapM_ok {f : α → Py β} {l : List α} {r : List β} (h : l.mapM f = .ok r) :
    List.Forall₂ (fun x y => f x = .ok y) l r := by
  induction l generalizing r with
  | nil =>
    rw [List.mapM_nil] at h
    cases h
    exact .nil
  | cons x l ih =>
    rw [List.mapM_cons] at h
    cases hx : f x with
    | error e => rw [hx] at h; cases h
    | ok y =>
      cases hl : l.mapM f with
      | error e => rw [hx, hl] at h; cases h
      | ok ys =>
        rw [hx, hl] at h
        cases h
        exact .cons hx (ih hl)

/-- Monadic left fold on which the function never raises. -/
theorem foldlM_ok {σ : Type _} {f : σ → α → Py σ} {g : σ → α → σ} {l : List α} {s : σ}
    (h : ∀ s, ∀ x ∈ l, f s x = .ok (g s x)) : l.foldlM f s = .ok (l.foldl g s) := by
  induction l generalizing s with
  | nil => rfl
  | cons x l ih =>
    rw [List.foldlM_cons, h s x (by simp)]
    exact ih (fun s y hy => h s y (by simp [hy]))

@[simp] theorem pyAssert_true : pyAssert true = .ok () := rfl
@[simp] theorem pyAssert_false : pyAssert false = .error .assertion := rfl

@[simp] theorem py_bind_ok {x : α} {f : α → Py β} : (Except.ok x >>= f : Py β) = f x := rfl
@[simp] theorem py_bind_error {e : Err} {f : α → Py β} : ((Except.error e : Py α) >>= f) = .error e := rfl
@[simp] theorem py_pure {x : α} : (pure x : Py α) = .ok x := rfl
@[simp] theorem py_throw {e : Err} : (throw e : Py α) = .error e := rfl

end Jaxfg
