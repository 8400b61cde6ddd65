/- Arrays with a dtype. -/
import Verif.Spec.Dtype
import Verif.Lemmas.Lift
import Verif.Lemmas.Assign
import Mathlib.Data.Sign.Basic
import Mathlib.Algebra.Order.Floor.Ring

namespace Jaxfg
open Spec

theorem trunc_eq (x : ℝ) : (trunc x : ℝ) = towardsZero x := by
  unfold trunc towardsZero
  rcases lt_trichotomy x 0 with h | h | h
  · rw [if_neg (not_le.2 h), sign_neg h, abs_of_neg h, Int.floor_neg]; push_cast; simp
  · subst h; simp
  · rw [if_pos h.le, sign_pos h, abs_of_pos h]; simp

theorem trunc_int (n : ℤ) : trunc (n : ℝ) = n := by
  unfold trunc; split <;> simp

theorem towardsZero_int (n : ℤ) : towardsZero (n : ℝ) = n := by rw [← trunc_eq, trunc_int]

theorem towardsZero_small {x : ℝ} (h : |x| < 1) : towardsZero x = 0 := by
  unfold towardsZero
  rw [Int.floor_eq_zero_iff.2 ⟨abs_nonneg x, h⟩]; simp

namespace Flat

theorem numbers_concat : ∀ ps : List Flat, (concat ps).numbers = ps.flatMap numbers
  | [] => rfl
  | int l :: ps => by
    have ih := numbers_concat ps
    rw [List.flatMap_cons, ← ih]
    simp only [concat]
    cases concat ps with
    | int r => simp [numbers]
    | float r => simp [numbers]
  | float l :: ps => by
    rw [List.flatMap_cons, ← numbers_concat ps]; rfl

theorem isInt_concat : ∀ ps : List Flat, (concat ps).isInt = true ↔ ∀ p ∈ ps, p.isInt = true
  | [] => by simp [concat, isInt]
  | int l :: ps => by
    have ih := isInt_concat ps
    simp only [concat]
    cases hc : concat ps with
    | int r => rw [hc] at ih; simpa [isInt] using ih
    | float r => rw [hc] at ih; simpa [isInt] using ih
  | float l :: ps => by simp [concat, isInt]

theorem length_numbers (x : Flat) : x.numbers.length = x.length := by
  cases x <;> simp [numbers, length]

/-- Writing into a slice, on the numbers: integer arrays round what is written. -/
theorem numbers_setSlice (x : Flat) (i n : Nat) (v : Flat) :
    (x.setSlice i n v).map numbers =
      Jaxfg.setSlice x.numbers i n (if x.isInt then v.numbers.map towardsZero else v.numbers) := by
  cases x with
  | float l =>
    simp only [setSlice, isInt, Bool.false_eq_true, if_false]
    show _ = Jaxfg.setSlice l i n v.numbers
    cases Jaxfg.setSlice l i n v.numbers <;> rfl
  | int l =>
    have e : v.numbers.map towardsZero = v.toInt.map fun n : ℤ => (n : ℝ) := by
      cases v with
      | int m => simp [numbers, toInt, towardsZero_int]
      | float m => simp [numbers, toInt, trunc_eq]
    simp only [setSlice, isInt, if_true]
    rw [e]
    show _ = Jaxfg.setSlice (l.map fun n : ℤ => (n : ℝ)) i n _
    rw [setSlice_map]
    cases Jaxfg.setSlice l i n v.toInt <;> rfl

theorem isInt_setSlice {x y : Flat} {i n : Nat} {v : Flat} (h : x.setSlice i n v = .ok y) : y.isInt = x.isInt := by
  cases x with
  | float l =>
    simp only [setSlice] at h
    cases hs : Jaxfg.setSlice l i n v.numbers with
    | error e => rw [hs] at h; cases h
    | ok r => rw [hs] at h; cases h; rfl
  | int l =>
    simp only [setSlice] at h
    cases hs : Jaxfg.setSlice l i n v.toInt with
    | error e => rw [hs] at h; cases h
    | ok r => rw [hs] at h; cases h; rfl

theorem numbers_zerosLike (x : Flat) : x.zerosLike.numbers = List.replicate x.numbers.length 0 := by
  cases x <;> simp [zerosLike, numbers]

theorem isInt_zerosLike (x : Flat) : x.zerosLike.isInt = x.isInt := by cases x <;> rfl

theorem numbers_gather (x : Flat) (idx : List Nat) : (x.gather idx).numbers = Jaxfg.gather x.numbers idx := by
  cases x with
  | float l => rfl
  | int l => simp only [gather, numbers]; rw [gather_map (by simp)]

theorem isInt_gather (x : Flat) (idx : List Nat) : (x.gather idx).isInt = x.isInt := by cases x <;> rfl

end Flat

theorem numbers_flatten (x : DValue) : x.flatten.numbers = x.numbers.flatten := by
  unfold DValue.flatten Value.flatten DValue.numbers
  split
  · next h => rw [List.isEmpty_iff.1 h]; rfl
  · rw [Flat.numbers_concat]; simp [List.flatMap_map]

theorem isInt_flatten (x : DValue) : x.flatten.isInt = true ↔ IntegerArrays x := by
  unfold DValue.flatten IntegerArrays
  split
  · next h => simp [List.isEmpty_iff.1 h, Flat.isInt]
  · next h =>
    have : x.leaves ≠ [] := fun e => h (by rw [e]; rfl)
    rw [Flat.isInt_concat]; simp [this]

theorem kept_flatten (b : Bool) (x : Value ℝ) : (kept b x).flatten = if b then x.flatten.map towardsZero else x.flatten := by
  unfold kept; split
  · rw [flatten_value_map]
  · rfl

theorem isValueOf_kept {c : VarClass ℝ} {x : Value ℝ} (b : Bool) (h : IsValueOf c x) : IsValueOf c (kept b x) := by
  unfold kept; split
  · obtain ⟨h1, h2, h3⟩ := h
    refine ⟨h1, ?_, ?_⟩
    · rw [← h2]; simp [Value.map, Arr.map]
    · intro a ha
      simp only [Value.map, List.mem_map] at ha
      obtain ⟨a', ha', rfl⟩ := ha
      simpa [Arr.map] using h3 a' ha'
  · exact h

theorem map_trunc (x : Value ℝ) : (x.map fun y => (trunc y : ℝ)) = x.map towardsZero := by
  congr 1; funext y; exact trunc_eq y

/-- Retraction of one type, on the numbers. -/
theorem numbers_retractType (C : Ty → VarClass ℝ) (a : DAssign) (δ : Assign ℝ) (new : Flat) (t : Ty) :
    (DAssign.retractType C a δ new t).map Flat.numbers =
      Assign.retractType (if new.isInt then truncating C else C) a.numbers δ new.numbers t := by
  unfold DAssign.retractType Assign.retractType
  have hp : ((if new.isInt then truncating C else C) t).paramDim = (C t).paramDim := by split <;> rfl
  have hl : ((if new.isInt then truncating C else C) t).localDim = (C t).localDim := by split <;> rfl
  have hu : ((if new.isInt then truncating C else C) t).unflatten = (C t).unflatten := by split <;> rfl
  simp only [hp, hl, hu, DAssign.numbers]
  cases a.layout.countFromType.get t with
  | error e => rfl
  | ok count =>
  cases a.layout.indexFromType.get t with
  | error e => rfl
  | ok i =>
  cases δ.layout.indexFromType.get t with
  | error e => rfl
  | ok li =>
  simp only [py_bind_ok]
  cases reshape2 (slice a.storage.numbers i ((C t).paramDim * count)) count (C t).paramDim with
  | error e => rfl
  | ok vals =>
  simp only [py_bind_ok]
  cases reshape2 (slice δ.storage li ((C t).localDim * count)) count (C t).localDim with
  | error e => rfl
  | ok ds =>
  simp only [py_bind_ok]
  cases vals.mapM (C t).unflatten with
  | error e => rfl
  | ok xs =>
  simp only [py_bind_ok]
  rw [Flat.numbers_setSlice]
  congr 1
  cases new.isInt with
  | false => rfl
  | true =>
    simp only [if_true, Flat.numbers, truncating, map_trunc]
    generalize (C t).retract = r
    clear hp hl hu
    induction xs generalizing ds with
    | nil => rfl
    | cons x xs ih =>
      cases ds with
      | nil => rfl
      | cons d ds =>
        simp only [List.zipWith_cons_cons, List.flatMap_cons, List.map_append, flatten_value_map]
        rw [ih]

theorem isInt_retractType {C : Ty → VarClass ℝ} {a : DAssign} {δ : Assign ℝ} {new new' : Flat} {t : Ty}
    (h : DAssign.retractType C a δ new t = .ok new') : new'.isInt = new.isInt := by
  unfold DAssign.retractType at h
  simp only [bind, Except.bind] at h
  repeat' split at h
  all_goals first
    | exact Flat.isInt_setSlice h
    | cases h

theorem numbers_retractTypes (C : Ty → VarClass ℝ) (a : DAssign) (δ : Assign ℝ) : ∀ (ts : List Ty) (new : Flat),
    (ts.foldlM (DAssign.retractType C a δ) new).map Flat.numbers =
      ts.foldlM (Assign.retractType (if new.isInt then truncating C else C) a.numbers δ) new.numbers ∧
    ∀ new', ts.foldlM (DAssign.retractType C a δ) new = .ok new' → new'.isInt = new.isInt
  | [], new => ⟨rfl, by rintro _ ⟨⟩; rfl⟩
  | t :: ts, new => by
    have h := numbers_retractType C a δ new t
    rw [List.foldlM_cons, List.foldlM_cons]
    cases hr : DAssign.retractType C a δ new t with
    | error e => rw [hr] at h; rw [← h]; exact ⟨rfl, by rintro _ ⟨⟩⟩
    | ok n1 =>
      rw [hr] at h
      have hi := isInt_retractType hr
      obtain ⟨i1, i2⟩ := numbers_retractTypes C a δ ts n1
      rw [hi] at i1 i2
      rw [← h]
      exact ⟨i1, i2⟩

end Jaxfg
