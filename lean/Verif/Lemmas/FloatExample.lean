/- A concrete arithmetic with rounding: binary numbers with 53 digits, rounded to nearest, overflow from 2^1024 on, no underflow. -/
import Verif.Lemmas.Rounding
import Mathlib.Data.Int.Log
import Mathlib.Algebra.Order.Round

namespace Jaxfg
open Spec
open Ext (fin)

namespace FloatEx

/-- The distance between neighbouring numbers with 53 digits around `x`. -/
noncomputable def ulp (x : ℝ) : ℝ := 2 ^ (Int.log 2 |x| - 52)

/-- Rounding to 53 binary digits. -/
noncomputable def fl (x : ℝ) : ℝ := round (x / ulp x) * ulp x

open Classical in
/-- Rounding with overflow. -/
noncomputable def rnd : Ext → Ext
  | fin x => if |fl x| < 2 ^ 1024 then fin (fl x) else if 0 < x then .pinf else .ninf
  | e => e

/-- A floating point number. -/
structure Dbl where
  v : Ext

noncomputable instance : Scal Dbl where
  zero := ⟨fin 0⟩
  add a b := ⟨rnd (Ext.add a.v b.v)⟩
  sub a b := ⟨rnd (Ext.add a.v (Ext.neg b.v))⟩
  neg a := ⟨Ext.neg a.v⟩
  mul a b := ⟨rnd (Ext.mul a.v b.v)⟩
  div a b := ⟨rnd (Ext.div a.v b.v)⟩
  lit q := ⟨rnd (fin q)⟩
  sum l := l.foldr (fun a b => ⟨rnd (Ext.add a.v b.v)⟩) ⟨fin 0⟩
  sqrt a := ⟨rnd (Ext.sqrt a.v)⟩
  abs a := ⟨Ext.abs a.v⟩
  le a b := Ext.le a.v b.v
  lt a b := Ext.lt a.v b.v
  maximum a b := ⟨Ext.maximum a.v b.v⟩
  minimum a b := ⟨Ext.minimum a.v b.v⟩

/-- Its precision. -/
noncomputable def P : Precision where
  u := 1 / 2 ^ 53
  η := 0
  M := 2 ^ 1023
  pad := 1
  u_nonneg := by positivity
  η_nonneg := le_rfl
  M_nonneg := by positivity

theorem ulp_pos (x : ℝ) : 0 < ulp x := by unfold ulp; positivity

theorem ulp_le {x : ℝ} (hx : x ≠ 0) : ulp x ≤ |x| / 2 ^ 52 := by
  unfold ulp
  rw [zpow_sub₀ (by norm_num)]
  have h1 := Int.zpow_log_le_self (b := 2) (r := |x|) (by norm_num) (abs_pos.2 hx)
  push_cast at h1
  have : (2 : ℝ) ^ (52 : ℤ) = 2 ^ 52 := by norm_cast
  rw [this]
  gcongr

theorem fl_zero : fl 0 = 0 := by simp [fl]

theorem fl_err (x : ℝ) : |fl x - x| ≤ 1 / 2 ^ 53 * |x| := by
  by_cases hx : x = 0
  · subst hx; simp [fl_zero]
  have hp := ulp_pos x
  have h1 : fl x - x = (round (x / ulp x) - x / ulp x) * ulp x := by unfold fl; field_simp
  rw [h1, abs_mul, abs_of_pos hp, abs_sub_comm]
  have h2 := abs_sub_round (x / ulp x)
  have h3 := ulp_le hx
  calc |x / ulp x - round (x / ulp x)| * ulp x ≤ 1 / 2 * (|x| / 2 ^ 52) := by gcongr
    _ = 1 / 2 ^ 53 * |x| := by ring

theorem fl_nonneg {x : ℝ} (hx : 0 ≤ x) : 0 ≤ fl x := by
  unfold fl
  refine mul_nonneg ?_ (ulp_pos x).le
  rw [round_eq]
  exact_mod_cast Int.floor_nonneg.2 (by have := ulp_pos x; positivity)

theorem fl_nonpos {x : ℝ} (hx : x ≤ 0) : fl x ≤ 0 := by
  unfold fl
  refine mul_nonpos_of_nonpos_of_nonneg ?_ (ulp_pos x).le
  rw [round_eq]
  have : x / ulp x ≤ 0 := div_nonpos_of_nonpos_of_nonneg hx (ulp_pos x).le
  have h2 : ⌊x / ulp x + 1 / 2⌋ < 1 := Int.floor_lt.2 (by push_cast; linarith)
  exact_mod_cast Int.lt_add_one_iff.1 h2

theorem rnd_rounds (x : ℝ) : Rounds P x (rnd (fin x)) := by
  simp only [rnd]
  have he := fl_err x
  split_ifs with h1 h2
  · refine .inl ⟨fl x, rfl, ?_, fl_nonneg, fl_nonpos⟩
    simpa [P] using he
  · refine .inr (.inl ⟨?_, rfl⟩)
    rw [abs_of_nonneg (fl_nonneg h2.le)] at h1
    rw [abs_of_pos h2] at he
    have h3 := (abs_le.1 he).2
    have e : (2 : ℝ) ^ 1024 = 2 * 2 ^ 1023 := by rw [← pow_succ']
    have h4 : (1 : ℝ) / 2 ^ 53 * x ≤ 1 / 2 * x := by gcongr; norm_num
    have hb : (0 : ℝ) < 2 ^ 1023 := by positivity
    simp only [P]
    obtain ⟨b, hbe⟩ : ∃ b, b = (2 : ℝ) ^ 1023 := ⟨_, rfl⟩
    rw [e, ← hbe] at h1
    rw [← hbe] at hb ⊢
    clear e hbe he
    have h1 := not_lt.1 h1
    linarith only [h1, h3, h4, hb]
  · refine .inr (.inr ⟨?_, rfl⟩)
    have h2 : x ≤ 0 := not_lt.1 h2
    rw [abs_of_nonpos (fl_nonpos h2)] at h1
    rw [abs_of_nonpos h2] at he
    have h3 := (abs_le.1 he).1
    have e : (2 : ℝ) ^ 1024 = 2 * 2 ^ 1023 := by rw [← pow_succ']
    have h4 : (1 : ℝ) / 2 ^ 53 * -x ≤ 1 / 2 * -x := by
      have : 0 ≤ -x := neg_nonneg.2 h2
      gcongr; norm_num
    have hb : (0 : ℝ) < 2 ^ 1023 := by positivity
    simp only [P]
    obtain ⟨b, hbe⟩ : ∃ b, b = (2 : ℝ) ^ 1023 := ⟨_, rfl⟩
    rw [e, ← hbe] at h1
    rw [← hbe] at hb ⊢
    clear e hbe he
    have h1 := not_lt.1 h1
    linarith only [h1, h3, h4, hb]

theorem rnd_to (e : Ext) : RoundsTo P e (rnd e) := by
  cases e with
  | fin x => exact rnd_rounds x
  | _ => rfl

theorem bracketed_foldr (l : List Dbl) : Bracketed (l ++ [0]) (l.foldr (fun a b => (⟨rnd (Ext.add a.v b.v)⟩ : Dbl)) ⟨fin 0⟩) := by
  induction l with
  | nil => exact .single _
  | cons a l ih => exact .add (l₁ := [a]) (l₂ := l ++ [0]) (.refl _) (.single a) ih

/-- It is an arithmetic with rounding. -/
theorem isFloat : IsFloat P Dbl Dbl.v where
  zero := rfl
  neg _ := rfl
  add _ _ := rnd_to _
  sub _ _ := rnd_to _
  mul _ _ := rnd_to _
  div _ _ _ := rnd_to _
  sum l := ⟨1, le_rfl, .inr (bracketed_foldr l)⟩
  le _ _ := rfl
  lt _ _ := rfl

/-- Numbers with at most 53 digits are not changed. -/
theorem fl_int (m e : ℤ) (hm : |m| < 2 ^ 53) : fl (m * 2 ^ e) = m * 2 ^ e := by
  by_cases h0 : m = 0
  · simp [h0, fl_zero]
  have hx : |(m : ℝ) * 2 ^ e| = |m| * 2 ^ e := by
    rw [abs_mul, abs_of_pos (show (0 : ℝ) < 2 ^ e by positivity), Int.cast_abs]
  have hL : Int.log 2 |(m : ℝ) * 2 ^ e| < 53 + e := by
    refine (Int.lt_zpow_iff_log_lt (b := 2) (by norm_num) (by positivity)).1 ?_
    rw [hx, zpow_add₀ (by norm_num)]
    have : ((|m| : ℤ) : ℝ) < 2 ^ (53 : ℤ) := by exact_mod_cast hm
    push_cast at this ⊢
    gcongr
  obtain ⟨L, hLe⟩ : ∃ L, L = Int.log 2 |(m : ℝ) * 2 ^ e| := ⟨_, rfl⟩
  obtain ⟨n, hn⟩ : ∃ n : ℕ, (n : ℤ) = e - (L - 52) := ⟨(e - (L - 52)).toNat, by rw [Int.toNat_of_nonneg]; omega⟩
  have hq : (m : ℝ) * 2 ^ e / ulp (m * 2 ^ e) = ((m * 2 ^ n : ℤ) : ℝ) := by
    unfold ulp
    rw [← hLe, mul_div_assoc, ← zpow_sub₀ (by norm_num), ← hn]
    push_cast
    simp
  unfold fl
  rw [hq, round_intCast, ← hq, div_mul_cancel₀ _ (ulp_pos _).ne']

/-- One minus something small is rounded to one. -/
theorem fl_one_sub {t : ℝ} (h0 : 0 ≤ t) (h1 : t ≤ 1 / 2 ^ 55) : fl (1 - t) = 1 := by
  rcases h0.eq_or_lt with rfl | h0
  · simpa using fl_int 1 0 (by norm_num)
  have hx : (0 : ℝ) < 1 - t := by norm_num at h1 ⊢; linarith
  have hL : Int.log 2 |1 - t| = -1 := by
    rw [abs_of_pos hx]
    apply le_antisymm
    · have : Int.log 2 (1 - t) < 0 := (Int.lt_zpow_iff_log_lt (b := 2) (by norm_num) hx).1 (by simpa using h0)
      omega
    · refine (Int.zpow_le_iff_le_log (b := 2) (by norm_num) hx).1 ?_
      norm_num at h1 ⊢; linarith
  have hu : ulp (1 - t) = 1 / 2 ^ 53 := by
    unfold ulp; rw [hL]; norm_num
  have hr : round ((1 - t) / (1 / 2 ^ 53)) = 2 ^ 53 := by
    rw [round_eq, Int.floor_eq_iff]
    push_cast
    norm_num at h1 ⊢
    constructor <;> linarith
  unfold fl
  rw [hu, hr]
  norm_num

/-- One plus something small is rounded to one. -/
theorem fl_one_add {t : ℝ} (h0 : 0 ≤ t) (h1 : t ≤ 1 / 2 ^ 54) : fl (1 + t) = 1 := by
  have hx : (0 : ℝ) < 1 + t := by linarith
  have hL : Int.log 2 |1 + t| = 0 := by
    rw [abs_of_pos hx]
    apply le_antisymm
    · have : Int.log 2 (1 + t) < 1 := (Int.lt_zpow_iff_log_lt (b := 2) (by norm_num) hx).1 (by norm_num at h1 ⊢; linarith)
      omega
    · refine (Int.zpow_le_iff_le_log (b := 2) (by norm_num) hx).1 ?_
      norm_num; linarith
  have hu : ulp (1 + t) = 1 / 2 ^ 52 := by
    unfold ulp; rw [hL]; norm_num
  have hr : round ((1 + t) / (1 / 2 ^ 52)) = 2 ^ 52 := by
    rw [round_eq, Int.floor_eq_iff]
    push_cast
    norm_num at h1 ⊢
    constructor <;> linarith
  unfold fl
  rw [hu, hr]
  norm_num

/-- A real number as a floating point number (used for numbers with at most 53 digits). -/
def d (x : ℝ) : Dbl := ⟨fin x⟩

theorem rnd_fin {x z : ℝ} (h : fl x = z) (hz : |z| ≤ 2 ^ 100) : rnd (fin x) = fin z := by
  simp only [rnd, h]
  rw [if_pos]
  have : (2 : ℝ) ^ 100 < 2 ^ 1024 := pow_lt_pow_right₀ (by norm_num) (by norm_num)
  exact lt_of_le_of_lt hz this

theorem add_d {x y z : ℝ} (h : fl (x + y) = z) (hz : |z| ≤ 2 ^ 100) : d x + d y = d z := congrArg Dbl.mk (rnd_fin h hz)
theorem sub_d {x y z : ℝ} (h : fl (x + -y) = z) (hz : |z| ≤ 2 ^ 100) : d x - d y = d z := congrArg Dbl.mk (rnd_fin h hz)
theorem mul_d {x y z : ℝ} (h : fl (x * y) = z) (hz : |z| ≤ 2 ^ 100) : d x * d y = d z := congrArg Dbl.mk (rnd_fin h hz)
theorem div_d {x y z : ℝ} (hy : y ≠ 0) (h : fl (x / y) = z) (hz : |z| ≤ 2 ^ 100) : d x / d y = d z := by
  refine congrArg Dbl.mk ?_
  rw [show Ext.div (d x).v (d y).v = fin (x / y) by simp [d, Ext.div, hy]]
  exact rnd_fin h hz

/-- Division by zero. -/
theorem div_zero_d {x : ℝ} (hx : 0 < x) : d x / d 0 = ⟨.pinf⟩ := by
  refine congrArg Dbl.mk ?_
  simp [d, Ext.div, Ext.infMul, hx, rnd]

theorem neg_d (x : ℝ) : -d x = d (-x) := rfl
theorem zero_d : (0 : Dbl) = d 0 := rfl

/-- Exact results. -/
theorem fl_dyadic {x : ℝ} (m e : ℤ) (hm : |m| < 2 ^ 53) (hx : x = m * 2 ^ e) : fl x = x := by rw [hx]; exact fl_int m e hm

end FloatEx

end Jaxfg
