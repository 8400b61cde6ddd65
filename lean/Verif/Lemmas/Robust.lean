/- Linear problems with Huber wrappers: the loss that Gauss-Newton decreases. -/
import Verif.Lemmas.Huber
import Verif.Lemmas.Accuracy
import Verif.Spec.Robust
import Verif.Spec.LinearRate

namespace Jaxfg
open Spec
open Matrix hiding vec

/-! ### The loss with exponent 5/4 -/

/-- Above the threshold, in terms of the fourth root of the ratio of residual and threshold. -/
theorem outer_root {δ n : ℝ} (hδ : 0 < δ) (h : δ ≤ n) : ∃ p : ℝ, 1 ≤ p ∧ n = δ * p ^ 4 ∧ slope δ n * p ^ 3 = 1 ∧
    huberWeight δ n * p ^ 2 = 1 ∧ fiveFourthsLoss δ n = δ ^ 2 * ((8 * p ^ 5 - 3) / 5) := by
  have hn : 0 < n := hδ.trans_le h
  have h1 : 1 ≤ n / δ := (one_le_div hδ).2 h
  have h0 : 0 < n / δ := by positivity
  obtain ⟨p, hp⟩ : ∃ p, p = (n / δ) ^ (1 / 4 : ℝ) := ⟨_, rfl⟩
  have hp1 : 1 ≤ p := by rw [hp]; exact Real.one_le_rpow h1 (by norm_num)
  have hpow : ∀ k : ℕ, p ^ k = (n / δ) ^ ((k : ℝ) / 4) := by
    intro k
    rw [hp, ← Real.rpow_natCast, ← Real.rpow_mul h0.le]
    congr 1; ring
  have h4 : n = δ * p ^ 4 := by
    rw [hpow]; norm_num; field_simp
  refine ⟨p, hp1, h4, ?_, ?_, ?_⟩
  · rw [slope, if_neg (not_lt.2 h), hpow, show (((3 : ℕ) : ℝ) / 4) = 3 / 4 by norm_num,
      ← Real.mul_rpow (by positivity) h0.le, show δ / n * (n / δ) = 1 by field_simp, Real.one_rpow]
  · rw [huberWeight, if_neg (not_lt.2 h), hpow, Real.sqrt_eq_rpow]
    rw [show (((2 : ℕ) : ℝ) / 4) = 1 / 2 by norm_num, ← Real.mul_rpow (by positivity) h0.le,
      show δ / n * (n / δ) = 1 by field_simp, Real.one_rpow]
  · rw [fiveFourthsLoss, if_neg (not_lt.2 h)]
    have e : δ ^ (3 / 4 : ℝ) * n ^ (5 / 4 : ℝ) = δ ^ 2 * p ^ 5 := by
      have : n = δ * (n / δ) := by field_simp
      conv_lhs => rw [this]
      rw [hpow, Real.mul_rpow hδ.le h0.le, ← mul_assoc, ← Real.rpow_add hδ]
      norm_num
    rw [mul_assoc, e]; ring

/-- The loss is below the parabola through the current residual that has the slope of the loss there. -/
theorem loss_major {δ s t : ℝ} (hδ : 0 < δ) (ht : 0 ≤ t) :
    fiveFourthsLoss δ t ≤ fiveFourthsLoss δ s + slope δ s * (t ^ 2 - s ^ 2) := by
  have inner : ∀ x, x < δ → fiveFourthsLoss δ x = x ^ 2 ∧ slope δ x = 1 := fun x h => ⟨if_pos h, if_pos h⟩
  rcases lt_or_ge s δ with h1 | h1 <;> rcases lt_or_ge t δ with h2 | h2
  · rw [(inner s h1).1, (inner s h1).2, (inner t h2).1]; linarith
  · obtain ⟨q, q1, q2, -, -, q3⟩ := outer_root hδ h2
    rw [(inner s h1).1, (inner s h1).2, q3]
    have : 0 ≤ 5 * q ^ 8 - 8 * q ^ 5 + 3 := by
      have e : 5 * q ^ 8 - 8 * q ^ 5 + 3 =
        (q - 1) ^ 2 * (5 * q ^ 6 + 10 * q ^ 5 + 15 * q ^ 4 + 12 * q ^ 3 + 9 * q ^ 2 + 6 * q + 3) := by ring
      rw [e]; positivity
    have h3 : t ^ 2 = δ ^ 2 * q ^ 8 := by rw [q2]; ring
    nlinarith [sq_nonneg δ]
  · obtain ⟨p, p1, p2, p3, -, p4⟩ := outer_root hδ h1
    rw [(inner t h2).1, p4]
    obtain ⟨w, hw⟩ : ∃ w, w = slope δ s := ⟨_, rfl⟩
    rw [← hw] at p3 ⊢
    have hp3 : 1 ≤ p ^ 3 := one_le_pow₀ p1
    have hw0 : 0 < w := by
      by_contra hn
      nlinarith [mul_nonpos_of_nonpos_of_nonneg (not_lt.1 hn) (by linarith : 0 ≤ p ^ 3)]
    have hw1 : w ≤ 1 := by nlinarith
    have ht2 : t ^ 2 ≤ δ ^ 2 := pow_le_pow_left₀ ht h2.le 2
    have h3 : w * s ^ 2 = δ ^ 2 * p ^ 5 := by
      rw [p2]; linear_combination δ ^ 2 * p ^ 5 * p3
    have h4 : 1 - w ≤ (3 * p ^ 5 - 3) / 5 := by
      have e : 0 ≤ 3 * p ^ 8 - 8 * p ^ 3 + 5 := by
        have : 3 * p ^ 8 - 8 * p ^ 3 + 5 = (p - 1) ^ 2 * (3 * p ^ 6 + 6 * p ^ 5 + 9 * p ^ 4 + 12 * p ^ 3 + 15 * p ^ 2 + 10 * p + 5) := by ring
        rw [this]; positivity
      have : 0 ≤ w * (3 * p ^ 8 - 8 * p ^ 3 + 5) := by positivity
      have e2 : w * (3 * p ^ 8 - 8 * p ^ 3 + 5) = 3 * p ^ 5 - 8 + 5 * w := by linear_combination (3 * p ^ 5 - 8) * p3
      rw [e2] at this
      linarith
    have h5 : (1 - w) * t ^ 2 ≤ (1 - w) * δ ^ 2 := mul_le_mul_of_nonneg_left ht2 (by linarith)
    have h6 : (1 - w) * δ ^ 2 ≤ (3 * p ^ 5 - 3) / 5 * δ ^ 2 := mul_le_mul_of_nonneg_right h4 (sq_nonneg _)
    linarith
  · obtain ⟨p, p1, p2, p3, -, p4⟩ := outer_root hδ h1
    obtain ⟨q, q1, q2, -, -, q3⟩ := outer_root hδ h2
    rw [p4, q3]
    obtain ⟨w, hw⟩ : ∃ w, w = slope δ s := ⟨_, rfl⟩
    rw [← hw] at p3 ⊢
    have hp3 : 1 ≤ p ^ 3 := one_le_pow₀ p1
    have hw0 : 0 < w := by
      by_contra hn
      nlinarith [mul_nonpos_of_nonpos_of_nonneg (not_lt.1 hn) (by linarith : 0 ≤ p ^ 3)]
    have e : 0 ≤ 5 * q ^ 8 - 8 * p ^ 3 * q ^ 5 + 3 * p ^ 8 := by
      have : 5 * q ^ 8 - 8 * p ^ 3 * q ^ 5 + 3 * p ^ 8 = (q - p) ^ 2 * (5 * q ^ 6 + 10 * p * q ^ 5 + 15 * p ^ 2 * q ^ 4 + 12 * p ^ 3 * q ^ 3 +
        9 * p ^ 4 * q ^ 2 + 6 * p ^ 5 * q + 3 * p ^ 6) := by ring
      rw [this]; positivity
    have h3 : 0 ≤ δ ^ 2 * (w * (5 * q ^ 8 - 8 * p ^ 3 * q ^ 5 + 3 * p ^ 8)) := by positivity
    have h4 : δ ^ 2 * (w * (5 * q ^ 8 - 8 * p ^ 3 * q ^ 5 + 3 * p ^ 8)) = 5 * (w * (t ^ 2 - s ^ 2)) - 8 * δ ^ 2 * (q ^ 5 - p ^ 5) := by
      rw [q2, p2]; linear_combination δ ^ 2 * (8 * p ^ 5 - 8 * q ^ 5) * p3
    rw [h4] at h3
    linarith

theorem both_outer {p q m : ℝ} (hp : 1 ≤ p) (hq : 1 ≤ q) (h1 : 10 * m * p ^ 3 ≤ 1) (h2 : 10 * m * q ^ 3 ≤ 1) (hm : 0 ≤ m) :
    m * (q ^ 4 - p ^ 4) ^ 2 ≤ 8 / 5 * (q ^ 5 - p ^ 5) - 2 * p * (q ^ 4 - p ^ 4) := by
  obtain ⟨c, hc⟩ : ∃ c, c = q ^ 3 + q ^ 2 * p + q * p ^ 2 + p ^ 3 := ⟨_, rfl⟩
  have e1 : q ^ 4 - p ^ 4 = (q - p) * c := by rw [hc]; ring
  have e2 : 8 / 5 * (q ^ 5 - p ^ 5) - 2 * p * (q ^ 4 - p ^ 4) =
      (q - p) ^ 2 * (2 / 5 * (4 * q ^ 3 + 3 * p * q ^ 2 + 2 * p ^ 2 * q + p ^ 3)) := by ring
  have hc0 : 0 ≤ c := by rw [hc]; positivity
  have hmc : m * c ≤ 2 / 5 := by
    have hb : c ≤ 2 * (p ^ 3 + q ^ 3) := by
      rw [hc]; nlinarith [mul_nonneg (by linarith : 0 ≤ p + q) (sq_nonneg (p - q))]
    have := mul_le_mul_of_nonneg_left hb hm
    linarith
  have hcK : c ≤ 4 * q ^ 3 + 3 * p * q ^ 2 + 2 * p ^ 2 * q + p ^ 3 := by
    rw [hc]
    have h1 : 0 ≤ q ^ 3 := by positivity
    have h2 : 0 ≤ p * q ^ 2 := by positivity
    have h3 : 0 ≤ p ^ 2 * q := by positivity
    linarith
  rw [e2, e1, mul_pow, mul_left_comm]
  apply mul_le_mul_of_nonneg_left _ (sq_nonneg _)
  have h3 := mul_le_mul hmc hcK hc0 (by norm_num)
  calc m * c ^ 2 = m * c * c := by ring
    _ ≤ _ := h3

/-- The loss is above the parabola through the current residual that has the slope of the loss there and curvature `m`, as far as
ten times the curvature is below the slopes. -/
theorem loss_minor {δ s t m : ℝ} (hδ : 0 < δ) (hs : 0 ≤ s) (hm : 0 ≤ m) (h1 : 10 * m ≤ slope δ s) (h2 : 10 * m ≤ slope δ t) :
    fiveFourthsLoss δ s + 2 * slope δ s * s * (t - s) + m * (t - s) ^ 2 ≤ fiveFourthsLoss δ t := by
  have inner : ∀ x, x < δ → fiveFourthsLoss δ x = x ^ 2 ∧ slope δ x = 1 := fun x h => ⟨if_pos h, if_pos h⟩
  have cond : ∀ {w p : ℝ}, 1 ≤ p → w * p ^ 3 = 1 → 10 * m ≤ w → 10 * m * p ^ 3 ≤ 1 := by
    intro w p hp hw h
    rw [← hw]
    exact mul_le_mul_of_nonneg_right h (by positivity)
  have hm10 : ∀ {p : ℝ}, 1 ≤ p → 10 * m * p ^ 3 ≤ 1 → 10 * m * 1 ^ 3 ≤ 1 := by
    intro p hp h
    have : 1 ≤ p ^ 3 := one_le_pow₀ hp
    nlinarith
  rcases lt_or_ge s δ with g1 | g1 <;> rcases lt_or_ge t δ with g2 | g2
  · rw [(inner s g1).2] at h1
    rw [(inner s g1).1, (inner s g1).2, (inner t g2).1]
    nlinarith [sq_nonneg (t - s)]
  · obtain ⟨q, q1, q2, q3, -, q4⟩ := outer_root hδ g2
    have hq := cond q1 q3 h2
    rw [(inner s g1).1, (inner s g1).2, q4]
    obtain ⟨x, hx⟩ : ∃ x, s = δ * x := ⟨s / δ, by field_simp⟩
    have hx1 : x ≤ 1 := by
      by_contra hn
      rw [hx] at g1
      nlinarith
    have hx0 : 0 ≤ x := by
      by_contra hn
      rw [hx] at hs
      nlinarith
    have key := both_outer le_rfl q1 (hm10 q1 hq) hq hm
    have hq4 : 1 ≤ q ^ 4 := one_le_pow₀ q1
    have hmle : m ≤ 1 := by have := hm10 q1 hq; linarith
    have h3 : 0 ≤ (1 - m) * ((1 - x) * (2 * q ^ 4 - 1 - x)) := by
      apply mul_nonneg (by linarith) (mul_nonneg (by linarith) (by linarith))
    have h4 : 0 ≤ (8 * q ^ 5 - 3) / 5 - x ^ 2 - 2 * x * (q ^ 4 - x) - m * (q ^ 4 - x) ^ 2 := by
      nlinarith [key, h3]
    have h5 := mul_nonneg (sq_nonneg δ) h4
    rw [q2, hx]
    nlinarith [h5]
  · obtain ⟨p, p1, p2, p3, -, p4⟩ := outer_root hδ g1
    have hp := cond p1 p3 h1
    rw [(inner t g2).1, p4]
    obtain ⟨x, hx⟩ : ∃ x, t = δ * x := ⟨t / δ, by field_simp⟩
    have hx1 : x ≤ 1 := by
      by_contra hn
      rw [hx] at g2
      nlinarith
    have key := both_outer p1 le_rfl hp (hm10 p1 hp) hm
    have hmle : m ≤ 1 / 10 := by have := hm10 p1 hp; linarith
    have h6 : 2 * slope δ s * s * (t - s) = 2 * δ * p * (t - s) := by
      rw [p2] at p3 ⊢
      linear_combination (2 * δ * p * (t - δ * p ^ 4)) * p3
    have h7 : 0 ≤ (2 * p - 1 - x) - m * (2 * p ^ 4 - 1 - x) := by
      have a1 : m * (p ^ 3 + p ^ 2 + p + 1) ≤ 4 / 10 := by
        have b1 : p ^ 2 ≤ p ^ 3 := pow_le_pow_right₀ p1 (by norm_num)
        have b2 : p ≤ p ^ 3 := by simpa using pow_le_pow_right₀ p1 (show 1 ≤ 3 by norm_num)
        have b3 : 1 ≤ p ^ 3 := one_le_pow₀ p1
        have : m * (p ^ 3 + p ^ 2 + p + 1) ≤ m * (4 * p ^ 3) := mul_le_mul_of_nonneg_left (by linarith) hm
        linarith
      have a2 : 0 ≤ 2 * (p - 1) * (1 - m * (p ^ 3 + p ^ 2 + p + 1)) := mul_nonneg (by linarith) (by linarith)
      have a3 : 0 ≤ (1 - m) * (1 - x) := mul_nonneg (by linarith) (by linarith)
      nlinarith [a2, a3]
    have h8 : 0 ≤ (1 - x) * ((2 * p - 1 - x) - m * (2 * p ^ 4 - 1 - x)) := mul_nonneg (by linarith) h7
    have h4 : 0 ≤ x ^ 2 - ((8 * p ^ 5 - 3) / 5 + 2 * p * (x - p ^ 4) + m * (x - p ^ 4) ^ 2) := by
      nlinarith [key, h8]
    have h5 := mul_nonneg (sq_nonneg δ) h4
    rw [h6, p2, hx]
    nlinarith [h5]
  · obtain ⟨p, p1, p2, p3, -, p4⟩ := outer_root hδ g1
    obtain ⟨q, q1, q2, q3, -, q4⟩ := outer_root hδ g2
    have hp := cond p1 p3 h1
    have hq := cond q1 q3 h2
    have key := both_outer p1 q1 hp hq hm
    have h6 : 2 * slope δ s * s * (t - s) = 2 * δ * p * (t - s) := by
      rw [p2] at p3 ⊢
      linear_combination (2 * δ * p * (t - δ * p ^ 4)) * p3
    rw [h6, p4, q4]
    have h5 := mul_nonneg (sq_nonneg δ) (sub_nonneg.2 key)
    rw [q2, p2]
    nlinarith [h5]

/-- How large a residual can be, given its loss. -/
theorem loss_bounds {δ s : ℝ} (hδ : 0 < δ) (hs : 0 ≤ s) : 2 * δ * s - δ ^ 2 ≤ fiveFourthsLoss δ s := by
  have h := loss_minor (t := s) (s := δ) hδ hδ.le le_rfl
    (by simp [slope, hδ.ne']) (by rw [mul_zero]; unfold slope; split <;> positivity)
  have e1 : slope δ δ = 1 := by simp [slope, hδ.ne']
  have e2 : fiveFourthsLoss δ δ = δ ^ 2 := by
    obtain ⟨p, p1, p2, p3, -, p4⟩ := outer_root hδ le_rfl
    have : p ^ 4 = 1 := by
      have : δ * (p ^ 4 - 1) = 0 := by linarith
      rcases mul_eq_zero.1 this with h | h
      · exact absurd h hδ.ne'
      · linarith
    have hp : p = 1 := by
      by_contra hn
      have : 1 < p := lt_of_le_of_ne p1 (Ne.symm hn)
      have := one_lt_pow₀ this (show 4 ≠ 0 by norm_num)
      linarith
    rw [p4, hp]; ring
  rw [e1, e2] at h
  linarith

/-- The slope at residuals whose loss is at most `L`. -/
theorem slope_bound {δ s m L : ℝ} (hδ : 0 < δ) (hs : 0 ≤ s) (hm1 : 10 * m ≤ 1) (hm : (10 * m) ^ 4 * (L + δ ^ 2) ^ 3 ≤ 8 * δ ^ 6)
    (h : fiveFourthsLoss δ s ≤ L) : 10 * m ≤ slope δ s := by
  rcases lt_or_ge s δ with g | g
  · rw [slope, if_pos g]; exact hm1
  · obtain ⟨p, p1, p2, p3, -, -⟩ := outer_root hδ g
    have hb := loss_bounds hδ hs
    have h1 : 2 * δ ^ 2 * p ^ 4 ≤ L + δ ^ 2 := by
      have : 2 * δ * s = 2 * δ ^ 2 * p ^ 4 := by rw [p2]; ring
      linarith
    have h2 : (2 * δ ^ 2 * p ^ 4) ^ 3 ≤ (L + δ ^ 2) ^ 3 := pow_le_pow_left₀ (by positivity) h1 3
    have h3 : (10 * m) ^ 4 * (2 * δ ^ 2 * p ^ 4) ^ 3 ≤ 8 * δ ^ 6 := (mul_le_mul_of_nonneg_left h2 (by positivity)).trans hm
    have h4 : (10 * m * p ^ 3) ^ 4 ≤ 1 := by
      have e : (10 * m) ^ 4 * (2 * δ ^ 2 * p ^ 4) ^ 3 = 8 * δ ^ 6 * (10 * m * p ^ 3) ^ 4 := by ring
      rw [e] at h3
      have h8 : 0 < 8 * δ ^ 6 := by positivity
      nlinarith
    have h5 : 10 * m * p ^ 3 ≤ 1 := by
      by_contra hn
      have := one_lt_pow₀ (not_le.1 hn) (show 4 ≠ 0 by norm_num)
      linarith
    have hp3 : 0 < p ^ 3 := by positivity
    rw [← p3] at h5
    exact le_of_mul_le_mul_right h5 hp3


/-! ### Factors -/

/-- Loss of a factor whose residual, whitened without Huber weights, has norm `n`. -/
noncomputable def lossOf (N : Noise) (n : ℝ) : ℝ :=
  match N with
  | .huber _ δ => fiveFourthsLoss (δ.data.getD 0 0) n
  | _ => n ^ 2

/-- Half of its slope, divided by `n`. -/
noncomputable def slopeOf (N : Noise) (n : ℝ) : ℝ :=
  match N with
  | .huber _ δ => slope (δ.data.getD 0 0) n
  | _ => 1

/-- The weight of the residual. -/
noncomputable def weightOf (N : Noise) (n : ℝ) : ℝ :=
  match N with
  | .huber _ δ => huberWeight (δ.data.getD 0 0) n
  | _ => 1

theorem slope_facts {δ n : ℝ} (hδ : 0 < δ) : 0 < slope δ n ∧ slope δ n ≤ huberWeight δ n ∧ huberWeight δ n ≤ 1 := by
  refine ⟨?_, ?_, huberWeight_le_one hδ⟩
  · rw [← huberWeight_mul hδ]; exact mul_pos (huberWeight_pos hδ) (huberWeight_pos hδ)
  · rw [← huberWeight_mul hδ]
    exact mul_le_of_le_one_right (huberWeight_pos hδ).le (huberWeight_le_one hδ)

theorem slopeOf_facts {N : Noise} {k l : Nat} (hN : NoiseWF N k l) (n : ℝ) :
    0 < slopeOf N n ∧ slopeOf N n ≤ weightOf N n ∧ weightOf N n ≤ 1 := by
  cases N with
  | gaussian _ => exact ⟨one_pos, le_rfl, le_rfl⟩
  | diagonal _ => exact ⟨one_pos, le_rfl, le_rfl⟩
  | huber N δ =>
    obtain ⟨-, d, rfl, hd⟩ := hN
    exact slope_facts hd

theorem loss_vec_up {N : Noise} {j l : Nat} (hN : NoiseWF N j l) {k : Nat} (u e : Fin k → ℝ) :
    lossOf N (Real.sqrt ((u + e) ⬝ᵥ (u + e))) ≤ lossOf N (Real.sqrt (u ⬝ᵥ u)) +
      slopeOf N (Real.sqrt (u ⬝ᵥ u)) * (2 * (e ⬝ᵥ u) + e ⬝ᵥ e) := by
  have nn : ∀ x : Fin k → ℝ, 0 ≤ x ⬝ᵥ x := fun x => Finset.sum_nonneg fun i _ => mul_self_nonneg _
  have e1 : (u + e) ⬝ᵥ (u + e) - u ⬝ᵥ u = 2 * (e ⬝ᵥ u) + e ⬝ᵥ e := by
    simp only [add_dotProduct, dotProduct_add, dotProduct_comm u e]; ring
  rw [← e1]
  cases N with
  | gaussian _ => simp only [lossOf, slopeOf, Real.sq_sqrt (nn _)]; linarith
  | diagonal _ => simp only [lossOf, slopeOf, Real.sq_sqrt (nn _)]; linarith
  | huber N δ =>
    obtain ⟨-, d, rfl, hd⟩ := hN
    have := loss_major hd (s := Real.sqrt (u ⬝ᵥ u)) (Real.sqrt_nonneg ((u + e) ⬝ᵥ (u + e)))
    rw [Real.sq_sqrt (nn _), Real.sq_sqrt (nn _)] at this
    exact this

theorem loss_vec_low {N : Noise} {j l : Nat} (hN : NoiseWF N j l) {k : Nat} (u e : Fin k → ℝ) {m : ℝ} (hm : 0 ≤ m)
    (h1 : 10 * m ≤ slopeOf N (Real.sqrt (u ⬝ᵥ u))) (h2 : 10 * m ≤ slopeOf N (Real.sqrt ((u + e) ⬝ᵥ (u + e)))) :
    lossOf N (Real.sqrt (u ⬝ᵥ u)) + 2 * slopeOf N (Real.sqrt (u ⬝ᵥ u)) * (e ⬝ᵥ u) + m * (e ⬝ᵥ e) ≤
      lossOf N (Real.sqrt ((u + e) ⬝ᵥ (u + e))) := by
  have nn : ∀ x : Fin k → ℝ, 0 ≤ x ⬝ᵥ x := fun x => Finset.sum_nonneg fun i _ => mul_self_nonneg _
  have e1 : (u + e) ⬝ᵥ (u + e) = u ⬝ᵥ u + 2 * (e ⬝ᵥ u) + e ⬝ᵥ e := by
    simp only [add_dotProduct, dotProduct_add, dotProduct_comm u e]; ring
  have gauss : 10 * m ≤ 1 → Real.sqrt (u ⬝ᵥ u) ^ 2 + 2 * 1 * (e ⬝ᵥ u) + m * (e ⬝ᵥ e) ≤ Real.sqrt ((u + e) ⬝ᵥ (u + e)) ^ 2 := by
    intro h
    rw [Real.sq_sqrt (nn _), Real.sq_sqrt (nn _), e1]
    have : m * (e ⬝ᵥ e) ≤ 1 * (e ⬝ᵥ e) := mul_le_mul_of_nonneg_right (by linarith) (nn e)
    linarith
  cases N with
  | gaussian _ => exact gauss h1
  | diagonal _ => exact gauss h1
  | huber N δ =>
    obtain ⟨-, d, rfl, hd⟩ := hN
    simp only [lossOf, slopeOf, List.getD_cons_zero] at h1 h2 ⊢
    obtain ⟨s, hs⟩ : ∃ s, s = Real.sqrt (u ⬝ᵥ u) := ⟨_, rfl⟩
    obtain ⟨t, ht⟩ : ∃ t, t = Real.sqrt ((u + e) ⬝ᵥ (u + e)) := ⟨_, rfl⟩
    have hs2 : s ^ 2 = u ⬝ᵥ u := by rw [hs, Real.sq_sqrt (nn _)]
    have ht2 : t ^ 2 = (u + e) ⬝ᵥ (u + e) := by rw [ht, Real.sq_sqrt (nn _)]
    have hs0 : 0 ≤ s := by rw [hs]; exact Real.sqrt_nonneg _
    have ht0 : 0 ≤ t := by rw [ht]; exact Real.sqrt_nonneg _
    rw [← hs] at h1 ⊢
    rw [← ht] at h2 ⊢
    have key := loss_minor hd hs0 hm h1 h2
    have cs : (u ⬝ᵥ (u + e)) ^ 2 ≤ (s * t) ^ 2 := by
      rw [mul_pow, hs2, ht2]
      have := Finset.sum_mul_sq_le_sq_mul_sq Finset.univ u (u + e)
      simp only [dotProduct, ← pow_two]
      exact this
    have cs' : u ⬝ᵥ (u + e) ≤ s * t := (abs_le_of_sq_le_sq' cs (by positivity)).2
    rw [dotProduct_add, dotProduct_comm u e, ← hs2] at cs'
    have e2 : e ⬝ᵥ e = t ^ 2 - s ^ 2 - 2 * (e ⬝ᵥ u) := by rw [ht2, hs2, e1]; ring
    have h3 : 0 ≤ (slope d s - m) * (s * t - s ^ 2 - e ⬝ᵥ u) := mul_nonneg (by linarith) (by linarith)
    rw [e2]
    nlinarith [key, h3]

theorem lossOf_nonneg {N : Noise} {k l : Nat} (hN : NoiseWF N k l) {n : ℝ} (hn : 0 ≤ n) : 0 ≤ lossOf N n := by
  cases N with
  | gaussian _ => exact sq_nonneg _
  | diagonal _ => exact sq_nonneg _
  | huber N δ =>
    obtain ⟨-, d, rfl, hd⟩ := hN
    simp only [lossOf, List.getD_cons_zero]
    rcases lt_or_ge n d with h | h
    · rw [fiveFourthsLoss, if_pos h]; positivity
    · have := loss_bounds hd hn
      nlinarith

theorem factor_inner {F : Nat → FactorClass} {C : Ty → VarClass ℝ} {f : Factor} (hf : FactorWF F C f)
    {val : Var → Value ℝ} (hv : ValuesFor C f.vars (f.vars.map val)) :
    ∃ u, innerAt F val f = .ok u ∧ u.length = rdim f := by
  have hr := hf.residual _ hv
  have hN := hf.noise
  unfold innerAt
  cases hno : f.noise with
  | gaussian _ => rw [hno] at hN; exact whiten_ok hN hr
  | diagonal _ => rw [hno] at hN; exact whiten_ok hN hr
  | huber N δ => rw [hno] at hN; exact whiten_ok hN.1 hr

theorem factorLoss_eq {F : Nat → FactorClass} {f : Factor} {val : Var → Value ℝ} {u : List ℝ} (hl : u.length = rdim f)
    (h : innerAt F val f = .ok u) :
    factorLoss fiveFourthsLoss F val f = lossOf f.noise (Real.sqrt (vec u (rdim f) ⬝ᵥ vec u (rdim f))) := by
  rw [← sqNorm_eq hl]
  unfold innerAt at h
  cases hno : f.noise with
  | gaussian W =>
    simp only [hno] at h
    simp only [factorLoss, hno, lossOf, h, Real.sq_sqrt (sqNorm_nonneg u)]
  | diagonal W =>
    simp only [hno] at h
    simp only [factorLoss, hno, lossOf, h, Real.sq_sqrt (sqNorm_nonneg u)]
  | huber N δ =>
    simp only [hno] at h
    simp only [factorLoss, hno, lossOf, h]

/-! ### Graphs of affine factors -/

section
variable {F : Nat → FactorClass} {C : Ty → VarClass ℝ} {fs : List Factor}

/-- Two descriptions of one assignments object agree. -/
theorem holds_unique {vars vars' : List Var} {val val' : Var → Value ℝ} {a : Assign ℝ} (h : Holds C fs vars val a)
    (h' : Holds C fs vars' val' a) {f : Factor} (hf : f ∈ fs) : f.vars.map val = f.vars.map val' := by
  apply List.map_congr_left
  intro v hv
  have h1 := h.values v ((h.sameVars v).2 ⟨f, hf, hv⟩)
  rw [h'.values v ((h'.sameVars v).2 ⟨f, hf, hv⟩)] at h1
  exact (Except.ok.inj h1).symm

theorem innerAt_congr {val val' : Var → Value ℝ} {f : Factor} (h : f.vars.map val = f.vars.map val') :
    innerAt F val f = innerAt F val' f := by
  unfold innerAt
  rw [h]

theorem totalLoss_congr {val val' : Var → Value ℝ} (h : ∀ f ∈ fs, f.vars.map val = f.vars.map val') :
    totalLoss F fs val = totalLoss F fs val' := by
  unfold totalLoss
  congr 1
  apply List.map_congr_left
  intro f hf
  unfold factorLoss
  rw [h f hf]

/-- Residual and Jacobian of a graph of affine factors, by factors: the residual is the one whitened without Huber weights times its
weight, and the Jacobian maps a step to the changes of these residuals times another weight. -/
theorem robust_view (hC : GoodClasses C) (hfs : ∀ f ∈ fs, FactorWF F C f) (hne : fs ≠ []) (hsimple : ∀ f ∈ fs, NoiseSimple f.noise)
    (haff : ∀ f ∈ fs, AffineFactor F C f) {g : Graph} (hg : Graph.make C fs = .ok g) {vars : List Var} {val : Var → Value ℝ}
    {a : Assign ℝ} (h : Holds C fs vars val a) (hlay : a.layout = g.layout) {c : ℝ} {r : List ℝ} {A : Coo ℝ}
    (hcost : g.computeCost F C a = .ok (c, r)) (hA : g.computeWhitenedResidualJacobian F C a r = .ok A) :
    CooWF A ∧ A.shape = (r.length, g.localLayout.dim) ∧ ∃ w p : Factor → List ℝ, ∃ c' : Factor → ℝ, r = (evalOrder fs).flatMap w ∧
      (∀ f ∈ fs, innerAt F val f = .ok (p f) ∧ (p f).length = rdim f ∧ (w f).length = rdim f ∧
        vec (w f) (rdim f) = weightOf f.noise (Real.sqrt (vec (p f) (rdim f) ⬝ᵥ vec (p f) (rdim f))) • vec (p f) (rdim f) ∧
        c' f ^ 2 = weightOf f.noise (Real.sqrt (vec (p f) (rdim f) ⬝ᵥ vec (p f) (rdim f))) ∧
        weightOf f.noise (Real.sqrt (vec (p f) (rdim f) ⬝ᵥ vec (p f) (rdim f))) * c' f =
          slopeOf f.noise (Real.sqrt (vec (p f) (rdim f) ⬝ᵥ vec (p f) (rdim f)))) ∧
      ∀ d b vars' val', d.length = g.localLayout.dim → a.manifoldRetract C ⟨d, g.localLayout⟩ = .ok b → Holds C fs vars' val' b →
        ∃ u p' : Factor → List ℝ, A.matmul d = .ok ((evalOrder fs).flatMap u) ∧ ∀ f ∈ fs, (u f).length = rdim f ∧
          innerAt F val' f = .ok (p' f) ∧ (p' f).length = rdim f ∧
          vec (u f) (rdim f) = c' f • (vec (p' f) (rdim f) - vec (p f) (rdim f)) := by
  obtain ⟨g', hg', hG⟩ := graph_ok (F := F) hfs hne
  rw [hg] at hg'; cases hg'
  have hs := variablesOf_spec fs
  obtain ⟨w, hw⟩ := h.whitened hC hfs
  have hcost' := Props.cost_ok F C hC hne hfs hG h fun f hf => (hw f hf).1
  obtain ⟨hr1, hr2⟩ := residual_ok hC hfs hne hG h fun f hf => (hw f hf).1
  have hr : r = (evalOrder fs).flatMap w := by
    rw [hcost'] at hcost
    exact (Prod.mk.inj (Except.ok.inj hcost)).2.symm
  subst hr
  obtain ⟨g', hg', hall⟩ := Props.C20_jacobian_product F C hC fs hne hfs
  rw [hg] at hg'; cases hg'
  obtain ⟨A', R, hA', hsh, hR, hprod⟩ := hall vars val a h w fun f hf => (hw f hf).2
  rw [hA] at hA'; cases hA'
  obtain ⟨g', hg', hall'⟩ := (Props.C19_coordinates F C hC fs hne hfs)
  rw [hg] at hg'; cases hg'
  obtain ⟨A', hA', -, _, hwf⟩ := hall'.2.2.2 vars val a h w fun f hf => (hw f hf).2
  rw [hA] at hA'; cases hA'
  have : ∀ f, ∃ u, f ∈ fs → innerAt F val f = .ok u ∧ u.length = rdim f := by
    intro f
    by_cases hf : f ∈ fs
    · obtain ⟨u, h1⟩ := factor_inner (hfs f hf) (h.valuesFor hC hf)
      exact ⟨u, fun _ => h1⟩
    · exact ⟨[], fun h => absurd h hf⟩
  choose p hp using this
  -- one factor
  have hfac : ∀ f, ∃ c' : ℝ, f ∈ fs →
      vec (w f) (rdim f) = weightOf f.noise (Real.sqrt (vec (p f) (rdim f) ⬝ᵥ vec (p f) (rdim f))) • vec (p f) (rdim f) ∧
      c' ^ 2 = weightOf f.noise (Real.sqrt (vec (p f) (rdim f) ⬝ᵥ vec (p f) (rdim f))) ∧
      weightOf f.noise (Real.sqrt (vec (p f) (rdim f) ⬝ᵥ vec (p f) (rdim f))) * c' =
        slopeOf f.noise (Real.sqrt (vec (p f) (rdim f) ⬝ᵥ vec (p f) (rdim f))) ∧
      ∃ (N : Noise) (U : List (Arr ℝ)), NoiseWF N (rdim f) (rdim f) ∧ NoiseGaussian N ∧
        (∀ val, innerAt F val f = N.whiten ((F f.cls).residual f.self (f.vars.map val))) ∧
        ((F f.cls).jacobians f.self (f.vars.map val)).mapM (fun J => N.whitenJacobian J (w f)) = .ok U ∧
        R f = U.map (Props.scaled c') := by
    intro f
    by_cases hf : f ∈ fs
    swap
    · exact ⟨0, fun h => absurd h hf⟩
    have hRf := (hR f hf).1
    unfold whitenedJacobiansAt at hRf
    have hwf1 := (hw f hf).1
    unfold whitenedAt at hwf1
    have hNwf := (hfs f hf).noise
    have hJ := (hfs f hf).jacobians _ (h.valuesFor hC hf)
    have hone : ∀ U : List (Arr ℝ), U = U.map (Props.scaled 1) := by
      intro U
      conv_lhs => rw [← List.map_id U]
      apply List.map_congr_left
      intro J _
      simp [Props.scaled]
    have hin := (hp f hf).1
    have plain : NoiseGaussian f.noise → (∀ val, innerAt F val f = f.noise.whiten ((F f.cls).residual f.self (f.vars.map val))) →
        w f = p f := by
      intro _ h2
      rw [h2, hwf1] at hin
      exact Except.ok.inj hin
    cases hno : f.noise with
    | gaussian W =>
      have hi : ∀ val, innerAt F val f = f.noise.whiten ((F f.cls).residual f.self (f.vars.map val)) := by
        intro val; unfold innerAt; rw [hno]
      have hgs : NoiseGaussian f.noise := by rw [hno]; trivial
      refine ⟨1, fun _ => ⟨?_, by simp [weightOf], by simp [weightOf, slopeOf], f.noise, R f, hNwf, hgs, hi, hRf, hone _⟩⟩
      rw [plain hgs hi]; simp [weightOf]
    | diagonal W =>
      have hi : ∀ val, innerAt F val f = f.noise.whiten ((F f.cls).residual f.self (f.vars.map val)) := by
        intro val; unfold innerAt; rw [hno]
      have hgs : NoiseGaussian f.noise := by rw [hno]; trivial
      refine ⟨1, fun _ => ⟨?_, by simp [weightOf], by simp [weightOf, slopeOf], f.noise, R f, hNwf, hgs, hi, hRf, hone _⟩⟩
      rw [plain hgs hi]; simp [weightOf]
    | huber N δ' =>
      have hNwf' := hNwf
      rw [hno] at hNwf'
      obtain ⟨hN, δ, rfl, hδpos⟩ := hNwf'
      have hgs : NoiseGaussian N := by
        have := hsimple f hf
        rwa [hno] at this
      have hi : ∀ val, innerAt F val f = N.whiten ((F f.cls).residual f.self (f.vars.map val)) := by
        intro val; unfold innerAt; rw [hno]
      obtain ⟨U, hU⟩ : ∃ U, ((F f.cls).jacobians f.self (f.vars.map val)).mapM (fun J => N.whitenJacobian J (w f)) = .ok U := by
        generalize (F f.cls).jacobians f.self (f.vars.map val) = Js at hJ
        generalize f.vars = vs at hJ
        induction hJ with
        | nil => exact ⟨[], rfl⟩
        | cons hJ _ ih =>
          obtain ⟨U, hU⟩ := ih
          obtain ⟨R, h1, _⟩ := whitenJacobian_ok hN hJ (hw f hf).2
          exact ⟨R :: U, by rw [List.mapM_cons, h1, py_bind_ok, hU]; rfl⟩
      rw [hi] at hin
      rw [hno, huber_whiten hin] at hwf1
      have hwu := (Except.ok.inj hwf1).symm
      rw [hno, Props.mapM_huber hU] at hRf
      have hcpos := huberWeight_pos (n := norm2 (p f)) hδpos
      have hRU := (Except.ok.inj hRf).symm
      have hn : Real.sqrt (vec (p f) (rdim f) ⬝ᵥ vec (p f) (rdim f)) = norm2 (p f) := by rw [← sqNorm_eq (hp f hf).2]; rfl
      have hwn : norm2 (w f) = huberWeight δ (norm2 (p f)) * norm2 (p f) := by rw [hwu, Props.norm2_scale hcpos.le]
      have hwv : vec (w f) (rdim f) = huberWeight δ (norm2 (p f)) • vec (p f) (rdim f) := by
        funext i
        rw [hwu]
        simp only [Spec.vec, List.getD_eq_getElem?_getD, List.getElem?_map, Pi.smul_apply, smul_eq_mul]
        cases (p f)[i.1]? <;> simp [mul_comm]
      rw [hwn] at hRU
      simp only [hn, weightOf, slopeOf, List.getD_cons_zero]
      exact ⟨_, fun _ => ⟨hwv, Props.huberWeight_twice hδpos, huberWeight_mul hδpos, N, U, hN, hgs, hi, hU, hRU⟩⟩
  choose c' hc' using hfac
  refine ⟨hwf, by rw [hsh, hr2], w, p, c', rfl, fun f hf => ?_, fun d b vars' val' hd hb hb' => ?_⟩
  · obtain ⟨e1, e2, e3, -⟩ := hc' f hf
    exact ⟨(hp f hf).1, (hp f hf).2, (hw f hf).2, e1, e2, e3⟩
  · obtain ⟨u, hu, hud⟩ := hprod d hd
    obtain ⟨b', hb1, hb2, hb3⟩ := Props.holds_retract hC hG h hlay hd
    rw [hb] at hb1; cases hb1
    have : ∀ f, ∃ u, f ∈ fs → innerAt F val' f = .ok u ∧ u.length = rdim f := by
      intro f
      by_cases hf : f ∈ fs
      · obtain ⟨u, h1⟩ := factor_inner (hfs f hf) (hb'.valuesFor hC hf)
        exact ⟨u, fun _ => h1⟩
      · exact ⟨[], fun h => absurd h hf⟩
    choose p' hp' using this
    refine ⟨u, p', hu, fun f hf => ⟨(hud f hf).1, (hp' f hf).1, (hp' f hf).2, ?_⟩⟩
    obtain ⟨-, -, -, N, U, hN, hgs, hi, hU, hRU⟩ := hc' f hf
    have hδ : List.Forall₂ (fun v (x : List ℝ) => x.length = (C v.ty).localDim) f.vars
        (f.vars.map (block C ⟨d, g.localLayout⟩)) := by
      rw [List.forall₂_map_right_iff, List.forall₂_same]
      intro v hv
      have hδ : IsAssignmentOf C (Graph.variablesOf fs) ⟨d, g.localLayout⟩ := by
        refine ⟨hs.1, ?_, hd⟩
        simp only [hG.localLayout, make_localFlag]
      obtain ⟨q, hq⟩ := exists_rep hδ
      have hm := mem_variablesOf hf hv
      rw [hq.block_eq hm, hq.len v hm]
      simp [hG.localLayout, make_localFlag, dimOf]
    have h1 := haff f hf _ _ (h.valuesFor hC hf) hδ
    have h2 := congrArg (fun v => noiseMat N (rdim f) (rdim f) *ᵥ v) h1
    simp only [mulVec_add] at h2
    rw [← (applyBlocks_gaussian hN hgs (hw f hf).2 (block C ⟨d, g.localLayout⟩) f.vars _ U
      ((hfs f hf).jacobians _ (h.valuesFor hC hf)) hU).2] at h2
    obtain ⟨w1, e1, e2, e3⟩ := whiten_gaussian hN hgs ((hfs f hf).residual _ (hb3.valuesFor hC hf))
    obtain ⟨w2, e4, e5, e6⟩ := whiten_gaussian hN hgs ((hfs f hf).residual _ (h.valuesFor hC hf))
    have t1 := (hp' f hf).1
    rw [innerAt_congr (holds_unique hb' hb3 hf), hi, e1] at t1
    have t2 := (hp f hf).1
    rw [hi, e4] at t2
    rw [(hud f hf).2, hRU, applyBlocks_scaled, ← Except.ok.inj t1, ← Except.ok.inj t2, e3, e6]
    congr 1
    rw [eq_sub_iff_add_eq', ← h2]
    congr 3
    generalize f.vars = vs
    induction vs with
    | nil => rfl
    | cons v vs ih => simp only [List.map_cons, List.zip_cons_cons, List.zipWith_cons_cons, ih]

end

end Jaxfg
