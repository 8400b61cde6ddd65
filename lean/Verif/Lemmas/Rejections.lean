/- Steps computed from the residual of a rejected proposal. -/
import Verif.Spec.Rejections
import Verif.Lemmas.Acceptance

namespace Jaxfg
open Spec Matrix
open Ext (fin)
variable {m n : Nat}

section
variable {A : Matrix (Fin m) (Fin n) ℝ} {κ M δ ρ : ℝ} {r r₁ r₂ : Fin m → ℝ} {e d : Fin n → ℝ}

/-- The cost after a step `d` that was computed from the residual `r₁` of a point at distance `e`. -/
theorem stale_cost (hκ : 0 ≤ κ) (hM : 0 ≤ M) (hA : ∀ v, eucl (A *ᵥ v) ≤ κ * eucl v) (he : eucl e ≤ 2 * ρ) (hd : eucl d ≤ ρ)
    (hρ : 2 * ρ ≤ δ) (hw : eucl (r₁ - r - A *ᵥ e) ≤ M / 2 * (e ⬝ᵥ e)) (hw' : eucl (r₂ - r - A *ᵥ d) ≤ M / 2 * (d ⬝ᵥ d)) :
    r₂ ⬝ᵥ r₂ ≤ r ⬝ᵥ r - (r₁ ⬝ᵥ r₁ - modelCost A r₁ d) + secondOrder κ M δ (r ⬝ᵥ r) * ρ ^ 2 := by
  obtain ⟨w, hwd⟩ : ∃ w, w = r₁ - r - A *ᵥ e := ⟨_, rfl⟩
  obtain ⟨w', hwd'⟩ : ∃ w', w' = r₂ - r - A *ᵥ d := ⟨_, rfl⟩
  obtain ⟨a, ha⟩ : ∃ a, a = A *ᵥ e := ⟨_, rfl⟩
  obtain ⟨g, hg⟩ : ∃ g, g = A *ᵥ d := ⟨_, rfl⟩
  have e1 : r₁ = r + a + w := by rw [hwd, ha]; abel
  have e2 : r₂ = r + g + w' := by rw [hwd', hg]; abel
  have hρ0 : 0 ≤ ρ := (eucl_nonneg d).trans hd
  have ka : eucl a ≤ 2 * κ * ρ := by rw [ha]; nlinarith [hA e]
  have kg : eucl g ≤ κ * ρ := by rw [hg]; nlinarith [hA d]
  have kw : eucl w ≤ 2 * M * ρ ^ 2 := by
    rw [← hwd, ← eucl_sq] at hw
    nlinarith [pow_le_pow_left₀ (eucl_nonneg e) he 2]
  have kw' : eucl w' ≤ M / 2 * ρ ^ 2 := by
    rw [← hwd', ← eucl_sq] at hw'
    nlinarith [pow_le_pow_left₀ (eucl_nonneg d) hd 2]
  have id1 : r₂ ⬝ᵥ r₂ = r ⬝ᵥ r - (r₁ ⬝ᵥ r₁ - modelCost A r₁ d) + (2 * (-g ⬝ᵥ a) + 2 * (-g ⬝ᵥ w) + 2 * (r ⬝ᵥ w') + 2 * (g ⬝ᵥ w') + w' ⬝ᵥ w') := by
    rw [modelCost, ← hg, e1, e2]
    simp only [add_dotProduct, dotProduct_add, neg_dotProduct]
    rw [dotProduct_comm a g, dotProduct_comm w g, dotProduct_comm r g, dotProduct_comm w' r, dotProduct_comm w' g]
    ring
  have i1 := dot_le_eucl (-g) a
  have i2 := dot_le_eucl (-g) w
  have i3 := dot_le_eucl r w'
  have i4 := dot_le_eucl g w'
  rw [eucl_neg] at i1 i2
  have hr : √(r ⬝ᵥ r) = eucl r := rfl
  have kr := eucl_nonneg r
  have j1 : eucl g * eucl a ≤ (κ * ρ) * (2 * κ * ρ) := mul_le_mul kg ka (eucl_nonneg _) (by positivity)
  have j2 : eucl g * eucl w ≤ (κ * ρ) * (2 * M * ρ ^ 2) := mul_le_mul kg kw (eucl_nonneg _) (by positivity)
  have j3 : eucl r * eucl w' ≤ eucl r * (M / 2 * ρ ^ 2) := mul_le_mul_of_nonneg_left kw' kr
  have j4 : eucl g * eucl w' ≤ (κ * ρ) * (M / 2 * ρ ^ 2) := mul_le_mul kg kw' (eucl_nonneg _) (by positivity)
  have j5 : w' ⬝ᵥ w' ≤ (M / 2 * ρ ^ 2) ^ 2 := by rw [← eucl_sq]; exact pow_le_pow_left₀ (eucl_nonneg _) kw' 2
  rw [id1]
  have hκM : 0 ≤ κ * M := mul_nonneg hκ hM
  have t1 : κ * M * ρ ^ 2 * (2 * ρ) ≤ κ * M * ρ ^ 2 * δ := mul_le_mul_of_nonneg_left hρ (by positivity)
  have t2 : ρ ^ 2 ≤ δ ^ 2 := pow_le_pow_left₀ hρ0 (by linarith) 2
  have t3 : M ^ 2 / 4 * ρ ^ 2 * ρ ^ 2 ≤ M ^ 2 / 4 * ρ ^ 2 * δ ^ 2 := mul_le_mul_of_nonneg_left t2 (by positivity)
  have t4 : 0 ≤ κ * M * ρ ^ 2 * δ := mul_nonneg (by positivity) (by linarith)
  have t5 : 0 ≤ M * eucl r * ρ ^ 2 := by positivity
  unfold secondOrder
  rw [hr]
  nlinarith only [i1, i2, i3, i4, j1, j2, j3, j4, j5, t1, t3, t4, t5]

/-- How far the cost can have fallen at the point whose residual is used. -/
theorem stale_fall (hκ : 0 ≤ κ) (hM : 0 ≤ M) (hA : ∀ v, eucl (A *ᵥ v) ≤ κ * eucl v) (he : eucl e ≤ 2 * ρ)
    (hρ : 2 * ρ ≤ δ) (hw : eucl (r₁ - r - A *ᵥ e) ≤ M / 2 * (e ⬝ᵥ e)) :
    r ⬝ᵥ r - r₁ ⬝ᵥ r₁ ≤ 2 * (eucl (descent A r) * eucl e) + secondOrder κ M δ (r ⬝ᵥ r) * ρ ^ 2 := by
  obtain ⟨w, hwd⟩ : ∃ w, w = r₁ - r - A *ᵥ e := ⟨_, rfl⟩
  obtain ⟨a, ha⟩ : ∃ a, a = A *ᵥ e := ⟨_, rfl⟩
  have e1 : r₁ = r + a + w := by rw [hwd, ha]; abel
  have hρ0 : 0 ≤ ρ := by linarith [(eucl_nonneg e).trans he]
  have ka : eucl a ≤ 2 * κ * ρ := by rw [ha]; nlinarith [hA e]
  have kw : eucl w ≤ 2 * M * ρ ^ 2 := by
    rw [← hwd, ← eucl_sq] at hw
    nlinarith [pow_le_pow_left₀ (eucl_nonneg e) he 2]
  have id1 : r ⬝ᵥ r - r₁ ⬝ᵥ r₁ = 2 * (descent A r ⬝ᵥ e) - a ⬝ᵥ a + 2 * (-r ⬝ᵥ w) + 2 * (-a ⬝ᵥ w) - w ⬝ᵥ w := by
    have : descent A r ⬝ᵥ e = -r ⬝ᵥ a := by
      rw [descent, dotProduct_comm, dotProduct_mulVec, vecMul_transpose, dotProduct_comm, ha]
    rw [this, e1]
    simp only [add_dotProduct, dotProduct_add, neg_dotProduct]
    rw [dotProduct_comm a r, dotProduct_comm w r, dotProduct_comm w a]
    ring
  have i1 := dot_le_eucl (descent A r) e
  have i2 := dot_le_eucl (-r) w
  have i3 := dot_le_eucl (-a) w
  rw [eucl_neg] at i2 i3
  have kr := eucl_nonneg r
  have hr : √(r ⬝ᵥ r) = eucl r := rfl
  have j1 : eucl r * eucl w ≤ eucl r * (2 * M * ρ ^ 2) := mul_le_mul_of_nonneg_left kw kr
  have j2 : eucl a * eucl w ≤ (2 * κ * ρ) * (2 * M * ρ ^ 2) := mul_le_mul ka kw (eucl_nonneg _) (by positivity)
  have n1 := dot_self_nonneg a
  have n2 := dot_self_nonneg w
  have hκM : 0 ≤ κ * M := mul_nonneg hκ hM
  have t1 : κ * M * ρ ^ 2 * (2 * ρ) ≤ κ * M * ρ ^ 2 * δ := mul_le_mul_of_nonneg_left hρ (by positivity)
  have t4 : 0 ≤ κ * M * ρ ^ 2 * δ := mul_nonneg (by positivity) (by linarith)
  have t5 : 0 ≤ M * eucl r * ρ ^ 2 := by positivity
  have t6 : 0 ≤ M ^ 2 * δ ^ 2 / 4 * ρ ^ 2 := by positivity
  have t7 : 0 ≤ κ ^ 2 * ρ ^ 2 := by positivity
  unfold secondOrder
  rw [hr, id1]
  nlinarith only [i1, i2, i3, j1, j2, n1, n2, t1, t4, t5, t6, t7]

/-- The gradient that the residual of the other point gives. -/
theorem stale_gradient (hκ : 0 ≤ κ) (hM : 0 ≤ M) (hA : ∀ v, eucl (A *ᵥ v) ≤ κ * eucl v) (hδ : eucl e ≤ δ)
    (hw : eucl (r₁ - r - A *ᵥ e) ≤ M / 2 * (e ⬝ᵥ e)) :
    eucl (descent A r₁ - descent A r) ≤ secondOrder κ M δ (r ⬝ᵥ r) * eucl e := by
  have e1 : descent A r₁ - descent A r = -(Aᵀ *ᵥ (A *ᵥ e + (r₁ - r - A *ᵥ e))) := by
    unfold descent
    rw [← mulVec_sub, ← mulVec_neg]
    congr 1
    abel
  have ke := eucl_nonneg e
  have hr : √(r ⬝ᵥ r) = eucl r := rfl
  have kr := eucl_nonneg r
  rw [e1, eucl_neg]
  refine (eucl_transpose hκ hA _).trans ?_
  have h1 := eucl_add_le (A *ᵥ e) (r₁ - r - A *ᵥ e)
  have h2 : eucl (A *ᵥ e + (r₁ - r - A *ᵥ e)) ≤ κ * eucl e + M / 2 * eucl e ^ 2 := by
    rw [eucl_sq]; linarith [hA e]
  have h3 := mul_le_mul_of_nonneg_left h2 hκ
  have hδ0 : 0 ≤ δ := ke.trans hδ
  have hκM : 0 ≤ κ * M := mul_nonneg hκ hM
  have h4 : κ * M * eucl e * eucl e ≤ κ * M * eucl e * δ := mul_le_mul_of_nonneg_left hδ (by positivity)
  have t1 : 0 ≤ κ * M * eucl e * δ := by positivity
  have t2 : 0 ≤ M * eucl r * eucl e := by positivity
  have t3 : 0 ≤ M ^ 2 * δ ^ 2 / 4 * eucl e := by positivity
  have t4 : 0 ≤ κ ^ 2 * eucl e := by positivity
  unfold secondOrder
  rw [hr]
  nlinarith only [h3, h4, t1, t2, t3, t4]

/-- A step that was computed from the residual of another point is accepted, if its predicted decrease outweighs the errors. -/
theorem stale_accepts (hκ : 0 ≤ κ) (hM : 0 ≤ M) (hA : ∀ v, eucl (A *ᵥ v) ≤ κ * eucl v) (he : eucl e ≤ 2 * ρ) (hd : eucl d ≤ ρ)
    (hρ : 2 * ρ ≤ δ) (hw : eucl (r₁ - r - A *ᵥ e) ≤ M / 2 * (e ⬝ᵥ e)) (hw' : eucl (r₂ - r - A *ᵥ d) ≤ M / 2 * (d ⬝ᵥ d))
    {X θ q Δ : ℝ} (hΔ : Δ = r₁ ⬝ᵥ r₁ - modelCost A r₁ d) (hpos : 0 < Δ) (h1 : r₁ ⬝ᵥ r₁ ≤ r ⬝ᵥ r + X) (hX : X ≤ Δ / 2)
    (hK : secondOrder κ M δ (r ⬝ᵥ r) * ρ ^ 2 ≤ Δ / 8) (hθ : 2 * (eucl (descent A r) * eucl e) ≤ θ * Δ) (hq0 : 0 ≤ q)
    (hq : q * (2 + θ) ≤ 7 / 8) :
    Scal.le (fin q) (fin (r₂ ⬝ᵥ r₂ - r ⬝ᵥ r) / fin (modelCost A r₁ d - r ⬝ᵥ r)) = true := by
  have k1 := stale_cost hκ hM hA he hd hρ hw hw'
  have k2 := stale_fall hκ hM hA he hρ hw
  refine accepts_share (by linarith) ?_
  have k3 : r ⬝ᵥ r - modelCost A r₁ d ≤ (2 + θ) * Δ := by linarith
  have k4 := mul_le_mul_of_nonneg_left k3 hq0
  have k5 := mul_le_mul_of_nonneg_right hq hpos.le
  linarith

end

/-! ### Dogleg -/

/-- A row of rejected dogleg steps cannot reach a small radius. -/
theorem dogleg_row {A : Matrix (Fin m) (Fin n) ℝ} {κ μ M δ q : ℝ} {r : Fin m → ℝ} {R : Nat → Fin m → ℝ} {d : Nat → Fin n → ℝ}
    {ρ : Nat → ℝ} {k : Nat} (hκ : 0 ≤ κ) (hM : 0 ≤ M) (hA : ∀ v, eucl (A *ᵥ v) ≤ κ * eucl v) (h0 : R 0 = r)
    (hb : descent A r ≠ 0) (hρ : ∀ j ≤ k, 0 < ρ j) (hhalf : ∀ j < k, ρ j ≤ 2 * ρ (j + 1)) (hd : ∀ j < k, eucl (d j) ≤ ρ j)
    (hdec : ∀ j < k, 0 ≤ R j ⬝ᵥ R j - modelCost A (R j) (d j) ∧
      (eucl (descent A (R j)) ^ 2 ≤ (κ ^ 2 + μ) * (R j ⬝ᵥ R j - modelCost A (R j) (d j)) ∨
        ρ j * eucl (descent A (R j)) ≤ R j ⬝ᵥ R j - modelCost A (R j) (d j)))
    (htay : ∀ j < k, eucl (d j) ≤ δ → eucl (R (j + 1) - r - A *ᵥ d j) ≤ M / 2 * (d j ⬝ᵥ d j))
    (hq0 : 0 ≤ q) (hq : q ≤ 7 / 80)
    (hrej : ∀ j < k, Scal.le (fin q) (fin (R (j + 1) ⬝ᵥ R (j + 1) - r ⬝ᵥ r) / fin (modelCost A (R j) (d j) - r ⬝ᵥ r)) = false)
    {j : Nat} (hj : j < k) :
    δ < 4 * ρ j ∨ eucl (descent A r) < 16 * secondOrder κ M δ (r ⬝ᵥ r) * ρ j ∨ eucl (descent A r) < 2 * (κ ^ 2 + μ) * ρ j := by
  by_contra hcon
  simp only [not_or, not_lt] at hcon
  obtain ⟨c1, c2, c3⟩ := hcon
  obtain ⟨K, hK⟩ : ∃ K, K = secondOrder κ M δ (r ⬝ᵥ r) := ⟨_, rfl⟩
  rw [← hK] at c2
  obtain ⟨β, hβ⟩ : ∃ β, β = eucl (descent A r) := ⟨_, rfl⟩
  have hβ0 : 0 < β := by rw [hβ]; exact Real.sqrt_pos.2 (dot_self_pos hb)
  rw [← hβ] at c2 c3
  have hρj := hρ j hj.le
  have hδ : 0 ≤ δ := by linarith
  have hK0 : 0 ≤ K := by
    rw [hK]; unfold secondOrder
    have := Real.sqrt_nonneg (r ⬝ᵥ r)
    positivity
  obtain ⟨E, hE⟩ : ∃ E : Nat → Fin n → ℝ, E = fun j => Nat.casesOn j 0 d := ⟨_, rfl⟩
  have hEs : ∀ i ≤ k, eucl (E i) ≤ 2 * ρ i ∧ (eucl (E i) ≤ δ → eucl (R i - r - A *ᵥ E i) ≤ M / 2 * (E i ⬝ᵥ E i)) := by
    intro i hi
    rw [hE]
    cases i with
    | zero =>
      have : eucl (0 : Fin n → ℝ) = 0 := by simp [eucl]
      exact ⟨by show eucl (0 : Fin n → ℝ) ≤ _; rw [this]; linarith [hρ 0 hi], fun _ => by simp [h0, eucl]⟩
    | succ i => exact ⟨(hd i hi).trans (hhalf i hi), htay i hi⟩
  obtain ⟨f1, f2⟩ := hEs j hj.le
  have f2 := f2 (by linarith)
  have hdj := hd j hj
  have hkey : R j ⬝ᵥ R j ≤ r ⬝ᵥ r + 4 * K * ρ j ^ 2 := by
    cases j with
    | zero => rw [h0]; have := mul_nonneg hK0 (sq_nonneg (ρ 0)); linarith
    | succ i =>
      have hi : i < k := by omega
      obtain ⟨g1, g2⟩ := hEs i hi.le
      have g3 := hhalf i hi
      have := stale_cost (δ := δ) hκ hM hA g1 (hd i hi) (by linarith) (g2 (by linarith)) (htay i hi (by linarith [hd i hi]))
      rw [← hK] at this
      have g4 := pow_le_pow_left₀ (hρ i hi.le).le g3 2
      have g5 := mul_le_mul_of_nonneg_left g4 hK0
      linarith [(hdec i hi).1]
  have hgrad := stale_gradient hκ hM hA (δ := δ) (by linarith) f2
  rw [← hK] at hgrad
  obtain ⟨β', hβ'⟩ : ∃ β', β' = eucl (descent A (R j)) := ⟨_, rfl⟩
  have hlow : 7 / 8 * β ≤ β' := by
    have t1 := eucl_add_le (descent A (R j)) (-(descent A (R j) - descent A r))
    rw [eucl_neg, show descent A (R j) + -(descent A (R j) - descent A r) = descent A r by abel, ← hβ, ← hβ'] at t1
    have t2 := mul_le_mul_of_nonneg_left f1 hK0
    linarith
  obtain ⟨Δ, hΔ⟩ : ∃ Δ, Δ = R j ⬝ᵥ R j - modelCost A (R j) (d j) := ⟨_, rfl⟩
  have hd2 := (hdec j hj).2
  rw [← hΔ, ← hβ'] at hd2
  have hΔ0 : ρ j * β / 2 ≤ Δ := by
    rcases hd2 with h | h
    · have t1 : (7 / 8 * β) ^ 2 ≤ β' ^ 2 := pow_le_pow_left₀ (by positivity) hlow 2
      have t2 : 0 ≤ Δ := by rw [hΔ]; exact (hdec j hj).1
      have t3 : 2 * (κ ^ 2 + μ) * ρ j * Δ ≤ β * Δ := mul_le_mul_of_nonneg_right c3 t2
      have t4 : ρ j * (49 / 64 * β ^ 2) ≤ ρ j * ((κ ^ 2 + μ) * Δ) := mul_le_mul_of_nonneg_left (by linarith) hρj.le
      have t5 : β * (ρ j * β * (49 / 32)) ≤ β * Δ := by linarith
      have t6 := le_of_mul_le_mul_left t5 hβ0
      have := mul_pos hρj hβ0
      linarith
    · have := mul_le_mul_of_nonneg_left hlow hρj.le
      have := mul_pos hρj hβ0
      linarith
  have hpos : 0 < Δ := lt_of_lt_of_le (by positivity) hΔ0
  have c2' := mul_le_mul_of_nonneg_right c2 hρj.le
  have c4 : β * eucl (E j) ≤ β * (2 * ρ j) := mul_le_mul_of_nonneg_left f1 hβ0.le
  have hacc := stale_accepts (δ := δ) hκ hM hA f1 hdj (by linarith) f2 (htay j hj (by linarith)) (X := 4 * K * ρ j ^ 2) (θ := 8) (q := q) hΔ hpos hkey
    (by linarith only [c2', hΔ0]) (by rw [← hK]; linarith only [c2', hΔ0]) (by rw [← hβ]; linarith only [c4, hΔ0]) hq0 (by linarith)
  rw [hrej j hj] at hacc
  cases hacc

/-! ### Levenberg-Marquardt -/

section
variable {A D : Matrix (Fin m) (Fin n) ℝ}

/-- A damped step is not longer than the gradient divided by the damping. -/
theorem damped_length {A : Matrix (Fin m) (Fin n) ℝ} {D : Matrix (Fin n) (Fin n) ℝ} {ν : ℝ}
    (hle : ∀ v, ν * (v ⬝ᵥ v) ≤ v ⬝ᵥ D *ᵥ v) {r : Fin m → ℝ} {x : Fin n → ℝ} (hx : (Aᵀ * A + D) *ᵥ x = descent A r) :
    ν * eucl x ≤ eucl (descent A r) := by
  have h1 : (A *ᵥ x) ⬝ᵥ (A *ᵥ x) + x ⬝ᵥ D *ᵥ x = x ⬝ᵥ descent A r := by
    rw [← hx, add_mulVec, dotProduct_add, dot_gram]
  have h2 := hle x
  have h3 := dot_le_eucl x (descent A r)
  have h4 := dot_self_nonneg (A *ᵥ x)
  rw [← eucl_sq] at h2
  rcases (eucl_nonneg x).eq_or_lt with h0 | h0
  · rw [← h0, mul_zero]; exact eucl_nonneg _
  · have : eucl x * (ν * eucl x) ≤ eucl x * eucl (descent A r) := by nlinarith
    exact le_of_mul_le_mul_left this h0

end

/-- The gradient that a residual gives. -/
theorem descent_le {A : Matrix (Fin m) (Fin n) ℝ} {κ : ℝ} (hκ : 0 ≤ κ) (hA : ∀ v, eucl (A *ᵥ v) ≤ κ * eucl v) (r : Fin m → ℝ) :
    eucl (descent A r) ≤ κ * eucl r := by
  have := eucl_transpose hκ hA (-r)
  rwa [eucl_neg] at this

/-- What the row lemmas say about one step: it solves the normal equations with a damping between `ν` and `μ`, and if it is not longer
than `δ` then the linearization at the assignments (with residual `r`) predicts the next residual. -/
structure RowStep (A : Matrix (Fin m) (Fin n) ℝ) (r : Fin m → ℝ) (δ M ν μ : ℝ) (R : Fin m → ℝ) (d : Fin n → ℝ) (R' : Fin m → ℝ) : Prop where
  solves : ∃ D : Matrix (Fin n) (Fin n) ℝ, D.PosSemidef ∧ (∀ v, v ⬝ᵥ D *ᵥ v ≤ μ * (v ⬝ᵥ v)) ∧ (Aᵀ * A + D) *ᵥ d = descent A R
  atLeast : ∃ D : Matrix (Fin n) (Fin n) ℝ, D.PosSemidef ∧ (∀ v, ν * (v ⬝ᵥ v) ≤ v ⬝ᵥ D *ᵥ v) ∧ (Aᵀ * A + D) *ᵥ d = descent A R
  taylor : eucl d ≤ δ → eucl (R' - r - A *ᵥ d) ≤ M / 2 * (d ⬝ᵥ d)

section
variable {A : Matrix (Fin m) (Fin n) ℝ} {κ M δ q : ℝ} {r : Fin m → ℝ}

/-- With enough damping, the residual that a rejected step leaves behind is not large, or smaller than the one before. -/
theorem lm_shrink (hκ : 0 ≤ κ) (hM : 0 ≤ M) (hA : ∀ v, eucl (A *ᵥ v) ≤ κ * eucl v) (hq : q ≤ 1 / 2)
    {ν μ : ℝ} {R R' : Fin m → ℝ} {d : Fin n → ℝ} (h : RowStep A r δ M ν μ R d R') (hν : 0 < ν) (hνδ : 2 * (κ * eucl r) ≤ ν * δ)
    (hνK : secondOrder κ M δ (r ⬝ᵥ r) ≤ ν) (hδ : 0 ≤ δ)
    (hrej : Scal.le (fin q) (fin (R' ⬝ᵥ R' - r ⬝ᵥ r) / fin (modelCost A R d - r ⬝ᵥ r)) = false) :
    (R ⬝ᵥ R ≤ 4 * (r ⬝ᵥ r) → R' ⬝ᵥ R' ≤ 4 * (r ⬝ᵥ r)) ∧ (4 * (r ⬝ᵥ r) < R ⬝ᵥ R → R' ⬝ᵥ R' ≤ 3 / 4 * (R ⬝ᵥ R)) := by
  obtain ⟨D, hD1, hD2, hD3⟩ := h.atLeast
  have hr : √(r ⬝ᵥ r) = eucl r := rfl
  have kr := eucl_nonneg r
  have hK4 : 4 * κ ^ 2 ≤ ν := by
    refine le_trans ?_ hνK
    unfold secondOrder
    have : 0 ≤ 13 * κ * M * δ + 5 * M * √(r ⬝ᵥ r) + M ^ 2 * δ ^ 2 / 4 := by rw [hr]; positivity
    linarith
  have hKM : M * eucl r ≤ ν := by
    refine le_trans ?_ hνK
    unfold secondOrder
    have : 0 ≤ 4 * κ ^ 2 + 13 * κ * M * δ + 4 * M * √(r ⬝ᵥ r) + M ^ 2 * δ ^ 2 / 4 := by rw [hr]; positivity
    rw [hr] at this ⊢
    linarith
  have hlen := damped_length hD2 hD3
  have hbr := descent_le hκ hA R
  constructor
  · intro h4
    have hR : eucl R ≤ 2 * eucl r := by
      refine abs_le_of_sq_le_sq' ?_ (by positivity) |>.2
      rw [eucl_sq, mul_pow, eucl_sq]; linarith
    have hd1 : ν * eucl d ≤ 2 * (κ * eucl r) := by nlinarith
    have hdδ : eucl d ≤ δ := le_of_mul_le_mul_left (hd1.trans hνδ) hν
    have ht := h.taylor hdδ
    have hk1 : κ * eucl d ≤ eucl r / 2 := by
      have : ν * (κ * eucl d) ≤ ν * (eucl r / 2) := by nlinarith
      exact le_of_mul_le_mul_left this hν
    have hk2 : M / 2 * (d ⬝ᵥ d) ≤ eucl r / 2 := by
      rw [← eucl_sq]
      have kd := eucl_nonneg d
      have t1 : (ν * eucl d) ^ 2 ≤ (2 * (κ * eucl r)) ^ 2 := pow_le_pow_left₀ (by positivity) hd1 2
      have t2 : M * (ν * eucl d) ^ 2 ≤ M * (2 * (κ * eucl r)) ^ 2 := mul_le_mul_of_nonneg_left t1 hM
      have t3 : (M * eucl r) * (4 * κ ^ 2 * eucl r) ≤ ν * (ν * eucl r) :=
        mul_le_mul hKM (mul_le_mul_of_nonneg_right hK4 kr) (by positivity) hν.le
      have : ν ^ 2 * (M / 2 * eucl d ^ 2) ≤ ν ^ 2 * (eucl r / 2) := by linarith
      exact le_of_mul_le_mul_left this (by positivity)
    have hsum : eucl R' ≤ 2 * eucl r := by
      have e : R' = r + A *ᵥ d + (R' - r - A *ᵥ d) := by abel
      have s1 := eucl_add_le (r + A *ᵥ d) (R' - r - A *ᵥ d)
      rw [← e] at s1
      have s2 := eucl_add_le r (A *ᵥ d)
      have s3 := hA d
      linarith
    have := pow_le_pow_left₀ (eucl_nonneg _) hsum 2
    rw [eucl_sq, mul_pow, eucl_sq] at this
    linarith
  · intro h4
    obtain ⟨b1, b2⟩ := damped_bounds hD2 hD3
    have hdd := dot_self_nonneg d
    have hAd : eucl (A *ᵥ d) ≤ eucl R / 4 := by
      refine abs_le_of_sq_le_sq' ?_ (div_nonneg (eucl_nonneg _) (by norm_num)) |>.2
      have s1 := pow_le_pow_left₀ (eucl_nonneg _) (hA d) 2
      rw [mul_pow, eucl_sq d] at s1
      rw [div_pow, eucl_sq R]
      have : 4 * κ ^ 2 * (d ⬝ᵥ d) ≤ ν * (d ⬝ᵥ d) := mul_le_mul_of_nonneg_right hK4 hdd
      linarith
    have hpr : 3 / 4 * eucl R ≤ eucl (A *ᵥ d + R) := by
      have s1 := eucl_add_le (A *ᵥ d + R) (-(A *ᵥ d))
      rw [eucl_neg, show A *ᵥ d + R + -(A *ᵥ d) = R by abel] at s1
      linarith
    have hpr2 : 9 / 16 * (R ⬝ᵥ R) ≤ modelCost A R d := by
      have := pow_le_pow_left₀ (by have := eucl_nonneg R; positivity) hpr 2
      rw [eucl_sq, mul_pow, eucl_sq] at this
      unfold modelCost
      linarith
    have hpr3 : modelCost A R d ≤ R ⬝ᵥ R := by have := mul_nonneg (mul_nonneg zero_le_two hν.le) hdd; linarith
    have hc := dot_self_nonneg r
    have hne : 0 < modelCost A R d - r ⬝ᵥ r := by linarith
    have hrej' : ¬ Scal.le (fin q) (fin (R' ⬝ᵥ R' - r ⬝ᵥ r) / fin (modelCost A R d - r ⬝ᵥ r)) = true := by rw [hrej]; simp
    rw [accept_fin] at hrej'
    simp only [not_or, not_and, not_le] at hrej'
    have h5 := hrej'.1 hne.ne'
    rw [div_lt_iff₀ hne] at h5
    have h6 : q * (modelCost A R d - r ⬝ᵥ r) ≤ 1 / 2 * (modelCost A R d - r ⬝ᵥ r) := mul_le_mul_of_nonneg_right hq hne.le
    linarith

theorem row_crux {K τ ρ Δ β s ν Λ : ℝ} (hν : 0 < ν) (hτ : 1 ≤ τ) (m : ν * ρ = 2 * τ * s) (hΛ : 128 * τ ^ 5 * K * s ^ 2 ≤ Λ * β ^ 2)
    (l : Λ ≤ ν) (dec : β ^ 2 ≤ 4 * τ * ν * Δ) : K * (τ * ρ) ^ 2 ≤ Δ / 8 := by
  have a1 : 128 * τ ^ 5 * K * s ^ 2 ≤ ν * (4 * τ * ν * Δ) := by
    have x1 := mul_le_mul_of_nonneg_right l (sq_nonneg β)
    have x2 := mul_le_mul_of_nonneg_left dec hν.le
    linarith
  have a2 : ν ^ 2 * (K * (τ * ρ) ^ 2) = 4 * τ ^ 4 * K * s ^ 2 := by
    calc ν ^ 2 * (K * (τ * ρ) ^ 2) = K * τ ^ 2 * (ν * ρ) ^ 2 := by ring
      _ = K * τ ^ 2 * (2 * τ * s) ^ 2 := by rw [m]
      _ = _ := by ring
  have a3 : τ * (ν ^ 2 * (K * (τ * ρ) ^ 2)) ≤ τ * (ν ^ 2 * (Δ / 8)) := by
    rw [a2]; linarith
  have a4 := le_of_mul_le_mul_left a3 (by linarith)
  exact le_of_mul_le_mul_left a4 (by positivity)

theorem row_theta {τ Δ β x ν₁ ν₂ : ℝ} (hν : 0 < ν₂) (hτ : 1 ≤ τ) (hβ : 0 ≤ β) (hx : 0 ≤ x) (t : ν₂ ≤ τ * ν₁) (e : ν₁ * x ≤ 3 / 2 * β)
    (dec : β ^ 2 ≤ 4 * τ * ν₂ * Δ) : 2 * (β * x) ≤ 12 * τ ^ 2 * Δ := by
  have a1 := mul_le_mul_of_nonneg_right t hx
  have a2 : τ * (ν₁ * x) ≤ τ * (3 / 2 * β) := mul_le_mul_of_nonneg_left e (by linarith)
  have a3 : ν₂ * x ≤ 3 / 2 * τ * β := by linarith
  have a4 : β * (ν₂ * x) ≤ β * (3 / 2 * τ * β) := mul_le_mul_of_nonneg_left a3 hβ
  have a5 : τ * β ^ 2 ≤ τ * (4 * τ * ν₂ * Δ) := mul_le_mul_of_nonneg_left dec (by linarith)
  have : ν₂ * (2 * (β * x)) ≤ ν₂ * (12 * τ ^ 2 * Δ) := by linarith
  exact le_of_mul_le_mul_left this hν

/-- With enough damping, and from a residual that is not large, there are no three rejected steps in a row. -/
theorem lm_three (hκ : 0 ≤ κ) (hM : 0 ≤ M) (hA : ∀ v, eucl (A *ᵥ v) ≤ κ * eucl v) (hb : descent A r ≠ 0) {τ : ℝ} (hτ : 1 ≤ τ) (hq0 : 0 ≤ q)
    (hq : q * (2 + 12 * τ ^ 2) ≤ 7 / 8) (hδ : 0 ≤ δ) {ν₀ ν₁ ν₂ μ₀ μ₁ μ₂ : ℝ} {R₀ R₁ R₂ R₃ : Fin m → ℝ} {d₀ d₁ d₂ : Fin n → ℝ}
    (s0 : RowStep A r δ M ν₀ μ₀ R₀ d₀ R₁) (s1 : RowStep A r δ M ν₁ μ₁ R₁ d₁ R₂) (s2 : RowStep A r δ M ν₂ μ₂ R₂ d₂ R₃)
    (hν0 : 0 < ν₀) (hν1 : 0 < ν₁) (hν2 : 0 < ν₂) (t01 : ν₁ ≤ τ * ν₀) (t12 : ν₂ ≤ τ * ν₁) (t2 : κ ^ 2 + μ₂ ≤ τ * ν₂)
    {Λ : ℝ} (l0 : Λ ≤ ν₀) (l1 : Λ ≤ ν₁) (l2 : Λ ≤ ν₂) (hΛδ : 4 * τ * (κ * eucl r) ≤ Λ * δ)
    (hΛ : 128 * τ ^ 5 * secondOrder κ M δ (r ⬝ᵥ r) * (κ * eucl r) ^ 2 ≤ Λ * eucl (descent A r) ^ 2) (hR : R₀ ⬝ᵥ R₀ ≤ 4 * (r ⬝ᵥ r)) :
    Scal.le (fin q) (fin (R₃ ⬝ᵥ R₃ - r ⬝ᵥ r) / fin (modelCost A R₂ d₂ - r ⬝ᵥ r)) = true := by
  obtain ⟨K, hK⟩ : ∃ K, K = secondOrder κ M δ (r ⬝ᵥ r) := ⟨_, rfl⟩
  obtain ⟨β, hβ⟩ : ∃ β, β = eucl (descent A r) := ⟨_, rfl⟩
  obtain ⟨s, hs⟩ : ∃ s, s = κ * eucl r := ⟨_, rfl⟩
  have kr := eucl_nonneg r
  have hs0 : 0 ≤ s := by rw [hs]; positivity
  have hβ0 : 0 < β := by rw [hβ]; exact Real.sqrt_pos.2 (dot_self_pos hb)
  have hβs : β ≤ s := by rw [hβ, hs]; exact descent_le hκ hA r
  have hK0 : 0 ≤ K := by
    rw [hK]; unfold secondOrder
    have := Real.sqrt_nonneg (r ⬝ᵥ r)
    positivity
  rw [← hK, ← hβ, ← hs] at hΛ
  rw [← hs] at hΛδ
  have hτ5 : 1 ≤ τ ^ 5 := one_le_pow₀ hτ
  -- the damping outweighs the second-order terms
  have big : ∀ ν, Λ ≤ ν → 4 * K * s ≤ ν * β := by
    intro ν hν
    have a1 : 128 * K * s ^ 2 ≤ ν * β ^ 2 := by
      have := mul_nonneg hK0 (sq_nonneg s)
      have := mul_le_mul_of_nonneg_right hτ5 this
      have := mul_le_mul_of_nonneg_right hν (sq_nonneg β)
      linarith
    have a2 : 128 * K * s * β ≤ 128 * K * s * s := mul_le_mul_of_nonneg_left hβs (by positivity)
    have a3 : β * (128 * K * s) ≤ β * (ν * β) := by linarith
    have a4 := le_of_mul_le_mul_left a3 hβ0
    have : 0 ≤ K * s := by positivity
    linarith
  have short : ∀ ν x, 0 < ν → Λ ≤ ν → ν * x ≤ 4 * τ * s → x ≤ δ := by
    intro ν x hν hl hx
    have : ν * x ≤ ν * δ := hx.trans (hΛδ.trans (mul_le_mul_of_nonneg_right hl hδ))
    exact le_of_mul_le_mul_left this hν
  have hsτ : s ≤ τ * s := le_mul_of_one_le_left hs0 hτ
  -- the gradient of the residual left behind by a short step
  have grad : ∀ ν (e : Fin n → ℝ) (R : Fin m → ℝ), 0 < ν → Λ ≤ ν → ν * eucl e ≤ 2 * s →
      (eucl e ≤ δ → eucl (R - r - A *ᵥ e) ≤ M / 2 * (e ⬝ᵥ e)) → β / 2 ≤ eucl (descent A R) ∧ eucl (descent A R) ≤ 3 / 2 * β := by
    intro ν e R hν hl he ht
    have hδe := short ν _ hν hl (he.trans (by linarith only [hsτ, hs0]))
    have g1 := stale_gradient hκ hM hA hδe (ht hδe)
    rw [← hK] at g1
    have g2 : K * eucl e ≤ β / 2 := by
      have a1 := big ν hl
      have a2 := mul_le_mul_of_nonneg_left he hK0
      have : ν * (K * eucl e) ≤ ν * (β / 2) := by linarith only [a1, a2]
      exact le_of_mul_le_mul_left this hν
    have g3 := eucl_add_le (descent A R) (-(descent A R - descent A r))
    rw [eucl_neg, show descent A R + -(descent A R - descent A r) = descent A r by abel, ← hβ] at g3
    have g4 := eucl_add_le (descent A r) (descent A R - descent A r)
    rw [show descent A r + (descent A R - descent A r) = descent A R by abel, ← hβ] at g4
    exact ⟨by linarith only [g1, g2, g3], by linarith only [g1, g2, g4]⟩
  -- first step
  obtain ⟨D0, -, p02, p03⟩ := s0.atLeast
  have len0 := damped_length p02 p03
  have hR0 : eucl R₀ ≤ 2 * eucl r := by
    refine abs_le_of_sq_le_sq' ?_ (by positivity) |>.2
    rw [eucl_sq, mul_pow, eucl_sq]; linarith
  have e0 : ν₀ * eucl d₀ ≤ 2 * s := by
    rw [hs]
    have a1 := descent_le hκ hA R₀
    have a2 := mul_le_mul_of_nonneg_left hR0 hκ
    linarith only [a1, a2, len0]
  obtain ⟨b1l, b1u⟩ := grad ν₀ d₀ R₁ hν0 l0 e0 s0.taylor
  -- second step
  obtain ⟨D1, -, p12, p13⟩ := s1.atLeast
  have len1 := damped_length p12 p13
  have e1' : ν₁ * eucl d₁ ≤ 3 / 2 * β := len1.trans b1u
  have e1 : ν₁ * eucl d₁ ≤ 2 * s := by linarith only [e1', hβs, hs0]
  obtain ⟨b2l, b2u⟩ := grad ν₁ d₁ R₂ hν1 l1 e1 s1.taylor
  -- third step
  obtain ⟨D2, -, p22, p23⟩ := s2.atLeast
  have len2 := damped_length p22 p23
  have e2 : ν₂ * eucl d₂ ≤ 2 * s := by linarith only [len2, b2u, hβs, hs0]
  have δ0 := short ν₀ _ hν0 l0 (e0.trans (by linarith only [hsτ, hs0]))
  have δ1 := short ν₁ _ hν1 l1 (e1.trans (by linarith only [hsτ, hs0]))
  have δ2 := short ν₂ _ hν2 l2 (e2.trans (by linarith only [hsτ, hs0]))
  obtain ⟨ρ₁, hρ1⟩ : ∃ ρ₁, ρ₁ = 2 * τ * s / ν₁ := ⟨_, rfl⟩
  obtain ⟨ρ₂, hρ2⟩ : ∃ ρ₂, ρ₂ = 2 * τ * s / ν₂ := ⟨_, rfl⟩
  have m1 : ν₁ * ρ₁ = 2 * τ * s := by rw [hρ1]; field_simp
  have m2 : ν₂ * ρ₂ = 2 * τ * s := by rw [hρ2]; field_simp
  have q1 : 0 ≤ ρ₁ := by rw [hρ1]; positivity
  have q2 : 0 ≤ ρ₂ := by rw [hρ2]; positivity
  have lt1 : eucl d₁ ≤ ρ₁ := by
    have : ν₁ * eucl d₁ ≤ ν₁ * ρ₁ := by rw [m1]; linarith only [e1, hsτ]
    exact le_of_mul_le_mul_left this hν1
  have lt0 : eucl d₀ ≤ 2 * ρ₁ := by
    have kd := eucl_nonneg d₀
    have : ν₁ * eucl d₀ ≤ ν₁ * ρ₁ := by
      rw [m1]
      have a1 := mul_le_mul_of_nonneg_right t01 kd
      have a2 : τ * (ν₀ * eucl d₀) ≤ τ * (2 * s) := mul_le_mul_of_nonneg_left e0 (zero_le_one.trans hτ)
      linarith only [a1, a2]
    have := le_of_mul_le_mul_left this hν1
    linarith only [this, q1]
  have lt2 : eucl d₂ ≤ ρ₂ := by
    have : ν₂ * eucl d₂ ≤ ν₂ * ρ₂ := by rw [m2]; linarith only [e2, hsτ]
    exact le_of_mul_le_mul_left this hν2
  have lt1' : eucl d₁ ≤ 2 * ρ₂ := by
    have kd := eucl_nonneg d₁
    have : ν₂ * eucl d₁ ≤ ν₂ * ρ₂ := by
      rw [m2]
      have a1 := mul_le_mul_of_nonneg_right t12 kd
      have a2 : τ * (ν₁ * eucl d₁) ≤ τ * (2 * s) := mul_le_mul_of_nonneg_left e1 (zero_le_one.trans hτ)
      linarith only [a1, a2]
    have := le_of_mul_le_mul_left this hν2
    linarith only [this, q2]
  have hρδ1 : 2 * ρ₁ ≤ δ := short ν₁ _ hν1 l1 (by linarith only [m1])
  have hρδ2 : 2 * ρ₂ ≤ δ := short ν₂ _ hν2 l2 (by linarith only [m2])
  have hρ12 : ρ₁ ≤ τ * ρ₂ := by
    have : ν₁ * ρ₁ ≤ ν₁ * (τ * ρ₂) := by
      have := mul_le_mul_of_nonneg_right t12 q2
      linarith only [this, m1, m2]
    exact le_of_mul_le_mul_left this hν1
  -- cost after the second step
  have nn1 : 0 ≤ R₁ ⬝ᵥ R₁ - modelCost A R₁ d₁ := by
    have a1 := (damped_bounds p12 p13).1
    have a2 := mul_nonneg (mul_nonneg zero_le_two hν1.le) (dot_self_nonneg d₁)
    linarith only [a1, a2]
  have hcost2 := stale_cost hκ hM hA lt0 lt1 hρδ1 (s0.taylor δ0) (s1.taylor δ1)
  rw [← hK] at hcost2
  -- predicted decrease of the third step
  obtain ⟨E2, hF1, hF2, hF3⟩ := s2.solves
  have dec2 := damped_decrease hF1 (κ := κ ^ 2) (fun v => by
    have := pow_le_pow_left₀ (eucl_nonneg _) (hA v) 2
    rwa [mul_pow, eucl_sq, eucl_sq] at this) hF2 hF3
  obtain ⟨Δ, hΔ⟩ : ∃ Δ, Δ = R₂ ⬝ᵥ R₂ - modelCost A R₂ d₂ := ⟨_, rfl⟩
  rw [← hΔ, ← eucl_sq] at dec2
  have nn2 : 0 ≤ Δ := by
    have a1 := (damped_bounds p22 p23).1
    have a2 := mul_nonneg (mul_nonneg zero_le_two hν2.le) (dot_self_nonneg d₂)
    rw [hΔ]
    linarith only [a1, a2]
  have dec3 : β ^ 2 ≤ 4 * τ * ν₂ * Δ := by
    have a1 := pow_le_pow_left₀ (by positivity) b2l 2
    have a2 := mul_le_mul_of_nonneg_right t2 nn2
    have a3 : (β / 2) ^ 2 = β ^ 2 / 4 := by ring
    linarith only [a1, a2, a3, dec2]
  have hpos : 0 < Δ := by
    rcases nn2.eq_or_lt with h0 | h0
    · rw [← h0, mul_zero] at dec3
      have := pow_pos hβ0 2
      linarith only [this, dec3]
    · exact h0
  have hcrux := row_crux hν2 hτ m2 hΛ l2 dec3
  have hρτ : ρ₂ ≤ τ * ρ₂ := le_mul_of_one_le_left q2 hτ
  have x1 : K * ρ₁ ^ 2 ≤ Δ / 2 := by
    have := mul_le_mul_of_nonneg_left (pow_le_pow_left₀ q1 hρ12 2) hK0
    linarith only [this, hcrux, nn2]
  have x2 : K * ρ₂ ^ 2 ≤ Δ / 8 := by
    have := mul_le_mul_of_nonneg_left (pow_le_pow_left₀ q2 hρτ 2) hK0
    linarith only [this, hcrux]
  have x3 : 2 * (β * eucl d₁) ≤ 12 * τ ^ 2 * Δ := row_theta hν2 hτ hβ0.le (eucl_nonneg d₁) t12 e1' dec3
  exact stale_accepts hκ hM hA lt1' lt2 hρδ2 (s1.taylor δ1) (s2.taylor δ2) (X := K * ρ₁ ^ 2) (θ := 12 * τ ^ 2) hΔ hpos
    (by linarith only [hcost2, nn1]) x1
    (by rw [← hK]; exact x2) (by rw [← hβ]; exact x3) hq0 hq

/-- Bound on rows of rejected steps with enough damping. -/
theorem lm_row (hκ : 0 ≤ κ) (hM : 0 ≤ M) (hA : ∀ v, eucl (A *ᵥ v) ≤ κ * eucl v) (hb : descent A r ≠ 0) {τ : ℝ} (hτ : 1 ≤ τ) (hq0 : 0 ≤ q)
    (hq : q * (2 + 12 * τ ^ 2) ≤ 7 / 8) (hδ : 0 ≤ δ) {k : Nat} {R : Nat → Fin m → ℝ} {d : Nat → Fin n → ℝ} {ν μ : Nat → ℝ}
    (hs : ∀ j < k, RowStep A r δ M (ν j) (μ j) (R j) (d j) (R (j + 1))) (hν : ∀ j < k, 0 < ν j)
    (ht : ∀ j < k, κ ^ 2 + μ j ≤ τ * ν j) (ht' : ∀ j, j + 1 < k → ν (j + 1) ≤ τ * ν j)
    {Λ : ℝ} (hl : ∀ j < k, Λ ≤ ν j) (hΛδ : 4 * τ * (κ * eucl r) ≤ Λ * δ)
    (hΛ : 128 * τ ^ 5 * secondOrder κ M δ (r ⬝ᵥ r) * (κ * eucl r) ^ 2 ≤ Λ * eucl (descent A r) ^ 2)
    (hrej : ∀ j < k, Scal.le (fin q) (fin (R (j + 1) ⬝ᵥ R (j + 1) - r ⬝ᵥ r) / fin (modelCost A (R j) (d j) - r ⬝ᵥ r)) = false)
    {N : Nat} (hN : (3 / 4) ^ N * (R 0 ⬝ᵥ R 0) ≤ 4 * (r ⬝ᵥ r)) : k ≤ N + 2 := by
  by_contra hcon
  have hk : N + 2 < k := by omega
  have kr := eucl_nonneg r
  have hβ0 : 0 < eucl (descent A r) := Real.sqrt_pos.2 (dot_self_pos hb)
  have hβs : eucl (descent A r) ≤ κ * eucl r := descent_le hκ hA r
  have hK0 : 0 ≤ secondOrder κ M δ (r ⬝ᵥ r) := by
    unfold secondOrder
    have := Real.sqrt_nonneg (r ⬝ᵥ r)
    positivity
  have hΛK : secondOrder κ M δ (r ⬝ᵥ r) ≤ Λ := by
    have hτ5 : 1 ≤ τ ^ 5 := one_le_pow₀ hτ
    have a1 := pow_le_pow_left₀ hβ0.le hβs 2
    have a2 := mul_le_mul_of_nonneg_left a1 hK0
    have a3 := mul_le_mul_of_nonneg_right hτ5 (mul_nonneg hK0 (sq_nonneg (κ * eucl r)))
    have a4 : 0 ≤ secondOrder κ M δ (r ⬝ᵥ r) * (κ * eucl r) ^ 2 := mul_nonneg hK0 (sq_nonneg _)
    have : eucl (descent A r) ^ 2 * secondOrder κ M δ (r ⬝ᵥ r) ≤ eucl (descent A r) ^ 2 * Λ := by linarith
    exact le_of_mul_le_mul_left this (by positivity)
  have hq2 : q ≤ 1 / 2 := by
    have := one_le_pow₀ hτ (n := 2)
    nlinarith
  have hrow : ∀ j ≤ k, R j ⬝ᵥ R j ≤ max (4 * (r ⬝ᵥ r)) ((3 / 4) ^ j * (R 0 ⬝ᵥ R 0)) := by
    intro j
    induction j with
    | zero => intro _; rw [pow_zero, one_mul]; exact le_max_right _ _
    | succ j ih =>
      intro hj
      have hj' : j < k := hj
      have ih := ih hj'.le
      have hsδ : 2 * (κ * eucl r) ≤ ν j * δ := by
        have a1 := mul_le_mul_of_nonneg_right (hl j hj') hδ
        have a2 : 0 ≤ κ * eucl r := by positivity
        nlinarith
      obtain ⟨z1, z2⟩ := lm_shrink hκ hM hA hq2 (hs j hj') (hν j hj') hsδ (hΛK.trans (hl j hj')) hδ (hrej j hj')
      rcases le_or_gt (R j ⬝ᵥ R j) (4 * (r ⬝ᵥ r)) with hc | hc
      · exact (z1 hc).trans (le_max_left _ _)
      · refine (z2 hc).trans ?_
        rcases le_max_iff.1 ih with h | h
        · exact absurd h (not_le.2 hc)
        · refine le_max_of_le_right ?_
          rw [pow_succ']
          linarith
  have hRN : R N ⬝ᵥ R N ≤ 4 * (r ⬝ᵥ r) := (hrow N (by omega)).trans (max_le le_rfl hN)
  have h := lm_three hκ hM hA hb hτ hq0 hq hδ (hs N (by omega)) (hs (N + 1) (by omega)) (hs (N + 2) hk) (hν N (by omega))
    (hν (N + 1) (by omega)) (hν (N + 2) hk) (ht' N (by omega)) (ht' (N + 1) (by omega)) (ht (N + 2) hk)
    (hl N (by omega)) (hl (N + 1) (by omega)) (hl (N + 2) hk) hΛδ hΛ hRN
  rw [hrej (N + 2) hk] at h
  cases h

end

end Jaxfg
