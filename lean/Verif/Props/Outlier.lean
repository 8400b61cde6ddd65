/- C84: the influence of an outlier on the solution, with and without a Huber wrapper. -/
import Verif.Lemmas.Outlier
import Verif.Lemmas.ExamplePoly

namespace Jaxfg.Props
open Spec
open Ext (fin)

/-- `_compute_pose_error_with_outlier` of tests/test_huber.py, with `n` measurements at the origin, the outlier at `(x, y)` and the
threshold `delta`: the graph is made, Gauss-Newton with CHOLMOD, whatever its settings, returns a solution, the assertions on it hold, and
graph, solution and error satisfy `Q`. `cache i` is what the solver object has kept before iteration `i`: nothing for this address, or the
analysis of the Jacobian of this graph. -/
def TestReturns (next n : Nat) (x y : ℝ) (delta : Option ℝ) (Q : Graph → Assign ℝ → ℝ → Prop) : Prop :=
  ∃ g a, outlierProblem next n x y delta = .ok (g, a) ∧
    ∀ (stale : Pattern → ScipyCoo ℝ → ℝ → List ℝ → Py (List ℝ)) (cache : Nat → CholmodCache) (addr : Nat) CE gE sE (s : GaussNewton ℝ),
      (∀ i p, (cache i).get? addr = some p → p = ((g.localLayout.dim, g.residualDim), (g.jacobianCoords.map Prod.swap).toFinset)) →
      Lifts CE gE g2oClasses (g.ops g2oFactors g2oClasses) → LiftsGN sE s →
      (s.linear = fun A b l i => (cholmodSolve stale (cache i) addr A b l).1) →
      ∃ o e log, (∀ fuel : Nat, max 1 s.maxIterations ≤ fuel → sE.solve CE gE fuel (a.map fin) = .ok (some (o.map fin, log))) ∧
        outlierError next o = .ok e ∧ Q g o e

/-- Where the solution is. -/
theorem testReturns_good (next n : Nat) (x y : ℝ) {delta : Option ℝ} (h : Outlier.Ok delta) : TestReturns next n x y delta fun g o e =>
    Graph.make g2oClasses (outlierFactors (Outlier.var next) n x y delta) = .ok g ∧
    ∃ u k, Outlier.Good n (norm2 [x, y, 0]) delta k u ∧ 0 < k ∧ o = Outlier.at_ next (u * x) (u * y) ∧ e = u * norm2 [x, y, 0] := by
  obtain ⟨g, h1, h2, h3, h4⟩ := Outlier.problem_ok next n x y h
  refine ⟨g, _, h1, fun stale cache addr CE gE sE s hc hL hs hlin => ?_⟩
  obtain ⟨u, k, log, hu, hk, hsolve⟩ := Outlier.gn_solve h h2 h3 h4 hc hL hs hlin
  refine ⟨_, _, log, hsolve, Outlier.error_eq next _ _, h2, u, k, hu, hk, rfl, ?_⟩
  exact Outlier.norm_flat x y u hu.1

theorem TestReturns.mono {next n : Nat} {x y : ℝ} {delta : Option ℝ} {Q Q' : Graph → Assign ℝ → ℝ → Prop}
    (h : TestReturns next n x y delta Q) (hQ : ∀ g o e, Q g o e → Q' g o e) : TestReturns next n x y delta Q' := by
  obtain ⟨g, a, h1, h2⟩ := h
  refine ⟨g, a, h1, fun stale cache addr CE gE sE s hc hL hs hlin => ?_⟩
  obtain ⟨o, e, log, k1, k2, k3⟩ := h2 stale cache addr CE gE sE s hc hL hs hlin
  exact ⟨o, e, log, k1, k2, hQ _ _ _ k3⟩

theorem norm_xy (x y : ℝ) : norm2 [x, y, 0] = Real.sqrt (x ^ 2 + y ^ 2) := by simp [norm2]

/-- **C84, without a Huber wrapper.** Whatever the settings, the error that the outlier causes is its distance divided by `n + 1`, up to
the relative accuracy of CHOLMOD: the outlier counts as much as every other measurement. -/
theorem C84_gaussian (next n : Nat) (x y : ℝ) : TestReturns next n x y none fun _ _ e =>
    Real.sqrt (x ^ 2 + y ^ 2) / (n + 1 + 1 / 100000) ≤ e ∧ e ≤ Real.sqrt (x ^ 2 + y ^ 2) / (n + 1) := by
  refine (testReturns_good next n x y (fun d h => by cases h)).mono fun g o e hgood => ?_
  obtain ⟨-, u, k, ⟨h0, h1, h2, -, h3⟩, hk, ho, he⟩ := hgood
  have h3 := h3 hk
  simp only [Outlier.phi, Outlier.scale, one_mul] at h2 h3
  rw [he, norm_xy]
  have ht := Real.sqrt_nonneg (x ^ 2 + y ^ 2)
  constructor
  · rw [div_le_iff₀ (by positivity)]
    nlinarith
  · rw [le_div_iff₀ (by positivity)]
    nlinarith

/-- **C84, a measurement within the threshold.** A measurement closer than the threshold counts as without the wrapper. -/
theorem C84_inlier (next n : Nat) (x y δ : ℝ) (hδ : 0 < δ) (ht : Real.sqrt (x ^ 2 + y ^ 2) < δ) :
    TestReturns next n x y (some δ) fun _ _ e =>
      Real.sqrt (x ^ 2 + y ^ 2) / (n + 1 + 1 / 100000) ≤ e ∧ e ≤ Real.sqrt (x ^ 2 + y ^ 2) / (n + 1) := by
  refine (testReturns_good next n x y (fun d h => by cases h; exact hδ)).mono fun g o e hgood => ?_
  obtain ⟨-, u, k, ⟨h0, h1, h2, -, h3⟩, hk, ho, he⟩ := hgood
  have h3 := h3 hk
  rw [norm_xy] at h2 h3 he
  have ht0 := Real.sqrt_nonneg (x ^ 2 + y ^ 2)
  have hU : (1 - u) * Real.sqrt (x ^ 2 + y ^ 2) < δ := by nlinarith
  simp only [Outlier.phi, Outlier.scale, slope, huberWeight, if_pos ht, if_pos hU, one_mul] at h2 h3
  rw [he]
  constructor
  · rw [div_le_iff₀ (by positivity)]
    nlinarith
  · rw [le_div_iff₀ (by positivity)]
    nlinarith

theorem slope_mul {δ t : ℝ} (hδ : 0 < δ) (ht : δ ≤ t) : slope δ t * t = δ ^ (3 / 4 : ℝ) * t ^ (1 / 4 : ℝ) := by
  have htp : 0 < t := lt_of_lt_of_le hδ ht
  rw [slope, if_neg (not_lt.2 ht), Real.div_rpow hδ.le htp.le, div_mul_eq_mul_div, div_eq_iff (by positivity), mul_assoc,
    ← Real.rpow_add htp]
  norm_num

theorem slope_mul_le {δ U t : ℝ} (hδ : 0 < δ) (hU : U ≤ t) (ht : δ ≤ t) : slope δ U * U ≤ δ ^ (3 / 4 : ℝ) * t ^ (1 / 4 : ℝ) := by
  have htp : 0 < t := lt_of_lt_of_le hδ ht
  by_cases h : δ ≤ U
  · rw [slope_mul hδ h]
    exact mul_le_mul_of_nonneg_left (Real.rpow_le_rpow (by linarith) hU (by norm_num)) (by positivity)
  · rw [slope, if_pos (not_le.1 h), one_mul]
    have e : δ = δ ^ (3 / 4 : ℝ) * δ ^ (1 / 4 : ℝ) := by rw [← Real.rpow_add hδ]; norm_num
    have h1 : δ ^ (3 / 4 : ℝ) * δ ^ (1 / 4 : ℝ) ≤ δ ^ (3 / 4 : ℝ) * t ^ (1 / 4 : ℝ) :=
      mul_le_mul_of_nonneg_left (Real.rpow_le_rpow hδ.le ht (by norm_num)) (by positivity)
    linarith [not_le.1 h]

/-- Where the solution is, with a Huber wrapper. -/
theorem huber_full (next n : Nat) (x y δ : ℝ) (hδ : 0 < δ) (ht : δ ≤ Real.sqrt (x ^ 2 + y ^ 2)) :
    TestReturns next n x y (some δ) fun g o e =>
      (Graph.make g2oClasses (outlierFactors (Outlier.var next) n x y (some δ)) = .ok g ∧
        ∃ u, 0 ≤ u ∧ u ≤ 1 ∧ o = Outlier.at_ next (u * x) (u * y) ∧ e = u * Real.sqrt (x ^ 2 + y ^ 2)) ∧
      n * e ≤ δ ^ (3 / 4 : ℝ) * Real.sqrt (x ^ 2 + y ^ 2) ^ (1 / 4 : ℝ) ∧
      δ ^ (3 / 4 : ℝ) * Real.sqrt (x ^ 2 + y ^ 2) ^ (1 / 4 : ℝ) ≤ (n + Real.sqrt (δ / Real.sqrt (x ^ 2 + y ^ 2)) + 1 / 100000) * e := by
  refine (testReturns_good next n x y (fun d h => by cases h; exact hδ)).mono fun g o e hgood => ?_
  obtain ⟨hg, u, k, ⟨h0, h1, h2, -, h3⟩, hk, ho, he⟩ := hgood
  have h3 := h3 hk
  rw [norm_xy] at h2 h3 he
  refine ⟨⟨hg, u, h0, h1, ho, he⟩, ?_⟩
  clear hg ho
  revert ht h2 he h3
  obtain ⟨t, htt⟩ : ∃ t, t = Real.sqrt (x ^ 2 + y ^ 2) := ⟨_, rfl⟩
  rw [← htt]
  intro ht h2 he h3
  have htp : 0 < t := lt_of_lt_of_le hδ ht
  simp only [Outlier.phi, Outlier.scale] at h2 h3
  constructor
  · have h4 := slope_mul_le (U := (1 - u) * t) hδ (by nlinarith) ht
    have h5 := mul_le_mul_of_nonneg_right h2 htp.le
    rw [he]
    nlinarith
  · rw [← slope_mul hδ ht, he]
    have h5 := mul_le_mul_of_nonneg_right h3 htp.le
    rw [huberWeight, if_neg (not_lt.2 ht)] at h5
    linarith

/-- **C84, with a Huber wrapper.** Let the outlier be at distance `t ≥ δ`. Whatever the settings, the error `e` that it causes satisfies
`n e ≤ δ^(3/4) t^(1/4) ≤ (n + √(δ/t) + 1e-5) e`: it grows with the fourth root of the distance. -/
theorem C84_huber (next n : Nat) (x y δ : ℝ) (hδ : 0 < δ) (ht : δ ≤ Real.sqrt (x ^ 2 + y ^ 2)) :
    TestReturns next n x y (some δ) fun _ _ e =>
      let t := Real.sqrt (x ^ 2 + y ^ 2)
      n * e ≤ δ ^ (3 / 4 : ℝ) * t ^ (1 / 4 : ℝ) ∧ δ ^ (3 / 4 : ℝ) * t ^ (1 / 4 : ℝ) ≤ (n + Real.sqrt (δ / t) + 1 / 100000) * e :=
  (huber_full next n x y δ hδ ht).mono fun _ _ _ h => h.2

/-- **C84, the test.** With two measurements at the origin and threshold 1, `test_huber` passes for every outlier at a distance of at least
800: the error with the Huber wrapper is less than one hundredth of the error without. -/
theorem C84_test (next next' : Nat) (x y : ℝ) (ht : 800 ≤ Real.sqrt (x ^ 2 + y ^ 2)) :
    ∃ B, TestReturns next 2 x y (some 1) (fun _ _ e => e < B) ∧ TestReturns next' 2 x y none fun _ _ e => B ≤ e / 100 := by
  obtain ⟨t, htt⟩ : ∃ t, t = Real.sqrt (x ^ 2 + y ^ 2) := ⟨_, rfl⟩
  refine ⟨t / (2 + 1 + 1 / 100000) / 100, ?_, ?_⟩
  · refine (C84_huber next 2 x y 1 one_pos (by linarith)).mono fun _ _ e he => ?_
    obtain ⟨h1, -⟩ := he
    rw [← htt] at h1 ht
    simp only [Real.one_rpow, one_mul, Nat.cast_ofNat] at h1
    -- the fourth root
    obtain ⟨z, hz⟩ : ∃ z, z = t ^ (1 / 4 : ℝ) := ⟨_, rfl⟩
    have hz0 : 0 ≤ z := by rw [hz]; positivity
    have hz4 : z ^ 4 = t := by
      rw [hz, ← Real.rpow_natCast, ← Real.rpow_mul (by linarith)]
      norm_num
    rw [← hz] at h1
    have hz5 : (5318 / 1000 : ℝ) < z := by
      by_contra hle
      have := pow_le_pow_left₀ hz0 (not_lt.1 hle) 4
      rw [hz4] at this
      norm_num at this
      linarith
    rw [← hz4]
    have : 150.3 * z < z ^ 4 := by
      have h3 : (5318 / 1000 : ℝ) ^ 3 < z ^ 3 := pow_lt_pow_left₀ hz5 (by norm_num) (by norm_num)
      norm_num at h3
      nlinarith
    rw [lt_div_iff₀ (by norm_num), lt_div_iff₀ (by norm_num)]
    norm_num at *
    nlinarith
  · refine (C84_gaussian next' 2 x y).mono fun _ _ e he => ?_
    rw [← htt] at he
    have := he.1
    push_cast at this
    linarith

/-- The bound of `C84_huber` tends to infinity. -/
theorem fourth_root_unbounded (n : Nat) (δ B : ℝ) (hδ : 0 < δ) : ∃ t₀, δ ≤ t₀ ∧ ∀ t e : ℝ, t₀ ≤ t →
    δ ^ (3 / 4 : ℝ) * t ^ (1 / 4 : ℝ) ≤ (n + Real.sqrt (δ / t) + 1 / 100000) * e → B < e := by
  obtain ⟨K, hK⟩ : ∃ K, K = (n + 2) * (|B| + 1) / δ ^ (3 / 4 : ℝ) := ⟨_, rfl⟩
  have hδp : 0 < δ ^ (3 / 4 : ℝ) := by positivity
  have hK0 : 0 ≤ K := by rw [hK]; positivity
  refine ⟨max δ (K ^ 4), le_max_left _ _, fun t e ht h2 => ?_⟩
  have htδ : δ ≤ t := (le_max_left _ _).trans ht
  have htp : 0 < t := lt_of_lt_of_le hδ htδ
  have h3 : K ≤ t ^ (1 / 4 : ℝ) := by
    have := Real.rpow_le_rpow (by positivity) ((le_max_right _ _).trans ht) (by norm_num : (0 : ℝ) ≤ 1 / 4)
    rwa [← Real.rpow_natCast, ← Real.rpow_mul hK0, show ((4 : ℕ) : ℝ) * (1 / 4) = 1 by norm_num, Real.rpow_one] at this
  have h4 : (n + 2) * (|B| + 1) ≤ δ ^ (3 / 4 : ℝ) * t ^ (1 / 4 : ℝ) := by
    have := mul_le_mul_of_nonneg_left h3 hδp.le
    rwa [hK, mul_div_cancel₀ _ hδp.ne'] at this
  have h5 : Real.sqrt (δ / t) ≤ 1 := Real.sqrt_le_one.2 ((div_le_one htp).2 htδ)
  have h6 := Real.sqrt_nonneg (δ / t)
  have hn : (0 : ℝ) ≤ n := Nat.cast_nonneg n
  have hB := le_abs_self B
  have hB' := abs_nonneg B
  by_contra hle
  have h7 : (n + Real.sqrt (δ / t) + 1 / 100000) * e ≤ (n + Real.sqrt (δ / t) + 1 / 100000) * |B| :=
    mul_le_mul_of_nonneg_left ((not_lt.1 hle).trans hB) (by positivity)
  have h8 : (n + Real.sqrt (δ / t) + 1 / 100000) * |B| ≤ (n + 2) * |B| := mul_le_mul_of_nonneg_right (by linarith) hB'
  nlinarith

/-- **C84, no bound.** For every threshold, every number of measurements at the origin and every bound, all outliers that are far enough
away cause an error above the bound, in spite of the Huber wrapper. -/
theorem C84_unbounded (next n : Nat) (δ B : ℝ) (hδ : 0 < δ) : ∃ t₀, ∀ x y : ℝ, t₀ ≤ Real.sqrt (x ^ 2 + y ^ 2) →
    TestReturns next n x y (some δ) fun _ _ e => B < e := by
  obtain ⟨t₀, h0, h1⟩ := fourth_root_unbounded n δ B hδ
  exact ⟨t₀, fun x y ht => (C84_huber next n x y δ hδ (h0.trans ht)).mono fun _ _ e he => h1 _ _ ht he.2⟩

/-! ### The objective -/

/-- What a measurement with threshold `δ` adds to the cost, at distance `r`. -/
noncomputable def codedLoss (δ r : ℝ) : ℝ := if r < δ then r ^ 2 else δ * r

theorem scale_loss {δ r : ℝ} (hδ : 0 < δ) : (huberWeight δ r * r) ^ 2 = codedLoss δ r := by
  unfold huberWeight codedLoss
  split_ifs with h
  · rw [one_mul]
  · have hr : 0 < r := lt_of_lt_of_le hδ (not_lt.1 h)
    rw [mul_pow, Real.sq_sqrt (by positivity)]
    field_simp

theorem codedLoss_mono {δ r r' : ℝ} (hδ : 0 < δ) (hr : 0 ≤ r) (h : r ≤ r') : codedLoss δ r ≤ codedLoss δ r' := by
  unfold codedLoss
  split_ifs with h1 h2 h2 <;> nlinarith

/-- The scalar problem. -/
theorem scalar_min {δ t s r m : ℝ} (hδ : 0 < δ) (hm : 1 ≤ m) (ht : 3 * δ ≤ t) (hs : 0 ≤ s) (hr : t - s ≤ r) :
    δ * t - δ ^ 2 / (4 * m) ≤ m * s ^ 2 + codedLoss δ r ∧
    (m * s ^ 2 + codedLoss δ r = δ * t - δ ^ 2 / (4 * m) → s = δ / (2 * m) ∧ r = t - s) := by
  have hm0 : 0 < m := by linarith
  have hd : 0 < δ ^ 2 / (4 * m) := by positivity
  have e : m * (s - δ / (2 * m)) ^ 2 = m * s ^ 2 - δ * s + δ ^ 2 / (4 * m) := by field_simp; ring
  have hsq : 0 ≤ m * (s - δ / (2 * m)) ^ 2 := by positivity
  by_cases h : r < δ
  · have h1 : codedLoss δ r = r ^ 2 := if_pos h
    have h2 : t - δ < s := by linarith
    have h3 : δ * t < m * s ^ 2 := by nlinarith
    rw [h1]
    constructor
    · nlinarith
    · intro h4; nlinarith
  · have h1 : codedLoss δ r = δ * r := if_neg h
    rw [h1]
    constructor
    · nlinarith
    · intro h4
      have h5 : δ * (t - s) ≤ δ * r := mul_le_mul_of_nonneg_left hr hδ.le
      have h6 : m * (s - δ / (2 * m)) ^ 2 = 0 := by nlinarith
      have h7 : s - δ / (2 * m) = 0 := by
        rcases mul_eq_zero.1 h6 with h | h
        · linarith
        · exact pow_eq_zero_iff (two_ne_zero) |>.1 h
      have h8 : δ * r = δ * (t - s) := by nlinarith
      exact ⟨by linarith, mul_left_cancel₀ hδ.ne' h8⟩

/-- The cost at any pose. -/
theorem cost_pose (next n : Nat) (x y δ : ℝ) (hδ : 0 < δ) {g : Graph}
    (hg : Graph.make g2oClasses (outlierFactors (Outlier.var next) n x y (some δ)) = .ok g) {b : Assign ℝ}
    (hb : IsAssignmentOf g2oClasses [⟨se2Ty, next⟩] b) (hl : b.layout.localFlag = false) {p q θ : ℝ}
    (hv : b.getValue g2oClasses ⟨se2Ty, next⟩ = .ok (se2Value p q θ)) :
    ∃ r, g.computeCost g2oFactors g2oClasses b = .ok (n * sqNorm (LieGroup.se2Log [Real.cos θ, -Real.sin θ,
        -(Real.cos θ * p + Real.sin θ * q), Real.sin θ * p - Real.cos θ * q]) +
      codedLoss δ (norm2 (LieGroup.se2Log [Real.cos θ, -Real.sin θ,
        Real.cos θ * (x - p) + Real.sin θ * (y - q), -Real.sin θ * (x - p) + Real.cos θ * (y - q)])), r) := by
  have hC : GoodClasses g2oClasses := lie_goodClasses g2oClasses_eq
  have hok : Outlier.Ok (some δ) := fun d h => by cases h; exact hδ
  have hnone : Outlier.Ok none := fun d h => by cases h
  have hne : outlierFactors (Outlier.var next) n x y (some δ) ≠ [] := by rw [Outlier.factors_eq]; simp
  have hwf : ∀ f ∈ outlierFactors (Outlier.var next) n x y (some δ), FactorWF g2oFactors g2oClasses f := by
    intro f hf
    obtain ⟨x', y', d, rfl, hd⟩ := Outlier.mem_factors hf
    refine (Outlier.prior_ok rfl ?_).1
    rcases hd with rfl | rfl
    · exact hnone
    · exact hok
  obtain ⟨g', hg', hG⟩ := graph_ok (F := g2oFactors) hwf hne
  obtain rfl : g' = g := Except.ok.inj (hg'.symm.trans hg)
  have hH : Holds g2oClasses (outlierFactors (Outlier.var next) n x y (some δ)) [⟨se2Ty, next⟩] (fun _ => se2Value p q θ) b :=
    ⟨hb, hl, (Outlier.holds next n x y (some δ) 0 0).sameVars, fun v h => by
      obtain rfl := List.mem_singleton.1 h
      exact hv⟩
  have hres : ∀ (x y : ℝ) N, (g2oFactors (Outlier.prior (Outlier.var next) x y N).cls).residual (Outlier.prior (Outlier.var next) x y N).self
      ((Outlier.prior (Outlier.var next) x y N).vars.map fun _ => se2Value p q θ) =
      LieGroup.se2Log [Real.cos θ, -Real.sin θ,
        Real.cos θ * (x - p) + Real.sin θ * (y - q), -Real.sin θ * (x - p) + Real.cos θ * (y - q)] := by
    intro x y N
    have : (g2oFactors (Outlier.prior (Outlier.var next) x y N).cls).residual (Outlier.prior (Outlier.var next) x y N).self
      ((Outlier.prior (Outlier.var next) x y N).vars.map fun _ => se2Value p q θ) =
      LieGroup.se2Log (LieGroup.se2Mul (LieGroup.se2Inv (se2FromXyTheta p q θ)) [1, 0, x, y]) := rfl
    rw [this]
    congr 1
    simp [LieGroup.se2Mul, LieGroup.se2Inv, se2FromXyTheta]
    constructor <;> ring
  have hw0 : whitenedAt g2oFactors (fun _ => se2Value p q θ) (Outlier.prior (Outlier.var next) 0 0 Outlier.unit) =
      .ok (LieGroup.se2Log [Real.cos θ, -Real.sin θ, -(Real.cos θ * p + Real.sin θ * q), Real.sin θ * p - Real.cos θ * q]) := by
    unfold whitenedAt
    rw [hres]
    have : [Real.cos θ, -Real.sin θ, Real.cos θ * (0 - p) + Real.sin θ * (0 - q), -Real.sin θ * (0 - p) + Real.cos θ * (0 - q)] =
        [Real.cos θ, -Real.sin θ, -(Real.cos θ * p + Real.sin θ * q), Real.sin θ * p - Real.cos θ * q] := by
      simp only [List.cons.injEq, true_and, and_true]
      constructor <;> ring
    rw [this]
    exact Simple.whiten_log _
  have hw1 : whitenedAt g2oFactors (fun _ => se2Value p q θ) (Outlier.prior (Outlier.var next) x y (Outlier.wrap (some δ))) =
      .ok ((LieGroup.se2Log [Real.cos θ, -Real.sin θ,
        Real.cos θ * (x - p) + Real.sin θ * (y - q), -Real.sin θ * (x - p) + Real.cos θ * (y - q)]).map (· * huberWeight δ (norm2
        (LieGroup.se2Log [Real.cos θ, -Real.sin θ,
        Real.cos θ * (x - p) + Real.sin θ * (y - q), -Real.sin θ * (x - p) + Real.cos θ * (y - q)])))) := by
    unfold whitenedAt
    rw [hres]
    exact huber_whiten (Simple.whiten_log _)
  have hcost := cost_ok g2oFactors g2oClasses hC hne hwf hG hH (w := fun f => (whitenedAt g2oFactors (fun _ => se2Value p q θ) f).toOption.getD [])
    (fun f hf => by
      rw [Outlier.factors_eq] at hf
      rcases List.mem_append.1 hf with h | h
      · rw [List.eq_of_mem_replicate h, hw0]; rfl
      · rw [List.mem_singleton.1 h, hw1]; rfl)
  refine ⟨_, hcost.trans (congrArg Except.ok (Prod.ext ?_ rfl))⟩
  change List.sum _ = _
  rw [Outlier.factors_eq]
  simp only [List.map_append, List.map_replicate, List.map_cons, List.map_nil, List.sum_append, List.sum_replicate, List.sum_cons,
    List.sum_nil, add_zero, nsmul_eq_mul, hw0, hw1, Except.toOption, Option.getD_some]
  rw [← scale_loss hδ, mul_pow]
  have : ∀ l : List ℝ, norm2 l ^ 2 = sqNorm l := fun l => Real.sq_sqrt (by
    exact List.sum_nonneg fun z hz => by obtain ⟨_, -, rfl⟩ := List.mem_map.1 hz; positivity)
  rw [this, sqNorm_map_mul]

/-- Two sides of a triangle: with `t`, `s` and `v` the lengths of `(x, y)`, `(p, q)` and their difference, `t - s ≤ v`. -/
theorem triangle {x y p q t s v : ℝ} (ht2 : t ^ 2 = x ^ 2 + y ^ 2) (ht : 0 < t) (hs2 : s ^ 2 = p ^ 2 + q ^ 2) (hs : 0 ≤ s)
    (hv2 : v ^ 2 = (x - p) ^ 2 + (y - q) ^ 2) (hv : 0 ≤ v) : t - s ≤ v := by
  have hcauchy : x * p + y * q ≤ t * s := by
    have : (x * p + y * q) ^ 2 ≤ (t * s) ^ 2 := by
      rw [mul_pow, ht2, hs2]
      nlinarith [sq_nonneg (x * q - y * p)]
    exact le_of_sq_le_sq this (by positivity)
  by_contra hlt
  have : v ^ 2 < (t - s) ^ 2 := by nlinarith [not_le.1 hlt]
  nlinarith

/-- Equality in `triangle`: the two points are on one ray. -/
theorem collinear {x y p q t s v : ℝ} (ht2 : t ^ 2 = x ^ 2 + y ^ 2) (ht : 0 < t) (hs2 : s ^ 2 = p ^ 2 + q ^ 2)
    (hv2 : v ^ 2 = (x - p) ^ 2 + (y - q) ^ 2) (h : v = t - s) : p = s * (x / t) ∧ q = s * (y / t) := by
  have e3 : x * p + y * q = t * s := by
    rw [h] at hv2
    linear_combination (1 / 2) * hv2 - (1 / 2) * ht2 - (1 / 2) * hs2
  have e4 : (t * p - s * x) ^ 2 + (t * q - s * y) ^ 2 = 0 := by
    linear_combination (-t ^ 2) * hs2 - (2 * t * s) * e3 - s ^ 2 * ht2
  have e5 : (t * p - s * x) ^ 2 = 0 := le_antisymm (by linarith [sq_nonneg (t * q - s * y)]) (sq_nonneg _)
  have e6 : (t * q - s * y) ^ 2 = 0 := by linarith
  have e5 := pow_eq_zero_iff (two_ne_zero) |>.1 e5
  have e6 := pow_eq_zero_iff (two_ne_zero) |>.1 e6
  constructor
  · rw [mul_div_assoc', eq_div_iff ht.ne']; linarith
  · rw [mul_div_assoc', eq_div_iff ht.ne']; linarith

/-- The point at distance `k` on the ray through `(x, y)`. -/
theorem on_ray {x y t k s v : ℝ} (ht2 : t ^ 2 = x ^ 2 + y ^ 2) (hk : 0 ≤ k) (hkt : k ≤ t) (ht : 0 < t) (hs : 0 ≤ s) (hv : 0 ≤ v)
    (hs2 : s ^ 2 = (k * (x / t)) ^ 2 + (k * (y / t)) ^ 2) (hv2 : v ^ 2 = (x - k * (x / t)) ^ 2 + (y - k * (y / t)) ^ 2) :
    s = k ∧ v = t - k := by
  have e : (x / t) ^ 2 + (y / t) ^ 2 = 1 := by
    rw [div_pow, div_pow, ← add_div, ← ht2, div_self (by positivity)]
  have ex : x = t * (x / t) := by field_simp
  have ey : y = t * (y / t) := by field_simp
  constructor
  · refine (pow_left_inj₀ hs hk two_ne_zero).1 ?_
    rw [hs2]
    linear_combination k ^ 2 * e
  · refine (pow_left_inj₀ hv (by linarith) two_ne_zero).1 ?_
    have e1 : x - k * (x / t) = (t - k) * (x / t) := by rw [sub_mul, ← ex]
    have e2 : y - k * (y / t) = (t - k) * (y / t) := by rw [sub_mul, ← ey]
    rw [hv2, e1, e2]
    linear_combination (t - k) ^ 2 * e

/-- **C84, the objective has a bounded answer.** Let the outlier be at distance `t ≥ 3 δ` and `n ≥ 1`. The cost that the graph computes is at
least `δ t - δ² / (4 n)` at every pose, and this is the cost at exactly one pose, which is at distance `δ / (2 n)` from the origin, however
far away the outlier is. -/
theorem C84_minimum (next n : Nat) (x y δ : ℝ) (hn : 0 < n) (hδ : 0 < δ) (ht : 3 * δ ≤ Real.sqrt (x ^ 2 + y ^ 2)) :
    ∃ g a, outlierProblem next n x y (some δ) = .ok (g, a) ∧
      ∀ b, IsAssignmentOf g2oClasses [⟨se2Ty, next⟩] b → b.layout.localFlag = false →
        ∀ p q θ : ℝ, b.getValue g2oClasses ⟨se2Ty, next⟩ = .ok (se2Value p q θ) →
          let t := Real.sqrt (x ^ 2 + y ^ 2)
          ∃ c r, g.computeCost g2oFactors g2oClasses b = .ok (c, r) ∧ δ * t - δ ^ 2 / (4 * n) ≤ c ∧
            (c = δ * t - δ ^ 2 / (4 * n) ↔ se2Value p q θ = se2Value (δ / (2 * n) * (x / t)) (δ / (2 * n) * (y / t)) 0) := by
  obtain ⟨g, h1, h2, -, -⟩ := Outlier.problem_ok next n x y (delta := some δ) (fun d h => by cases h; exact hδ)
  refine ⟨g, _, h1, fun b hb hl p q θ hv => ?_⟩
  intro t
  obtain ⟨r, hcost⟩ := cost_pose next n x y δ hδ h2 hb hl hv
  have ht2 : t ^ 2 = x ^ 2 + y ^ 2 := Real.sq_sqrt (by positivity)
  have ht' : 3 * δ ≤ t := ht
  have htp : 0 < t := by linarith
  have hm : (1 : ℝ) ≤ n := by exact_mod_cast hn
  have hcs := Real.cos_sq_add_sin_sq θ
  obtain ⟨s, hs⟩ : ∃ s, s = Real.sqrt (p ^ 2 + q ^ 2) := ⟨_, rfl⟩
  have hs0 : 0 ≤ s := by rw [hs]; positivity
  have hs2 : s ^ 2 = p ^ 2 + q ^ 2 := by rw [hs]; exact Real.sq_sqrt (by positivity)
  obtain ⟨v, hv'⟩ : ∃ v, v = Real.sqrt ((x - p) ^ 2 + (y - q) ^ 2) := ⟨_, rfl⟩
  have hv0 : 0 ≤ v := by rw [hv']; positivity
  have hv2 : v ^ 2 = (x - p) ^ 2 + (y - q) ^ 2 := by rw [hv']; exact Real.sq_sqrt (by positivity)
  have htri : t - s ≤ v := triangle ht2 htp hs2 hs0 hv2 hv0
  obtain ⟨L0, hL0⟩ : ∃ L, L = LieGroup.se2Log [Real.cos θ, -Real.sin θ,
        -(Real.cos θ * p + Real.sin θ * q), Real.sin θ * p - Real.cos θ * q] := ⟨_, rfl⟩
  obtain ⟨L1, hL1⟩ : ∃ L, L = LieGroup.se2Log [Real.cos θ, -Real.sin θ,
        Real.cos θ * (x - p) + Real.sin θ * (y - q), -Real.sin θ * (x - p) + Real.cos θ * (y - q)] := ⟨_, rfl⟩
  obtain ⟨α, hα⟩ : ∃ α, α = LieGroup.arctan2 (-Real.sin θ) (Real.cos θ) := ⟨_, rfl⟩
  have k0 := Simple.log_sq (Real.cos θ) (-Real.sin θ) (-(Real.cos θ * p + Real.sin θ * q)) (Real.sin θ * p - Real.cos θ * q)
  have k1 := Simple.log_sq (Real.cos θ) (-Real.sin θ) (Real.cos θ * (x - p) + Real.sin θ * (y - q))
    (-Real.sin θ * (x - p) + Real.cos θ * (y - q))
  rw [← hL0, ← hα] at k0
  rw [← hL1, ← hα] at k1
  have n0 : (-(Real.cos θ * p + Real.sin θ * q)) ^ 2 + (Real.sin θ * p - Real.cos θ * q) ^ 2 = s ^ 2 := by
    rw [hs2]; linear_combination (p ^ 2 + q ^ 2) * hcs
  have n1 : (Real.cos θ * (x - p) + Real.sin θ * (y - q)) ^ 2 + (-Real.sin θ * (x - p) + Real.cos θ * (y - q)) ^ 2 = v ^ 2 := by
    rw [hv2]; linear_combination ((x - p) ^ 2 + (y - q) ^ 2) * hcs
  have hN : v ≤ norm2 L1 := by
    have : norm2 L1 = Real.sqrt (sqNorm L1) := rfl
    rw [this]
    refine Real.le_sqrt_of_sq_le ?_
    linarith only [sq_nonneg α, k1, n1]
  have hloss := codedLoss_mono hδ hv0 hN
  obtain ⟨m1, m2⟩ := scalar_min (r := v) hδ hm ht' hs0 htri
  rw [← hL0, ← hL1] at hcost
  have hlow : n * α ^ 2 + (n * s ^ 2 + codedLoss δ v) ≤ n * sqNorm L0 + codedLoss δ (norm2 L1) := by
    have : (n : ℝ) * (α ^ 2 + s ^ 2) ≤ n * sqNorm L0 := mul_le_mul_of_nonneg_left (by linarith) (by linarith)
    linarith
  have hα2 : 0 ≤ n * α ^ 2 := by positivity
  refine ⟨_, r, hcost, by linarith, fun h => ?_, fun h => ?_⟩
  · have hα0 : n * α ^ 2 = 0 := by linarith
    have hα0 : α = 0 := by
      rcases mul_eq_zero.1 hα0 with h | h
      · linarith
      · exact pow_eq_zero_iff (two_ne_zero) |>.1 h
    obtain ⟨hc, hsn⟩ := Simple.arctan2_zero (by rw [neg_sq]; exact hcs) (hα.symm.trans hα0)
    obtain ⟨e1, e2⟩ := m2 (by linarith)
    obtain ⟨hp, hq⟩ := collinear ht2 htp hs2 hv2 e2
    rw [e1] at hp hq
    rw [hp, hq]
    have hsn' : Real.sin θ = 0 := by linarith
    simp [se2Value, se2FromXyTheta, hc, hsn']
  · have h' : se2FromXyTheta p q θ = se2FromXyTheta (δ / (2 * n) * (x / t)) (δ / (2 * n) * (y / t)) 0 := by
      simpa [se2Value, LieGroup.value] using h
    simp only [se2FromXyTheta, List.cons.injEq, and_true, Real.cos_zero, Real.sin_zero] at h'
    obtain ⟨hc, hsn, hp, hq⟩ := h'
    rw [hc, hsn] at hL0 hL1
    have f0 : sqNorm L0 = s ^ 2 := by
      rw [hL0, hs2]
      have := Outlier.log_flat (-p) (-q)
      simp only [neg_zero, zero_mul, one_mul, add_zero, zero_sub] at this ⊢
      rw [this]
      simp [sqNorm]
    have f1 : norm2 L1 = v := by
      rw [hL1, hv']
      have := Outlier.log_flat (x - p) (y - q)
      simp only [neg_zero, zero_mul, one_mul, add_zero, zero_add] at this ⊢
      rw [this, norm_xy]
    obtain ⟨k, hk⟩ : ∃ k, k = δ / (2 * (n : ℝ)) := ⟨_, rfl⟩
    have hk0 : 0 < k := by rw [hk]; positivity
    have hkδ : k ≤ δ := by rw [hk]; exact div_le_self hδ.le (by linarith only [hm])
    rw [hp, hq, ← hk] at hs2 hv2
    obtain ⟨f2, f3⟩ := on_ray ht2 hk0.le (by linarith only [hkδ, ht', hδ]) htp hs0 hv0 hs2 hv2
    rw [f0, f1, f2, f3, codedLoss, if_neg (by linarith only [hkδ, ht', hδ])]
    have hmk : n * k = δ / 2 := by rw [hk]; field_simp
    have hdk : δ ^ 2 / (4 * n) = δ * k / 2 := by rw [hk]; field_simp; norm_num
    rw [hdk]
    linear_combination k * hmk

/-- **C84, the solver does not minimise.** For every threshold, every positive number of measurements at the origin and every bound: when
the outlier is far enough away, the cost of the solution that Gauss-Newton returns exceeds the cost of another pose by more than the
bound. -/
theorem C84_excess (next n : Nat) (δ B : ℝ) (hn : 0 < n) (hδ : 0 < δ) : ∃ t₀, ∀ x y : ℝ, t₀ ≤ Real.sqrt (x ^ 2 + y ^ 2) →
    TestReturns next n x y (some δ) fun g o _ => ∃ b c c' r r', IsAssignmentOf g2oClasses [⟨se2Ty, next⟩] b ∧
      g.computeCost g2oFactors g2oClasses b = .ok (c, r) ∧ g.computeCost g2oFactors g2oClasses o = .ok (c', r') ∧ c + B < c' := by
  obtain ⟨t₀, h0, h1⟩ := fourth_root_unbounded n δ (δ / (2 * n) + |B| + 1) hδ
  refine ⟨max t₀ (4 * δ + |B| + 2), fun x y ht => ?_⟩
  refine (huber_full next n x y δ hδ (h0.trans ((le_max_left _ _).trans ht))).mono fun g o e he => ?_
  obtain ⟨⟨hg, u, hu0, hu1, ho, hue⟩, -, hb⟩ := he
  have he := h1 _ _ ((le_max_left _ _).trans ht) hb
  have ht := (le_max_right _ _).trans ht
  obtain ⟨t, htt⟩ : ∃ t, t = norm2 [x, y, 0] := ⟨_, rfl⟩
  rw [← norm_xy, ← htt] at hue ht
  obtain ⟨k, hk⟩ : ∃ k, k = δ / (2 * (n : ℝ)) := ⟨_, rfl⟩
  rw [← hk] at he
  have hm : (1 : ℝ) ≤ n := by exact_mod_cast hn
  have hk0 : 0 < k := by rw [hk]; positivity
  have hkδ : k ≤ δ := by rw [hk]; exact div_le_self hδ.le (by linarith only [hm])
  have hB := le_abs_self B
  have hB0 := abs_nonneg B
  have htp : 0 < t := by linarith
  have hok : Outlier.Ok (some δ) := fun d h => by cases h; exact hδ
  have hcost : ∀ w : ℝ, w ≤ 1 → ∃ r, g.computeCost g2oFactors g2oClasses (Outlier.at_ next (w * x) (w * y)) =
      .ok (n * (w * t) ^ 2 + codedLoss δ (t - w * t), r) := by
    intro w hw
    obtain ⟨r, A, ATr, d, hc, -⟩ := Outlier.linear_step hok hw hg (fun _ _ _ _ => .ok []) .empty 0 (fun p h => by
      simp [PyDict.empty, PyDict.get?] at h)
    refine ⟨r, hc.trans ?_⟩
    rw [← htt, show t - w * t = (1 - w) * t by ring, ← scale_loss hδ]
    rfl
  have hkt : k / t ≤ 1 := (div_le_one htp).2 (by linarith)
  obtain ⟨r, hr⟩ := hcost (k / t) hkt
  obtain ⟨r', hr'⟩ := hcost u hu1
  rw [← hue] at hr'
  rw [div_mul_cancel₀ _ htp.ne'] at hr
  refine ⟨_, _, _, r, r', (Outlier.holds next n x y (some δ) _ _).assignment, hr, ho ▸ hr', ?_⟩
  have hmk : n * k = δ / 2 := by rw [hk]; field_simp
  have c1 : codedLoss δ (t - k) = δ * (t - k) := if_neg (by linarith)
  rw [c1]
  have he2 : 0 ≤ (n - 1) * e ^ 2 := mul_nonneg (by linarith) (by positivity)
  by_cases h : t - e < δ
  · have c2 : codedLoss δ (t - e) = (t - e) ^ 2 := if_pos h
    rw [c2]
    have h3 : (t - δ) ^ 2 ≤ e ^ 2 := pow_le_pow_left₀ (by linarith) (by linarith) 2
    have h4 : |B| + 2 ≤ t * (t - 3 * δ) := by
      have : 1 * (|B| + 2) ≤ t * (t - 3 * δ) := mul_le_mul (by linarith) (by linarith) (by linarith) htp.le
      linarith
    have h5 : n * k ^ 2 = δ / 2 * k := by rw [← hmk]; ring
    have h6 : 0 ≤ δ / 2 * k := by positivity
    nlinarith [sq_nonneg (t - e), sq_nonneg δ]
  · have c2 : codedLoss δ (t - e) = δ * (t - e) := if_neg h
    rw [c2]
    have h3 : (|B| + 1) ^ 2 ≤ (e - k) ^ 2 := pow_le_pow_left₀ (by linarith) (by linarith) 2
    have h4 : (e - k) ^ 2 ≤ n * (e - k) ^ 2 := le_mul_of_one_le_left (by positivity) hm
    have h5 : n * e ^ 2 + δ * (t - e) - (n * k ^ 2 + δ * (t - k)) = n * (e - k) ^ 2 := by
      linear_combination (2 * e - 2 * k) * hmk
    nlinarith

/-- Non-vacuity: for `C84_gaussian`, `C84_huber`, `C84_test` and `C84_minimum`, an outlier at `(2000, 200)` and threshold 1; for `C84_inlier` a measurement at
`(1/2, 1/2)`; in `TestReturns`, a new solver and its lift are as required; and for `C84_minimum` there are assignments with every pose. -/
example (next n addr : Nat) (stale : Pattern → ScipyCoo ℝ → ℝ → List ℝ → Py (List ℝ)) :
    (800 ≤ Real.sqrt ((2000 : ℝ) ^ 2 + 200 ^ 2)) ∧ Real.sqrt ((1 / 2 : ℝ) ^ 2 + (1 / 2) ^ 2) < 1 ∧
    (∀ i p, ((fun _ => PyDict.empty : Nat → CholmodCache) i).get? addr = some p → p = ((n, n), ∅)) ∧
    (∀ g : GraphOps ℝ, ∃ CE gE, Lifts CE gE g2oClasses g) ∧
    (∃ sE s, LiftsGN sE s ∧ s.linear = fun A b l _ => (cholmodSolve stale .empty addr A b l).1) ∧
    ∀ p q θ, ∃ b, IsAssignmentOf g2oClasses [⟨se2Ty, next⟩] b ∧ b.layout.localFlag = false ∧
      b.getValue g2oClasses ⟨se2Ty, next⟩ = .ok (se2Value p q θ) := by
  refine ⟨Real.le_sqrt_of_sq_le (by norm_num), (Real.sqrt_lt' one_pos).2 (by norm_num), fun i p h => by
    simp [PyDict.empty, PyDict.get?] at h, fun g => ⟨_, _, lifts_lift _ _⟩,
    ⟨_, GaussNewton.defaults _, liftsGN_lift _, rfl⟩, fun p q θ => ?_⟩
  refine ⟨⟨se2FromXyTheta p q θ, Outlier.lay next false⟩, ⟨by simp, rfl, rfl⟩, rfl, ?_⟩
  have e : (Outlier.lay next false).indexFromVar.get (Outlier.var next) = .ok 0 :=
    PyDict.get_ok_of (make_index g2oClasses (by simp) false (as := []) (bs := []) (by simp [grouped, firstTypes]))
  unfold Assign.getValue
  change (Outlier.lay next false).indexFromVar.get (Outlier.var next) >>= _ = _
  rw [e]
  rfl

end Jaxfg.Props
