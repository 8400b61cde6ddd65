/-
Property C79: what `compute_joint_nll` and `compute_cost` have to do with probability densities.
-/
import Verif.Lemmas.Likelihood
import Verif.Lemmas.ExamplePoly
import Verif.Props.Graph

namespace Jaxfg.Props
open Spec MeasureTheory Matrix

section
variable (F : Nat → FactorClass) (C : Ty → VarClass ℝ)

/-- The densities of the specification are densities: for a noise model with nonsingular square root precision matrix `W` the density is
positive and has integral one. In coordinates, it is `exp(-½ |W x|²) |det W| / (2π)^(n/2)`. -/
theorem C79_density {n : Nat} {W : Matrix (Fin n) (Fin n) ℝ} (hW : W.det ≠ 0) :
    (∀ x, 0 < gaussianDensity (Wᵀ * W) x) ∧ ∫ x, gaussianDensity (Wᵀ * W) x = 1 ∧
      ∀ x, gaussianDensity (Wᵀ * W) x = Real.exp (-((W *ᵥ x) ⬝ᵥ (W *ᵥ x)) / 2) * |W.det| / √(2 * Real.pi) ^ n := by
  refine ⟨gaussianDensity_pos hW, integral_gaussianDensity hW, fun x => ?_⟩
  rw [gaussianDensity, integral_gaussianWeight hW, gaussianWeight, ← mulVec_mulVec, dotProduct_mulVec, vecMul_transpose]
  have h1 : |W.det| ≠ 0 := (abs_pos.2 hW).ne'
  field_simp

/-- **C79.** With Gaussian (full or diagonal) noise models of nonsingular precision, `compute_joint_nll` is minus twice the logarithm of the
joint density of the factors' errors, less the constant `log(2π)` for every residual entry. (The docstring promises minus the logarithm,
without constants; see `C79_not_the_log_likelihood`.) -/
theorem C79_joint_nll (hC : GoodClasses C) (fs : List Factor) (hne : fs ≠ []) (hfs : ∀ f ∈ fs, FactorWF F C f)
    (hg : ∀ f ∈ fs, NoiseGaussian f.noise) (hd : ∀ f ∈ fs, (noiseMat f.noise (rdim f) (rdim f)).det ≠ 0) :
    ∃ g, Graph.make C fs = .ok g ∧ ∀ vars val a, Holds C fs vars val a → 0 < likelihood F fs val ∧
      g.computeJointNll F C a false =
        .ok (-2 * Real.log (likelihood F fs val) - (fs.map rdim).sum * Real.log (2 * Real.pi)) := by
  obtain ⟨g, hgm, hG⟩ := C25_joint_nll F C hC fs hne hfs hg hd
  refine ⟨g, hgm, fun vars val a h => ⟨?_, ?_⟩⟩
  · exact List.prod_pos fun x hx => by
      obtain ⟨f, hf, rfl⟩ := List.mem_map.1 hx
      exact gaussianDensity_pos (hd f hf) _
  · rw [hG vars val a h]
    congr 1
    unfold likelihood precision
    clear hG h hgm hne
    induction fs with
    | nil => simp
    | cons f fs ih =>
      have hf := hd f (by simp)
      have hpos : ((fs.map fun f => gaussianDensity ((noiseMat f.noise (rdim f) (rdim f))ᵀ * noiseMat f.noise (rdim f) (rdim f))
          (Spec.vec ((F f.cls).residual f.self (f.vars.map val)) (rdim f))).prod) ≠ 0 := (List.prod_pos fun x hx => by
            obtain ⟨f', hf', rfl⟩ := List.mem_map.1 hx
            exact gaussianDensity_pos (hd f' (by simp [hf'])) _).ne'
      simp only [List.map_cons, List.sum_cons, List.prod_cons]
      rw [ih (fun f hf => hfs f (by simp [hf])) (fun f hf => hg f (by simp [hf])) (fun f hf => hd f (by simp [hf])),
        log_gaussianDensity hf, Real.log_mul (gaussianDensity_pos hf _).ne' hpos]
      push_cast
      ring

/-- The joint density is a decreasing function of the cost: up to a positive factor that does not depend on the values, it is
`exp(-cost/2)`. -/
theorem C79_cost (hC : GoodClasses C) (fs : List Factor) (hne : fs ≠ []) (hfs : ∀ f ∈ fs, FactorWF F C f)
    (hg : ∀ f ∈ fs, NoiseGaussian f.noise) (hd : ∀ f ∈ fs, (noiseMat f.noise (rdim f) (rdim f)).det ≠ 0) :
    ∃ g Z, Graph.make C fs = .ok g ∧ 0 < Z ∧ ∀ vars val a, Holds C fs vars val a →
      ∃ c r, g.computeCost F C a = .ok (c, r) ∧ likelihood F fs val = Z * Real.exp (-c / 2) := by
  obtain ⟨g, hgm, hG⟩ := C16_cost_is_sum F C hC fs hne hfs
  refine ⟨g, (fs.map fun f => (∫ x, gaussianWeight ((noiseMat f.noise (rdim f) (rdim f))ᵀ * noiseMat f.noise (rdim f) (rdim f)) x)⁻¹).prod,
    hgm, ?_, fun vars val a h => ?_⟩
  · exact List.prod_pos fun x hx => by
      obtain ⟨f, hf, rfl⟩ := List.mem_map.1 hx
      exact inv_pos.2 (integral_gaussianWeight_pos (hd f hf))
  · obtain ⟨w, hw, hc⟩ := hG vars val a h
    refine ⟨_, _, hc, ?_⟩
    have key : ∀ f ∈ fs, Real.exp (-sqNorm (w f) / 2) = gaussianWeight
        ((noiseMat f.noise (rdim f) (rdim f))ᵀ * noiseMat f.noise (rdim f) (rdim f))
        (Spec.vec ((F f.cls).residual f.self (f.vars.map val)) (rdim f)) := by
      intro f hf
      obtain ⟨u, h2, h3, h4⟩ := whiten_gaussian (hfs f hf).noise (hg f hf) ((hfs f hf).residual _ (h.valuesFor hC hf))
      have h5 := hw f hf
      unfold whitenedAt at h5
      rw [h2] at h5
      cases h5
      rw [gaussianWeight, sqNorm_eq h3, h4, ← mulVec_mulVec, dotProduct_mulVec _ (noiseMat _ _ _)ᵀ, vecMul_transpose]
    unfold likelihood gaussianDensity
    clear hG h hgm hne hc
    induction fs with
    | nil => simp
    | cons f fs ih =>
      have ih := ih (fun f hf => hfs f (by simp [hf])) (fun f hf => hg f (by simp [hf])) (fun f hf => hd f (by simp [hf]))
        (fun f hf => hw f (by simp [hf])) (fun f hf => key f (by simp [hf]))
      simp only [List.map_cons, List.sum_cons, List.prod_cons]
      rw [ih, ← key f (by simp), neg_add, add_div, Real.exp_add]
      ring

/-- Least squares is maximum likelihood: of two assignments, the one with the smaller cost has the larger joint density. -/
theorem C79_maximum_likelihood (hC : GoodClasses C) (fs : List Factor) (hne : fs ≠ []) (hfs : ∀ f ∈ fs, FactorWF F C f)
    (hg : ∀ f ∈ fs, NoiseGaussian f.noise) (hd : ∀ f ∈ fs, (noiseMat f.noise (rdim f) (rdim f)).det ≠ 0) :
    ∃ g, Graph.make C fs = .ok g ∧ ∀ vars val a vars' val' a', Holds C fs vars val a → Holds C fs vars' val' a' →
      ∃ c r c' r', g.computeCost F C a = .ok (c, r) ∧ g.computeCost F C a' = .ok (c', r') ∧
        (c ≤ c' ↔ likelihood F fs val' ≤ likelihood F fs val) := by
  obtain ⟨g, Z, hgm, hZ, hG⟩ := C79_cost F C hC fs hne hfs hg hd
  refine ⟨g, hgm, fun vars val a vars' val' a' h h' => ?_⟩
  obtain ⟨c, r, h1, h2⟩ := hG vars val a h
  obtain ⟨c', r', h3, h4⟩ := hG vars' val' a' h'
  refine ⟨c, r, c', r', h1, h3, ?_⟩
  rw [h2, h4, mul_le_mul_iff_right₀ hZ, Real.exp_le_exp]
  constructor <;> intro h <;> linarith

end

/-- The example graph with residual `x`, at `x = v`. -/
theorem Poly1.holds_at (p q s v : ℝ) : ∃ val, Holds Ex.C [Poly.f p q s] [Ex.x] val (Poly.at_ v) := by
  obtain ⟨y, hy⟩ : ∃ y, (Poly.at_ v).getValue Ex.C Ex.x = .ok y := ⟨_, rfl⟩
  refine ⟨fun _ => y, Poly.at_assignment v, rfl, fun w => by simp [Poly.f], fun w hw => ?_⟩
  obtain rfl : w = Ex.x := by simpa using hw
  exact hy

/-- The docstring of `compute_joint_nll` is not accurate: there is a graph (one variable, residual `x`, unit noise) for which the result is not
minus the logarithm of the joint density, whichever constant is added. -/
theorem C79_not_the_log_likelihood : ∃ (F : Nat → FactorClass) (C : Ty → VarClass ℝ) (fs : List Factor) (g : Graph), GoodClasses C ∧
    (∀ f ∈ fs, FactorWF F C f) ∧ (∀ f ∈ fs, NoiseGaussian f.noise) ∧
    (∀ f ∈ fs, (noiseMat f.noise (rdim f) (rdim f)).det ≠ 0) ∧ Graph.make C fs = .ok g ∧
    ¬ ∃ κ : ℝ, ∀ vars val a, Holds C fs vars val a →
      g.computeJointNll F C a false = .ok (-Real.log (likelihood F fs val) + κ) := by
  have hwf : ∀ f ∈ [Poly.f 0 1 0], FactorWF Poly.F Ex.C f := by simpa using Poly.f_wf 0 1 0
  have hg : ∀ f ∈ [Poly.f 0 1 0], NoiseGaussian f.noise := by simp [Poly.f, NoiseGaussian]
  have hd : ∀ f ∈ [Poly.f 0 1 0], (noiseMat f.noise (rdim f) (rdim f)).det ≠ 0 := by
    intro f hf
    obtain rfl : f = Poly.f 0 1 0 := by simpa using hf
    have h1 : rdim (Poly.f 0 1 0) = 1 := noiseDim_eq (⟨⟨rfl, rfl⟩, rfl⟩ : NoiseWF (Poly.f 0 1 0).noise 1 1)
    rw [h1]
    rw [det_fin_one]
    simp [Poly.f, noiseMat]
  refine ⟨Poly.F, Ex.C, [Poly.f 0 1 0], Poly.g 0 1 0, Ex.good, hwf, hg, hd, Poly.make_eq 0 1 0, ?_⟩
  rintro ⟨κ, hκ⟩
  obtain ⟨g, hgm, h⟩ := C79_joint_nll Poly.F Ex.C Ex.good _ (by simp) hwf hg hd
  obtain ⟨g', Z, hgm', hZ, h'⟩ := C79_cost Poly.F Ex.C Ex.good _ (by simp) hwf hg hd
  rw [Poly.make_eq] at hgm hgm'
  cases Except.ok.inj hgm
  cases Except.ok.inj hgm'
  have key : ∀ v : ℝ, -Real.log Z + v ^ 2 / 2 = κ + ([Poly.f 0 1 0].map rdim).sum * Real.log (2 * Real.pi) := by
    intro v
    obtain ⟨val, hv⟩ := Poly1.holds_at 0 1 0 v
    obtain ⟨c, r, h1, h2⟩ := h' _ _ _ hv
    have h3 := (h _ _ _ hv).2
    rw [hκ _ _ _ hv, h2, Real.log_mul hZ.ne' (Real.exp_pos _).ne', Real.log_exp] at h3
    have h4 := Except.ok.inj h3
    have h5 := Poly.cost_eq 0 1 0 v
    have h6 : (Poly.g 0 1 0).computeCost Poly.F Ex.C (Poly.at_ v) = _ := h5
    rw [h6] at h1
    obtain ⟨rfl, -⟩ := Prod.mk.inj (Except.ok.inj h1)
    have h7 : (0 + 1 * v + 0 * v ^ 2) ^ 2 = v ^ 2 := by ring
    rw [h7] at h4
    linarith
  have e0 := key 0
  have e1 := key 1
  linarith

/-- The hypotheses of C79 can be met by a graph with several variables and factors, with full and diagonal noise models. -/
example : ∃ g, Graph.make Ex.C Ex.fs = .ok g ∧ 0 < likelihood Ex.F Ex.fs Ex.val ∧
    g.computeJointNll Ex.F Ex.C Ex.a false =
      .ok (-2 * Real.log (likelihood Ex.F Ex.fs Ex.val) - (Ex.fs.map rdim).sum * Real.log (2 * Real.pi)) := by
  obtain ⟨h1, h2⟩ := exGaussian_nonsingular
  obtain ⟨g, hg, h⟩ := C79_joint_nll Ex.F Ex.C Ex.good Ex.fs (by simp [Ex.fs]) Ex.fs_wf h1 h2
  exact ⟨g, hg, h _ _ _ Ex.holds⟩

end Jaxfg.Props
