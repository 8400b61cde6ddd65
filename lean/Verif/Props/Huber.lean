/-
Property C69: what the solvers minimize when noise models have Huber wrappers (jaxfg/noises/_huber.py,
jaxfg/core/_stacked_factor_graph.py).
-/
import Verif.Lemmas.Huber
import Verif.Props.Noise

namespace Jaxfg.Props
open Spec
open Matrix hiding vec

variable (F : Nat → FactorClass) (C : Ty → VarClass ℝ)

/-- **C69, what the code does** (partial: the full statement has the Huber loss instead; it is false, see
`C69_not_the_huber_gradient`). For every graph whose noise models are Gaussian with or without a Huber wrapper, with `r` the
residual vector and `A` the Jacobian that the solvers compute at `a`: `A.T @ r` is one half of the gradient of the sum of
losses that are quadratic below the thresholds and grow with exponent 5/4 above. -/
theorem C69_coded_loss_partial (hC : GoodClasses C) (fs : List Factor) (hne : fs ≠ []) (hfs : ∀ f ∈ fs, FactorWF F C f)
    (hsimple : ∀ f ∈ fs, NoiseSimple f.noise) :
    ∃ g, Graph.make C fs = .ok g ∧
      ∀ vars val a, Holds C fs vars val a → a.layout = g.layout → (∀ f ∈ fs, JacobiansCorrect F C f (f.vars.map val)) →
        (∀ v ∈ vars, (C v.ty).retract (val v) (List.replicate (C v.ty).localDim 0) = val v) →
        ∃ c r A y, g.computeCost F C a = .ok (c, r) ∧ g.computeWhitenedResidualJacobian F C a r = .ok A ∧
          A.T.matmul r = .ok y ∧ y.length = g.localLayout.dim ∧
          ∀ d : List ℝ, d.length = g.localLayout.dim → ∃ (b : ℝ → Assign ℝ) (vt : ℝ → Var → Value ℝ),
            (∀ t, a.manifoldRetract C ⟨d.map (t * ·), g.localLayout⟩ = .ok (b t) ∧ Holds C fs (Graph.variablesOf fs) (vt t) (b t) ∧
              vt t = fun v => (C v.ty).retract (val v) ((block C ⟨d, g.localLayout⟩ v).map (t * ·))) ∧
            HasDerivAt (fun t => (fs.map fun f => factorLoss fiveFourthsLoss F (vt t) f).sum)
              (2 * (vec y g.localLayout.dim ⬝ᵥ vec d g.localLayout.dim)) 0 := by
  obtain ⟨g, hg, _⟩ := graph_ok (F := F) hfs hne
  refine ⟨g, hg, fun vars val a h hlay hcorrect hzero => loss_gradient hC _ hne hfs hsimple hg h hlay hcorrect hzero ?_⟩
  intro f hf N δ u hN hu
  have hwf := (hfs f hf).noise
  rw [hN] at hwf
  obtain ⟨-, δ', hδeq, hδ⟩ := hwf
  obtain rfl : δ = δ' := by simpa using hδeq
  exact fiveFourths_slope hδ (sqNorm_nonneg u)

/-- **C69, inliers** (partial). If the whitened residuals of all factors with Huber wrappers are below their thresholds,
`A.T @ r` is one half of the gradient of the sum of Huber losses. -/
theorem C69_inliers_partial (hC : GoodClasses C) (fs : List Factor) (hne : fs ≠ []) (hfs : ∀ f ∈ fs, FactorWF F C f)
    (hsimple : ∀ f ∈ fs, NoiseSimple f.noise) :
    ∃ g, Graph.make C fs = .ok g ∧
      ∀ vars val a, Holds C fs vars val a → a.layout = g.layout → (∀ f ∈ fs, JacobiansCorrect F C f (f.vars.map val)) →
        (∀ v ∈ vars, (C v.ty).retract (val v) (List.replicate (C v.ty).localDim 0) = val v) →
        (∀ f ∈ fs, ∀ N δ u, f.noise = .huber N ⟨[], [δ]⟩ → N.whiten ((F f.cls).residual f.self (f.vars.map val)) = .ok u →
          Real.sqrt (sqNorm u) < δ) →
        ∃ c r A y, g.computeCost F C a = .ok (c, r) ∧ g.computeWhitenedResidualJacobian F C a r = .ok A ∧
          A.T.matmul r = .ok y ∧ y.length = g.localLayout.dim ∧
          ∀ d : List ℝ, d.length = g.localLayout.dim → ∃ (b : ℝ → Assign ℝ) (vt : ℝ → Var → Value ℝ),
            (∀ t, a.manifoldRetract C ⟨d.map (t * ·), g.localLayout⟩ = .ok (b t) ∧ Holds C fs (Graph.variablesOf fs) (vt t) (b t) ∧
              vt t = fun v => (C v.ty).retract (val v) ((block C ⟨d, g.localLayout⟩ v).map (t * ·))) ∧
            HasDerivAt (fun t => (fs.map fun f => factorLoss huberLoss F (vt t) f).sum)
              (2 * (vec y g.localLayout.dim ⬝ᵥ vec d g.localLayout.dim)) 0 := by
  obtain ⟨g, hg, _⟩ := graph_ok (F := F) hfs hne
  refine ⟨g, hg, fun vars val a h hlay hcorrect hzero hin => loss_gradient hC _ hne hfs hsimple hg h hlay hcorrect hzero ?_⟩
  intro f hf N δ u hN hu
  have hwf := (hfs f hf).noise
  rw [hN] at hwf
  obtain ⟨-, δ', hδeq, hδ⟩ := hwf
  obtain rfl : δ = δ' := by simpa using hδeq
  exact inlier_slope hδ (sqNorm_nonneg u) (hin f hf N δ u hN hu) fun n hn => if_pos hn

/-! ### A stationary point of the solvers that is none of the Huber loss -/

namespace HuberEx

/-- A measurement `x = 0` with weight 4 and an outlier `x = 16 + 1/8` with a Huber wrapper of threshold 1. -/
noncomputable def f : Factor := ⟨0, [Ex.x], .diagonal ⟨[1], [4]⟩, [⟨[1], [0]⟩]⟩
noncomputable def out : Factor := ⟨0, [Ex.x], .huber (.diagonal ⟨[1], [1]⟩) ⟨[], [1]⟩, [⟨[1], [129 / 8]⟩]⟩
noncomputable def fs : List Factor := [f, out]

/-- The value of the variable: `x = 1/8`. -/
noncomputable def val (t : ℝ) : Var → Value ℝ := fun _ => ⟨0, [⟨[1], [1 / 8 + t]⟩]⟩
noncomputable def a (t : ℝ) : Assign ℝ := ⟨[1 / 8 + t], Layout.make Ex.C [Ex.x] false⟩

theorem wf : ∀ g ∈ fs, FactorWF Ex.F Ex.C g := by
  intro g hg
  simp only [fs, List.mem_cons, List.not_mem_nil, or_false] at hg
  rcases hg with rfl | rfl
  · exact Ex.prior_wf Ex.x _ _ ⟨⟨rfl, rfl⟩, rfl⟩ rfl
  · exact Ex.prior_wf Ex.x _ _ ⟨⟨⟨rfl, rfl⟩, rfl⟩, 1, rfl, by norm_num⟩ rfl

theorem simple : ∀ g ∈ fs, NoiseSimple g.noise := by
  intro g hg
  simp only [fs, List.mem_cons, List.not_mem_nil, or_false] at hg
  rcases hg with rfl | rfl <;> exact trivial

theorem holds (t : ℝ) : Holds Ex.C fs [Ex.x] (val t) (a t) := by
  have hrep : Rep Ex.C [Ex.x] false (fun _ => [1 / 8 + t]) (a t) := by
    refine ⟨by decide, rfl, ?_, ?_⟩
    · intro v hv
      rw [List.mem_singleton.1 hv]
      simp [dimOf, Ex.paramDim, Ex.x]
    · have : grouped [Ex.x] = [Ex.x] := by decide
      rw [this]; rfl
  refine ⟨hrep.isAssignment, hrep.flag, by simp [fs, f, out], ?_⟩
  intro v hv
  rw [hrep.getValue_ok hv, List.mem_singleton.1 hv]
  simp [unravel, Ex.C, VarClass.realVector, VarClass.euclidean, val, splitLeaves, Ex.x]

theorem correct (t : ℝ) : ∀ g ∈ fs, JacobiansCorrect Ex.F Ex.C g (g.vars.map (val t)) := by
  have hv : IsValueOf (Ex.C Ex.x.ty) (val t Ex.x) := by
    refine ⟨rfl, ?_, ?_⟩ <;> simp [WellShaped, val, Ex.C, VarClass.realVector, VarClass.euclidean, Ex.x]
  intro g hg
  simp only [fs, List.mem_cons, List.not_mem_nil, or_false] at hg
  rcases hg with rfl | rfl
  · exact Ex.prior_correct Ex.x f.noise _ ⟨⟨rfl, rfl⟩, rfl⟩ hv
  · exact Ex.prior_correct Ex.x out.noise _ ⟨⟨⟨rfl, rfl⟩, rfl⟩, 1, rfl, by norm_num⟩ hv

theorem f_whiten (t : ℝ) : f.noise.whiten ((Ex.F f.cls).residual f.self (f.vars.map (val t))) = .ok [4 * (1 / 8 + t)] := by
  simp [f, Ex.F, val, Factor.self, Value.flatten, Noise.whiten]

theorem out_whiten (t : ℝ) :
    (Noise.diagonal ⟨[1], [1]⟩).whiten ((Ex.F out.cls).residual out.self (out.vars.map (val t))) = .ok [1 / 8 + t - 129 / 8] := by
  simp [out, Ex.F, val, Factor.self, Value.flatten, Noise.whiten]

theorem f_loss (ρ : ℝ → ℝ → ℝ) (t : ℝ) : factorLoss ρ Ex.F (val t) f = (4 * (1 / 8 + t)) ^ 2 := by
  have h := f_whiten t
  have hn : f.noise = .diagonal ⟨[1], [4]⟩ := rfl
  rw [hn] at h
  simp only [factorLoss, hn]
  rw [h]
  simp [sqNorm]

theorem out_norm {t : ℝ} (ht : t < 15) : Real.sqrt (sqNorm [1 / 8 + t - 129 / 8]) = 16 - t := by
  have : sqNorm [1 / 8 + t - 129 / 8] = (16 - t) ^ 2 := by simp only [sqNorm, List.map_cons, List.map_nil, List.sum_cons, List.sum_nil]; ring
  rw [this, Real.sqrt_sq (by linarith)]

theorem out_loss (ρ : ℝ → ℝ → ℝ) {t : ℝ} (ht : t < 15) : factorLoss ρ Ex.F (val t) out = ρ 1 (16 - t) := by
  have h := out_whiten t
  have hn : out.noise = .huber (.diagonal ⟨[1], [1]⟩) ⟨[], [1]⟩ := rfl
  simp only [factorLoss, hn]
  rw [h]
  show ρ 1 (Real.sqrt (sqNorm [1 / 8 + t - 129 / 8])) = _
  rw [out_norm ht]

/-- The losses of the two factors and the cost near `x = 1/8`, and their derivatives. -/
theorem loss_deriv (ρ : ℝ → ℝ → ℝ) {ρ' : ℝ} (h : HasDerivAt (ρ 1) ρ' 16) :
    HasDerivAt (fun t => (fs.map fun g => factorLoss ρ Ex.F (val t) g).sum) (4 - ρ') 0 := by
  have h1 : HasDerivAt (fun t : ℝ => (4 * (1 / 8 + t)) ^ 2) 4 0 := by
    have := (((hasDerivAt_id (0:ℝ)).const_add (1 / 8)).const_mul 4).fun_pow 2
    refine this.congr_deriv ?_
    norm_num
  have h2 : HasDerivAt (fun t : ℝ => ρ 1 (16 - t)) (-ρ') 0 := by
    have h' : HasDerivAt (ρ 1) ρ' (16 - 0) := by simpa using h
    have := HasDerivAt.comp (0:ℝ) h' ((hasDerivAt_id (0:ℝ)).const_sub 16)
    refine this.congr_deriv ?_
    ring
  refine ((h1.add h2).congr_of_eventuallyEq ?_).congr_deriv (by ring)
  filter_upwards [Iio_mem_nhds (show (0:ℝ) < 15 by norm_num)] with t ht
  simp only [fs, List.map_cons, List.map_nil, List.sum_cons, List.sum_nil, add_zero]
  rw [f_loss, out_loss ρ ht]
  rfl

/-- A case for `C69_inliers_partial`: the same graph at the measurement of the outlier, which is below its threshold there. -/
example : Holds Ex.C fs [Ex.x] (val 16) (a 16) ∧ (∀ g ∈ fs, JacobiansCorrect Ex.F Ex.C g (g.vars.map (val 16))) ∧
    ∀ g ∈ fs, ∀ N δ u, g.noise = .huber N ⟨[], [δ]⟩ → N.whiten ((Ex.F g.cls).residual g.self (g.vars.map (val 16))) = .ok u →
      Real.sqrt (sqNorm u) < δ := by
  refine ⟨holds 16, correct 16, fun g hg N δ u hN hu => ?_⟩
  simp only [fs, List.mem_cons, List.not_mem_nil, or_false] at hg
  rcases hg with rfl | rfl
  · cases hN
  · have hn : out.noise = .huber (.diagonal ⟨[1], [1]⟩) ⟨[], [1]⟩ := rfl
    rw [hn] at hN
    cases hN
    rw [out_whiten] at hu
    cases hu
    norm_num [sqNorm]

end HuberEx

/-- **C69, negation.** One variable at 1/8, a measurement 0 with weight 4 and an outlier at distance 16 with Huber threshold 1. The
right-hand side of the normal equations is zero, so Gauss-Newton stays where it is; but the Huber loss has derivative 2 there, and
the cost that `compute_cost` reports has derivative 3. -/
theorem C69_not_the_huber_gradient :
    ∃ (g : Graph) (r : List ℝ) (A : Coo ℝ), (∀ f ∈ HuberEx.fs, FactorWF Ex.F Ex.C f) ∧ Graph.make Ex.C HuberEx.fs = .ok g ∧
      (∀ t, Holds Ex.C HuberEx.fs [Ex.x] (HuberEx.val t) (HuberEx.a t)) ∧ (HuberEx.a 0).layout = g.layout ∧
      (∀ f ∈ HuberEx.fs, JacobiansCorrect Ex.F Ex.C f (f.vars.map (HuberEx.val 0))) ∧
      g.computeWhitenedResidualVector Ex.F Ex.C (HuberEx.a 0) = .ok r ∧
      g.computeWhitenedResidualJacobian Ex.F Ex.C (HuberEx.a 0) r = .ok A ∧ A.T.matmul r = .ok [0] ∧
      HasDerivAt (fun t => (HuberEx.fs.map fun f => factorLoss huberLoss Ex.F (HuberEx.val t) f).sum) 2 0 ∧
      ∃ cost : ℝ → ℝ, (∀ t, ∃ w, g.computeCost Ex.F Ex.C (HuberEx.a t) = .ok (cost t, w)) ∧ HasDerivAt cost 3 0 := by
  obtain ⟨g, hg, hall⟩ := C69_coded_loss_partial Ex.F Ex.C Ex.good HuberEx.fs (by simp [HuberEx.fs]) HuberEx.wf HuberEx.simple
  obtain ⟨g', hg', hG⟩ := graph_ok (F := Ex.F) HuberEx.wf (by simp [HuberEx.fs])
  rw [hg] at hg'; cases hg'
  have hvars : Graph.variablesOf HuberEx.fs = [Ex.x] := rfl
  have hlay : (HuberEx.a 0).layout = g.layout := by rw [hG.layout, hvars]; rfl
  have hzero : ∀ v ∈ [Ex.x], (Ex.C v.ty).retract (HuberEx.val 0 v) (List.replicate (Ex.C v.ty).localDim 0) = HuberEx.val 0 v := by
    intro v hv
    rw [List.mem_singleton.1 hv, Ex.localDim]
    simp [Ex.C, VarClass.realVector, VarClass.euclidean, HuberEx.val, Value.flatten, unravel, splitLeaves, Ex.x, List.replicate]
  obtain ⟨c, r, A, y, hc, hA, hy, hyl, hd⟩ := hall _ _ _ (HuberEx.holds 0) hlay (HuberEx.correct 0) hzero
  have hgrp : grouped [Ex.x] = [Ex.x] := by decide
  have hdim : g.localLayout.dim = 1 := by
    rw [hG.localLayout, hvars, make_dim _ (by decide), hgrp]
    simp [total, dimOf, Ex.localDim, Ex.x]
  rw [hdim] at hyl
  obtain ⟨y0, rfl⟩ := List.length_eq_one_iff.1 hyl
  obtain ⟨b, vt, hb, hder⟩ := hd [1] (by rw [hdim]; rfl)
  have hblock : block Ex.C ⟨[1], g.localLayout⟩ Ex.x = [1] := by
    have hδ : IsAssignmentOf Ex.C [Ex.x] ⟨[(1:ℝ)], g.localLayout⟩ := by
      refine ⟨by decide, ?_, by rw [hdim]; rfl⟩
      simp only [hG.localLayout, make_localFlag, hvars]
    obtain ⟨q, hq⟩ := exists_rep hδ
    have := hq.storage
    rw [hgrp] at this
    rw [hq.block_eq (by simp)]
    simpa using this.symm
  have hvt : ∀ t, vt t Ex.x = HuberEx.val t Ex.x := by
    intro t
    rw [(hb t).2.2]
    simp only [hblock]
    simp [Ex.C, VarClass.realVector, VarClass.euclidean, HuberEx.val, Value.flatten, unravel, splitLeaves, Ex.x]
  have hfun : (fun t => (HuberEx.fs.map fun f => factorLoss fiveFourthsLoss Ex.F (vt t) f).sum) =
      fun t => (HuberEx.fs.map fun f => factorLoss fiveFourthsLoss Ex.F (HuberEx.val t) f).sum := by
    funext t
    simp only [HuberEx.fs, List.map_cons, List.map_nil, factorLoss, HuberEx.f, HuberEx.out, hvt]
  rw [hfun] at hder
  have h54 : HasDerivAt (fiveFourthsLoss 1) 4 16 := by
    have h1 := (Real.hasDerivAt_rpow_const (x := 16) (p := 5 / 4) (Or.inl (by norm_num))).const_mul (8 / 5)
    refine ((h1.sub_const (3 / 5)).congr_of_eventuallyEq ?_).congr_deriv ?_
    · filter_upwards [Ioi_mem_nhds (show (1:ℝ) < 16 by norm_num)] with x hx
      rw [fiveFourthsLoss, if_neg (not_lt.2 (le_of_lt hx))]
      simp
    · rw [show (16:ℝ) = 2 ^ (4:ℝ) by norm_num, ← Real.rpow_mul (by norm_num)]
      norm_num
  have hh : HasDerivAt (huberLoss 1) 2 16 := by
    have h1 := (hasDerivAt_id (16:ℝ)).const_mul 2
    refine ((h1.sub_const 1).congr_of_eventuallyEq ?_).congr_deriv (by norm_num)
    filter_upwards [Ioi_mem_nhds (show (1:ℝ) < 16 by norm_num)] with x hx
    rw [huberLoss, if_neg (not_lt.2 (le_of_lt hx))]
    simp
  have hy0 : y0 = 0 := by
    have h1 := hder.unique (HuberEx.loss_deriv fiveFourthsLoss h54)
    rw [hdim] at h1
    have : vec [y0] 1 ⬝ᵥ vec [(1:ℝ)] 1 = y0 := by simp [dotProduct, Spec.vec]
    rw [this] at h1
    linarith
  subst hy0
  have hres : g.computeWhitenedResidualVector Ex.F Ex.C (HuberEx.a 0) = .ok r := by
    unfold Graph.computeCost at hc
    cases hv : g.computeWhitenedResidualVector Ex.F Ex.C (HuberEx.a 0) with
    | error e => rw [hv] at hc; cases hc
    | ok r' => rw [hv] at hc; cases hc; rfl
  refine ⟨g, r, A, HuberEx.wf, hg, HuberEx.holds, hlay, HuberEx.correct 0, hres, hA, hy, ?_, ?_⟩
  · exact (HuberEx.loss_deriv huberLoss hh).congr_deriv (by norm_num)
  · obtain ⟨g', hg', h16⟩ := C16_cost_is_sum Ex.F Ex.C Ex.good HuberEx.fs (by simp [HuberEx.fs]) HuberEx.wf
    rw [hg] at hg'; cases hg'
    have := fun t => h16 _ _ _ (HuberEx.holds t)
    choose w hw hcost using this
    refine ⟨_, fun t => ⟨_, hcost t⟩, ?_⟩
    have hcoded := HuberEx.loss_deriv (fun _ n => n) (ρ' := 1) (hasDerivAt_id 16)
    refine (hcoded.congr_of_eventuallyEq ?_).congr_deriv (by norm_num)
    filter_upwards [Iio_mem_nhds (show (0:ℝ) < 15 by norm_num)] with t ht
    simp only [HuberEx.fs, List.map_cons, List.map_nil, List.sum_cons, List.sum_nil, add_zero]
    rw [HuberEx.f_loss, HuberEx.out_loss _ ht]
    congr 1
    · have := hw t HuberEx.f (by simp [HuberEx.fs])
      unfold whitenedAt at this
      rw [HuberEx.f_whiten] at this
      rw [← Except.ok.inj this]
      simp [sqNorm]
    · have := hw t HuberEx.out (by simp [HuberEx.fs])
      unfold whitenedAt at this
      obtain ⟨v, h1, h2, h3, h4⟩ := C29_huber_whitening _ 1 one_pos _ _ (HuberEx.out_whiten t)
      have e : (Noise.huber (.diagonal ⟨[1], [1]⟩) ⟨[], [1]⟩) = HuberEx.out.noise := rfl
      rw [e, this] at h1
      rw [Except.ok.inj h1, h3 (by rw [HuberEx.out_norm ht]; linarith [show t < 15 from ht]), HuberEx.out_norm ht, one_mul]

end Jaxfg.Props
