/- Differentiability of the group operations and of the logarithm, in several variables. -/
import Verif.Lemmas.LieRetract
import Mathlib.Analysis.SpecialFunctions.Complex.LogDeriv
import Mathlib.Analysis.Complex.RealDeriv
import Mathlib.Data.List.GetD

namespace Jaxfg
open Spec Filter Topology LieGroup
open Matrix hiding vec

variable {E : Type} [NormedAddCommGroup E] [NormedSpace ℝ E] {p : E}

/-- Every element of the list is differentiable at `p`. -/
def Smooth (l : E → List ℝ) (p : E) : Prop := ∀ k, DifferentiableAt ℝ (fun x => (l x).getD k 0) p

theorem Smooth.nil : Smooth (fun _ : E => []) p := fun k => by simp

theorem Smooth.cons {a : E → ℝ} {l : E → List ℝ} (ha : DifferentiableAt ℝ a p) (hl : Smooth l p) : Smooth (fun x => a x :: l x) p := by
  intro k
  cases k with
  | zero => simpa using ha
  | succ k => simpa using hl k

theorem Smooth.const (l : List ℝ) : Smooth (fun _ : E => l) p := fun k => by simp

theorem Smooth.take {l : E → List ℝ} (h : Smooth l p) (n : Nat) : Smooth (fun x => (l x).take n) p := by
  intro k
  by_cases hk : k < n
  · have : (fun x => ((l x).take n).getD k 0) = fun x => (l x).getD k 0 := by
      funext x
      simp only [List.getD_eq_getElem?_getD, List.getElem?_take, if_pos hk]
    rw [this]
    exact h k
  · have : (fun x => ((l x).take n).getD k 0) = fun _ => 0 := by
      funext x
      simp only [List.getD_eq_getElem?_getD, List.getElem?_take, if_neg hk, Option.getD_none]
    rw [this]
    exact differentiableAt_const _

theorem Smooth.drop {l : E → List ℝ} (h : Smooth l p) (n : Nat) : Smooth (fun x => (l x).drop n) p := by
  intro k
  have : (fun x => ((l x).drop n).getD k 0) = fun x => (l x).getD (n + k) 0 := by
    funext x
    simp only [List.getD_eq_getElem?_getD, List.getElem?_drop]
  rw [this]
  exact h _

theorem Smooth.vec {l : E → List ℝ} (h : Smooth l p) (n : Nat) : DifferentiableAt ℝ (fun x => Spec.vec (l x) n) p :=
  differentiableAt_pi.2 fun i => h i

theorem smooth_so2Mul {a b : E → List ℝ} (ha : Smooth a p) (hb : Smooth b p) : Smooth (fun x => so2Mul (a x) (b x)) p := by
  have := ha 0; have := ha 1; have := hb 0; have := hb 1
  exact .cons (by fun_prop) (.cons (by fun_prop) .nil)

theorem smooth_so2Inv {a : E → List ℝ} (ha : Smooth a p) : Smooth (fun x => so2Inv (a x)) p := by
  have := ha 0; have := ha 1
  exact .cons (by fun_prop) (.cons (by fun_prop) .nil)

theorem smooth_se2Mul {a b : E → List ℝ} (ha : Smooth a p) (hb : Smooth b p) : Smooth (fun x => se2Mul (a x) (b x)) p := by
  have := ha 0; have := ha 1; have := ha 2; have := ha 3
  have := hb 0; have := hb 1; have := hb 2; have := hb 3
  exact .cons (by fun_prop) (.cons (by fun_prop) (.cons (by fun_prop) (.cons (by fun_prop) .nil)))

theorem smooth_se2Inv {a : E → List ℝ} (ha : Smooth a p) : Smooth (fun x => se2Inv (a x)) p := by
  have := ha 0; have := ha 1; have := ha 2; have := ha 3
  exact .cons (by fun_prop) (.cons (by fun_prop) (.cons (by fun_prop) (.cons (by fun_prop) .nil)))

theorem smooth_so3Mul {a b : E → List ℝ} (ha : Smooth a p) (hb : Smooth b p) : Smooth (fun x => so3Mul (a x) (b x)) p := by
  have := ha 0; have := ha 1; have := ha 2; have := ha 3
  have := hb 0; have := hb 1; have := hb 2; have := hb 3
  exact .cons (by fun_prop) (.cons (by fun_prop) (.cons (by fun_prop) (.cons (by fun_prop) .nil)))

theorem smooth_so3Inv {a : E → List ℝ} (ha : Smooth a p) : Smooth (fun x => so3Inv (a x)) p := by
  have := ha 0; have := ha 1; have := ha 2; have := ha 3
  exact .cons (by fun_prop) (.cons (by fun_prop) (.cons (by fun_prop) (.cons (by fun_prop) .nil)))

theorem smooth_so3Matrix {a : E → List ℝ} (ha : Smooth a p) : Smooth (fun x => so3Matrix (a x)) p := by
  have := ha 0; have := ha 1; have := ha 2; have := ha 3
  exact .cons (by fun_prop) (.cons (by fun_prop) (.cons (by fun_prop) (.cons (by fun_prop) (.cons (by fun_prop)
    (.cons (by fun_prop) (.cons (by fun_prop) (.cons (by fun_prop) (.cons (by fun_prop) .nil))))))))

theorem smooth_mul3 {m v : E → List ℝ} (hm : Smooth m p) (hv : Smooth v p) : Smooth (fun x => mul3 (m x) (v x)) p := by
  have := hm 0; have := hm 1; have := hm 2; have := hm 3; have := hm 4; have := hm 5; have := hm 6; have := hm 7; have := hm 8
  have := hv 0; have := hv 1; have := hv 2
  exact .cons (by fun_prop) (.cons (by fun_prop) (.cons (by fun_prop) .nil))

/-- Four elements in front. -/
theorem Smooth.append4 {a b : E → List ℝ} (ha : Smooth a p) (hl : ∀ x, (a x).length = 4) (hb : Smooth b p) : Smooth (fun x => a x ++ b x) p := by
  intro k
  by_cases hk : k < 4
  · have : (fun x => (a x ++ b x).getD k 0) = fun x => (a x).getD k 0 := by
      funext x
      rw [List.getD_append _ _ _ _ (by rw [hl]; exact hk)]
    rw [this]; exact ha k
  · have : (fun x => (a x ++ b x).getD k 0) = fun x => (b x).getD (k - 4) 0 := by
      funext x
      rw [List.getD_append_right _ _ _ _ (by rw [hl]; omega), hl]
    rw [this]; exact hb _

theorem smooth_se3Mul {a b : E → List ℝ} (ha : Smooth a p) (hb : Smooth b p) (hl : ∀ x, (a x).length = 7) :
    Smooth (fun x => se3Mul (a x) (b x)) p := by
  refine (smooth_so3Mul (ha.take 4) (hb.take 4)).append4 (fun _ => rfl) ?_
  have h := smooth_mul3 (smooth_so3Matrix (ha.take 4)) (hb.drop 4)
  have h' := ha.drop 4
  have e : (fun x => List.zipWith (· + ·) (mul3 (so3Matrix ((a x).take 4)) ((b x).drop 4)) ((a x).drop 4)) = fun x =>
      [(mul3 (so3Matrix ((a x).take 4)) ((b x).drop 4)).getD 0 0 + ((a x).drop 4).getD 0 0,
       (mul3 (so3Matrix ((a x).take 4)) ((b x).drop 4)).getD 1 0 + ((a x).drop 4).getD 1 0,
       (mul3 (so3Matrix ((a x).take 4)) ((b x).drop 4)).getD 2 0 + ((a x).drop 4).getD 2 0] := by
    funext x
    obtain ⟨u, v, w, he⟩ := List.length_eq_three.1 (show ((a x).drop 4).length = 3 by simp [hl])
    rw [he]
    rfl
  rw [e]
  exact .cons ((h 0).add (h' 0)) (.cons ((h 1).add (h' 1)) (.cons ((h 2).add (h' 2)) .nil))

theorem smooth_se3Inv {a : E → List ℝ} (ha : Smooth a p) : Smooth (fun x => se3Inv (a x)) p := by
  refine (smooth_so3Inv (ha.take 4)).append4 (fun _ => rfl) ?_
  have h := smooth_mul3 (smooth_so3Matrix (smooth_so3Inv (ha.take 4))) (ha.drop 4)
  exact .cons (h 0).neg (.cons (h 1).neg (.cons (h 2).neg .nil))

theorem smooth_multiply (k : LieType) {a b : E → List ℝ} (ha : Smooth a p) (hb : Smooth b p)
    (hl : ∀ x, (a x).length = k.ops.parametersDim) : Smooth (fun x => k.ops.multiply (a x) (b x)) p := by
  cases k
  · exact smooth_so2Mul ha hb
  · exact smooth_se2Mul ha hb
  · exact smooth_so3Mul ha hb
  · exact smooth_se3Mul ha hb hl

theorem smooth_inverse (k : LieType) {a : E → List ℝ} (ha : Smooth a p) : Smooth (fun x => k.ops.inverse (a x)) p := by
  cases k
  · exact smooth_so2Inv ha
  · exact smooth_se2Inv ha
  · exact smooth_so3Inv ha
  · exact smooth_se3Inv ha

/-! ### The logarithm -/

/-- Product of a continuous function and a differentiable one that vanishes. -/
theorem differentiableAt_mul_of_zero {f v : E → ℝ} (hf : ContinuousAt f p) (hv : DifferentiableAt ℝ v p) (h0 : v p = 0) :
    DifferentiableAt ℝ (fun x => f x * v x) p := by
  obtain ⟨L, hL⟩ := hv
  refine ⟨f p • L, ?_⟩
  rw [hasFDerivAt_iff_isLittleO] at hL ⊢
  have h1 : (fun x => f x - f p) =o[𝓝 p] fun _ => (1:ℝ) := by
    rw [Asymptotics.isLittleO_one_iff]
    simpa [ContinuousAt] using hf.sub_const (f p)
  have h2 : (fun x => v x - v p) =O[𝓝 p] fun x => x - p := HasFDerivAt.isBigO_sub (hasFDerivAt_iff_isLittleO.2 hL)
  have h3 : (fun x => (f x - f p) * (v x - v p)) =o[𝓝 p] fun x => x - p := by
    have := h1.mul_isBigO h2.norm_right
    simp only [one_mul] at this
    exact this.of_norm_right
  have h4 := (hL.const_mul_left (f p)).add h3
  refine h4.congr_left fun x => ?_
  simp only [h0, _root_.smul_apply, smul_eq_mul]
  ring

/-- The angle is differentiable except at half a turn. -/
theorem differentiableAt_arctan2 {c s : E → ℝ} (hc : DifferentiableAt ℝ c p) (hs : DifferentiableAt ℝ s p)
    (h : 0 < c p ∨ s p ≠ 0) : DifferentiableAt ℝ (fun x => arctan2 (s x) (c x)) p := by
  have h1 : DifferentiableAt ℝ (fun x => ((c x : ℂ) + (s x : ℂ) * Complex.I)) p := by
    have hc' : DifferentiableAt ℝ (fun x => (c x : ℂ)) p := Complex.ofRealCLM.differentiableAt.comp p hc
    have hs' : DifferentiableAt ℝ (fun x => (s x : ℂ)) p := Complex.ofRealCLM.differentiableAt.comp p hs
    exact hc'.add (hs'.mul_const _)
  have h2 : DifferentiableAt ℝ Complex.log ((c p : ℂ) + (s p : ℂ) * Complex.I) :=
    (Complex.differentiableAt_log (by rw [Complex.mem_slitPlane_iff]; simpa using h)).restrictScalars ℝ
  have h3 := Complex.imCLM.differentiableAt.comp p (h2.comp p h1)
  refine h3.congr_of_eventuallyEq (Eventually.of_forall fun x => ?_)
  show Complex.arg _ = (Complex.log _).im
  rw [Complex.log_im]
  congr 1
  apply Complex.ext <;> simp

theorem smooth_so2Log {a : E → List ℝ} (ha : Smooth a p) (h : 0 < (a p).getD 0 0 ∨ (a p).getD 1 0 ≠ 0) :
    Smooth (fun x => so2.log (a x)) p :=
  .cons (differentiableAt_arctan2 (ha 0) (ha 1) h) .nil

theorem smooth_se2Log {a : E → List ℝ} (ha : Smooth a p) (h0 : a p = [1, 0, 0, 0]) : Smooth (fun x => se2Log (a x)) p := by
  have hθ := differentiableAt_arctan2 (ha 0) (ha 1) (by rw [h0]; simp)
  have θ0 : arctan2 ((a p).getD 1 0) ((a p).getD 0 0) = 0 := by
    rw [h0]
    show Complex.arg 1 = 0
    exact Complex.arg_one
  have hk : ContinuousAt (fun x => halfOverTan (arctan2 ((a x).getD 1 0) ((a x).getD 0 0))) p :=
    ContinuousAt.comp (g := halfOverTan) (by rw [θ0]; exact continuousAt_halfOverTan) hθ.continuousAt
  have x0 : (a p).getD 2 0 = 0 := by rw [h0]; rfl
  have y0 : (a p).getD 3 0 = 0 := by rw [h0]; rfl
  have := ha 2; have := ha 3
  exact .cons ((differentiableAt_mul_of_zero hk (ha 2) x0).add (by fun_prop))
    (.cons (DifferentiableAt.add (by fun_prop) (differentiableAt_mul_of_zero hk (ha 3) y0)) (.cons hθ .nil))

theorem smooth_so3Log {a : E → List ℝ} (ha : Smooth a p) {w : ℝ} (hw : w ≠ 0) (h0 : (a p).take 4 = [w, 0, 0, 0]) :
    Smooth (fun x => so3Log (a x)) p := by
  have e : ∀ k < 4, (a p).getD k 0 = [w, 0, 0, 0].getD k 0 := by
    intro k hk
    rw [← h0]
    simp only [List.getD_eq_getElem?_getD, List.getElem?_take, if_pos hk]
  have w0 : (a p).getD 0 0 = w := e 0 (by norm_num)
  have x0 : (a p).getD 1 0 = 0 := e 1 (by norm_num)
  have y0 : (a p).getD 2 0 = 0 := e 2 (by norm_num)
  have z0 : (a p).getD 3 0 = 0 := e 3 (by norm_num)
  have c0 := (ha 0).continuousAt
  have c1 := (ha 1).continuousAt
  have c2 := (ha 2).continuousAt
  have c3 := (ha 3).continuousAt
  have hn : ContinuousAt (fun x => norm3 ((a x).getD 1 0) ((a x).getD 2 0) ((a x).getD 3 0)) p := by
    unfold norm3
    fun_prop
  have n0 : norm3 ((a p).getD 1 0) ((a p).getD 2 0) ((a p).getD 3 0) = 0 := by rw [x0, y0, z0, norm3_zero]
  have hw' : (a p).getD 0 0 ≠ 0 := by rw [w0]; exact hw
  have hk : ContinuousAt (fun x => atanFactor ((a x).getD 0 0) (norm3 ((a x).getD 1 0) ((a x).getD 2 0) ((a x).getD 3 0))) p := by
    have h1 : ContinuousAt (fun x => 2 / (a x).getD 0 0 *
        atanOver (norm3 ((a x).getD 1 0) ((a x).getD 2 0) ((a x).getD 3 0) / (a x).getD 0 0)) p := by
      refine ContinuousAt.mul (continuousAt_const.div c0 hw') ?_
      refine ContinuousAt.comp (g := atanOver) ?_ (hn.div c0 hw')
      rw [n0, zero_div]
      exact continuousAt_atanOver
    refine h1.congr ?_
    filter_upwards [c0.eventually_ne hw'] with x hx
    rw [atanFactor_eq hx]
  exact .cons (differentiableAt_mul_of_zero hk (ha 1) x0) (.cons (differentiableAt_mul_of_zero hk (ha 2) y0)
    (.cons (differentiableAt_mul_of_zero hk (ha 3) z0) .nil))

/-- Three elements in front. -/
theorem Smooth.append3 {a b : E → List ℝ} (ha : Smooth a p) (hl : ∀ x, (a x).length = 3) (hb : Smooth b p) : Smooth (fun x => a x ++ b x) p := by
  intro k
  by_cases hk : k < 3
  · have : (fun x => (a x ++ b x).getD k 0) = fun x => (a x).getD k 0 := by
      funext x
      rw [List.getD_append _ _ _ _ (by rw [hl]; exact hk)]
    rw [this]; exact ha k
  · have : (fun x => (a x ++ b x).getD k 0) = fun x => (b x).getD (k - 3) 0 := by
      funext x
      rw [List.getD_append_right _ _ _ _ (by rw [hl]; omega), hl]
    rw [this]; exact hb _

/-- A polynomial of `skew(ω)`, times a vector, where both `ω` and the vector are zero. -/
theorem smooth_skewPoly {ω u : E → List ℝ} (hω : Smooth ω p) (ω0 : ω p = [0, 0, 0]) (hu : Smooth u p) (u0 : u p = [0, 0, 0]) :
    Smooth (fun x => mul3 (skewPoly (-1 / 2) (logCoeffC (norm3 ((ω x).getD 0 0) ((ω x).getD 1 0) ((ω x).getD 2 0))) (ω x)) (u x)) p := by
  have h0 := (hω 0).continuousAt
  have h1 := (hω 1).continuousAt
  have h2 := (hω 2).continuousAt
  have hn : Tendsto (fun x => norm3 ((ω x).getD 0 0) ((ω x).getD 1 0) ((ω x).getD 2 0)) (𝓝 p) (𝓝 0) := by
    have : ContinuousAt (fun x => norm3 ((ω x).getD 0 0) ((ω x).getD 1 0) ((ω x).getD 2 0)) p := by
      unfold norm3; fun_prop
    have := this.tendsto
    rw [ω0] at this
    simpa [norm3] using this
  have hc := logCoeffC_tendsto.comp hn
  have hprod : ∀ i j, i < 3 → j < 3 → ContinuousAt (fun x =>
      logCoeffC (norm3 ((ω x).getD 0 0) ((ω x).getD 1 0) ((ω x).getD 2 0)) * ((ω x).getD i 0 * (ω x).getD j 0)) p := by
    intro i j hi hj
    have hle : ∀ x, ∀ i < 3, |(ω x).getD i 0| ≤ norm3 ((ω x).getD 0 0) ((ω x).getD 1 0) ((ω x).getD 2 0) := by
      intro x i hi
      have h := abs_le_norm3 ((ω x).getD 0 0) ((ω x).getD 1 0) ((ω x).getD 2 0)
      interval_cases i
      · exact h.1
      · exact h.2.1
      · exact h.2.2
    have hz : (ω p).getD i 0 = 0 := by
      rw [ω0]
      interval_cases i <;> rfl
    show Tendsto _ _ (𝓝 (_ * ((ω p).getD i 0 * _)))
    rw [hz, zero_mul, mul_zero]
    have hcn := hc.norm
    rw [norm_zero] at hcn
    refine squeeze_zero_norm (fun x => ?_) hcn
    show ‖_‖ ≤ ‖logCoeffC (norm3 ((ω x).getD 0 0) ((ω x).getD 1 0) ((ω x).getD 2 0)) *
      norm3 ((ω x).getD 0 0) ((ω x).getD 1 0) ((ω x).getD 2 0) ^ 2‖
    rw [norm_mul, norm_mul, norm_mul, norm_pow, sq]
    simp only [Real.norm_eq_abs]
    refine mul_le_mul_of_nonneg_left (mul_le_mul ?_ ?_ (abs_nonneg _) (abs_nonneg _)) (abs_nonneg _)
    · exact (hle x i hi).trans (le_abs_self _)
    · exact (hle x j hj).trans (le_abs_self _)
  have c00 := hprod 0 0 (by norm_num) (by norm_num)
  have c11 := hprod 1 1 (by norm_num) (by norm_num)
  have c22 := hprod 2 2 (by norm_num) (by norm_num)
  have c01 := hprod 0 1 (by norm_num) (by norm_num)
  have c02 := hprod 0 2 (by norm_num) (by norm_num)
  have c12 := hprod 1 2 (by norm_num) (by norm_num)
  have e0 : (u p).getD 0 0 = 0 := by rw [u0]; rfl
  have e1 : (u p).getD 1 0 = 0 := by rw [u0]; rfl
  have e2 : (u p).getD 2 0 = 0 := by rw [u0]; rfl
  have key : ∀ m : E → List ℝ, (∀ k < 9, ContinuousAt (fun x => (m x).getD k 0) p) → Smooth (fun x => mul3 (m x) (u x)) p := by
    intro m hm
    have t := fun k (hk : k < 9) j (e : (u p).getD j 0 = 0) => differentiableAt_mul_of_zero (hm k hk) (hu j) e
    exact .cons (((t 0 (by norm_num) 0 e0).add (t 1 (by norm_num) 1 e1)).add (t 2 (by norm_num) 2 e2))
      (.cons (((t 3 (by norm_num) 0 e0).add (t 4 (by norm_num) 1 e1)).add (t 5 (by norm_num) 2 e2))
        (.cons (((t 6 (by norm_num) 0 e0).add (t 7 (by norm_num) 1 e1)).add (t 8 (by norm_num) 2 e2)) .nil))
  refine key _ fun k hk => ?_
  have hh : ContinuousAt (fun _ : E => (1:ℝ)) p := continuousAt_const
  interval_cases k
  · refine ((hh.sub c11).sub c22).congr (Eventually.of_forall fun x => ?_)
    simp only [skewPoly, List.getD_cons_zero, Pi.sub_apply]; ring
  · refine ((h2.const_mul (1 / 2)).add c01).congr (Eventually.of_forall fun x => ?_)
    simp only [skewPoly, List.getD_cons_zero, List.getD_cons_succ, Pi.add_apply]; ring
  · refine ((h1.const_mul (-1 / 2)).add c02).congr (Eventually.of_forall fun x => ?_)
    simp only [skewPoly, List.getD_cons_zero, List.getD_cons_succ, Pi.add_apply]
  · refine ((h2.const_mul (-1 / 2)).add c01).congr (Eventually.of_forall fun x => ?_)
    simp only [skewPoly, List.getD_cons_zero, List.getD_cons_succ, Pi.add_apply]
  · refine ((hh.sub c00).sub c22).congr (Eventually.of_forall fun x => ?_)
    simp only [skewPoly, List.getD_cons_zero, List.getD_cons_succ, Pi.sub_apply]; ring
  · refine ((h0.const_mul (1 / 2)).add c12).congr (Eventually.of_forall fun x => ?_)
    simp only [skewPoly, List.getD_cons_zero, List.getD_cons_succ, Pi.add_apply]; ring
  · refine ((h1.const_mul (1 / 2)).add c02).congr (Eventually.of_forall fun x => ?_)
    simp only [skewPoly, List.getD_cons_zero, List.getD_cons_succ, Pi.add_apply]; ring
  · refine ((h0.const_mul (-1 / 2)).add c12).congr (Eventually.of_forall fun x => ?_)
    simp only [skewPoly, List.getD_cons_zero, List.getD_cons_succ, Pi.add_apply]
  · refine ((hh.sub c00).sub c11).congr (Eventually.of_forall fun x => ?_)
    simp only [skewPoly, List.getD_cons_zero, List.getD_cons_succ, Pi.sub_apply]; ring

theorem smooth_se3Log {a : E → List ℝ} (ha : Smooth a p) {w : ℝ} (hw : w ≠ 0) (h0 : a p = [w, 0, 0, 0, 0, 0, 0]) :
    Smooth (fun x => se3Log (a x)) p := by
  have hω : Smooth (fun x => so3Log ((a x).take 4)) p := smooth_so3Log (ha.take 4) hw (by rw [h0]; rfl)
  have ω0 : so3Log ((a p).take 4) = [0, 0, 0] := by rw [h0]; simp [so3Log]
  exact (smooth_skewPoly hω ω0 (ha.drop 4) (by rw [h0]; rfl)).append3 (fun _ => rfl) hω

/-- The logarithm is differentiable where it is zero. -/
theorem smooth_log (k : LieType) {a : E → List ℝ} (ha : Smooth a p) (hv : k.Valid (a p))
    (h0 : k.ops.log (a p) = List.replicate k.ops.tangentDim 0) : Smooth (fun x => k.ops.log (a x)) p := by
  cases k
  · obtain ⟨c, s, e, h⟩ := hv
    have h0' : arctan2 s c = 0 := by
      have : [arctan2 ((a p).getD 1 0) ((a p).getD 0 0)] = [0] := h0
      rw [e] at this
      simpa using this
    have hcs := cos_sin_arctan2 h
    rw [h0'] at hcs
    refine smooth_so2Log ha (Or.inl ?_)
    rw [e]
    show 0 < c
    rw [← hcs.1]
    simp
  · have he := se2_exp_log hv
    have h0' : se2Log (a p) = [0, 0, 0] := h0
    rw [h0'] at he
    refine smooth_se2Log ha (he.symm.trans ?_)
    simp [se2Exp]
  · rcases so3_log_zero hv h0 with e | e
    · exact smooth_so3Log ha one_ne_zero (by rw [e]; rfl)
    · exact smooth_so3Log ha (w := -1) (by norm_num) (by rw [e]; rfl)
  · rcases se3_log_zero hv h0 with e | e
    · exact smooth_se3Log ha one_ne_zero e
    · exact smooth_se3Log ha (w := -1) (by norm_num) e

/-- The retraction is differentiable at zero. -/
theorem smooth_rplus (k : LieType) {x : List ℝ} (hx : k.Valid x) {n : Nat} (hn : n = k.ops.tangentDim) :
    Smooth (fun d : Fin n → ℝ => k.ops.rplus x (List.ofFn d)) 0 := by
  subst hn
  have h := (lie_retractDerivatives k hx).2.differentiableAt
  intro i
  by_cases hi : i < k.ops.parametersDim
  · rw [differentiableAt_pi] at h
    have h' := h ⟨i, by rw [lie_paramDim]; exact hi⟩
    refine h'.congr_of_eventuallyEq (Eventually.of_forall fun d => ?_)
    show _ = (k.ops.value (k.ops.rplus (k.ops.value x).flatten (List.ofFn d))).flatten.getD i 0
    rw [value_flatten, value_flatten]
    rfl
  · have : (fun d : Fin k.ops.tangentDim → ℝ => (k.ops.rplus x (List.ofFn d)).getD i 0) = fun _ => 0 := by
      funext d
      have L := lieLaws k
      have hl := L.len _ (L.mul _ _ hx (L.exp (List.ofFn d)))
      rw [LieGroup.rplus, List.getD_eq_default _ _ (by rw [hl]; omega)]
    rw [this]
    exact differentiableAt_const _

end Jaxfg
