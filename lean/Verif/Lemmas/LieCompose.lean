/- Two small retractions of a pose, one after the other, are one small retraction by about the sum. -/
import Verif.Lemmas.LieFrechet
import Mathlib.Analysis.Calculus.FDeriv.Prod

namespace Jaxfg
open Spec Filter LieGroup Topology
open Matrix hiding vec

/-- The entries of the adjoint are differentiable functions of the parameters. -/
theorem smooth_adjoint (k : LieType) {E : Type} [NormedAddCommGroup E] [NormedSpace ℝ E] {p : E} {a : E → List ℝ} (ha : Smooth a p) :
    Smooth (fun x => (k.ops.adjoint (a x)).data) p := by
  cases k
  · exact Smooth.const [1]
  · exact .cons (ha 0) <| .cons (ha 1).neg <| .cons (ha 3) <| .cons (ha 1) <| .cons (ha 0) <| .cons (ha 2).neg <|
      Smooth.const [0, 0, 1]
  · exact smooth_so3Matrix ha
  · have hR := smooth_so3Matrix (ha.take 4)
    have ht := ha.drop 4
    have hS : Smooth (fun x => skewMul ((a x).drop 4) (so3Matrix ((a x).take 4))) p := by
      have x := ht 0
      have y := ht 1
      have z := ht 2
      exact .cons ((z.neg.mul (hR 3)).add (y.mul (hR 6))) <| .cons ((z.neg.mul (hR 4)).add (y.mul (hR 7))) <|
        .cons ((z.neg.mul (hR 5)).add (y.mul (hR 8))) <|
        .cons ((z.mul (hR 0)).sub (x.mul (hR 6))) <| .cons ((z.mul (hR 1)).sub (x.mul (hR 7))) <|
        .cons ((z.mul (hR 2)).sub (x.mul (hR 8))) <|
        .cons ((y.neg.mul (hR 0)).add (x.mul (hR 3))) <| .cons ((y.neg.mul (hR 1)).add (x.mul (hR 4))) <|
        .cons ((y.neg.mul (hR 2)).add (x.mul (hR 5))) .nil
    exact .cons (hR 0) <| .cons (hR 1) <| .cons (hR 2) <| .cons (hS 0) <| .cons (hS 1) <| .cons (hS 2) <|
      .cons (hR 3) <| .cons (hR 4) <| .cons (hR 5) <| .cons (hS 3) <| .cons (hS 4) <| .cons (hS 5) <|
      .cons (hR 6) <| .cons (hR 7) <| .cons (hR 8) <| .cons (hS 6) <| .cons (hS 7) <| .cons (hS 8) <|
      .cons (differentiableAt_const 0) <| .cons (differentiableAt_const 0) <| .cons (differentiableAt_const 0) <|
      .cons (hR 0) <| .cons (hR 1) <| .cons (hR 2) <|
      .cons (differentiableAt_const 0) <| .cons (differentiableAt_const 0) <| .cons (differentiableAt_const 0) <|
      .cons (hR 3) <| .cons (hR 4) <| .cons (hR 5) <|
      .cons (differentiableAt_const 0) <| .cons (differentiableAt_const 0) <| .cons (differentiableAt_const 0) <|
      .cons (hR 6) <| .cons (hR 7) <| .cons (hR 8) .nil

/-- The exponential is differentiable at zero. -/
theorem smooth_exp (k : LieType) {E : Type} [NormedAddCommGroup E] [NormedSpace ℝ E] {p : E} {f : E → Fin k.ops.tangentDim → ℝ}
    (hf : DifferentiableAt ℝ f p) (h0 : f p = 0) : Smooth (fun x => k.ops.exp (List.ofFn (f x))) p := by
  have L := lieLaws k
  intro i
  have h1 := smooth_rplus k L.one rfl i
  rw [← h0] at h1
  refine (h1.comp p hf).congr_of_eventuallyEq (Eventually.of_forall fun x => ?_)
  show _ = (k.ops.rplus k.ops.identity (List.ofFn (f x))).getD i 0
  rw [LieGroup.rplus, L.one_mul _ (L.exp _)]

/-- Where the real part of the quaternions stays positive, taking the exponential of the logarithm gives the same parameters. -/
theorem exp_log_of_pos (k : LieType) {x : List ℝ} (hx : k.Valid x) (h1 : 0 < x.getD 0 0)
    (h2 : 0 < (k.ops.exp (k.ops.log x)).getD 0 0) : k.ops.exp (k.ops.log x) = x ∨ k = .so2 ∨ k = .se2 := by
  cases k
  · exact Or.inr (Or.inl rfl)
  · exact Or.inr (Or.inr rfl)
  · rcases so3_exp_log hx with h | h
    · exact Or.inl h
    · obtain ⟨w, i, j, k, rfl, _⟩ := hx
      have h3 : 0 < (so3Exp (so3Log [w, i, j, k])).getD 0 0 := h2
      rw [h] at h3
      simp at h1 h3
      linarith
  · rcases se3_exp_log hx with h | h
    · exact Or.inl h
    · obtain ⟨w, i, j, k, a, b, c, rfl, _⟩ := hx
      have h3 : 0 < (se3Exp (se3Log [w, i, j, k, a, b, c])).getD 0 0 := h2
      rw [h] at h3
      simp at h1 h3
      linarith

theorem exp_log_planar (k : LieType) {x : List ℝ} (hx : k.Valid x) (hk : k = .so2 ∨ k = .se2) : k.ops.exp (k.ops.log x) = x := by
  rcases hk with rfl | rfl
  · obtain ⟨c, s, rfl, h⟩ := hx
    have hcs := cos_sin_arctan2 h
    show [Real.cos (arctan2 s c), Real.sin (arctan2 s c)] = _
    rw [hcs.1, hcs.2]
  · exact se2_exp_log hx

/-- The tangent vector of two motions, one after the other. -/
noncomputable def composed (k : LieType) (d x : List ℝ) : List ℝ := k.ops.log (k.ops.multiply (k.ops.exp d) (k.ops.exp x))

theorem composed_smooth (k : LieType) :
    Smooth (fun p : (Fin k.ops.tangentDim → ℝ) × (Fin k.ops.tangentDim → ℝ) =>
      k.ops.multiply (k.ops.exp (List.ofFn p.1)) (k.ops.exp (List.ofFn p.2))) 0 :=
  smooth_multiply k (smooth_exp k differentiableAt_fst rfl) (smooth_exp k differentiableAt_snd rfl) fun _ =>
    (lieLaws k).len _ ((lieLaws k).exp _)

theorem exp_ofFn_zero (k : LieType) : k.ops.exp (List.ofFn (0 : Fin k.ops.tangentDim → ℝ)) = k.ops.identity := by
  have e : List.ofFn (0 : Fin k.ops.tangentDim → ℝ) = List.replicate k.ops.tangentDim 0 := by
    rw [show (0 : Fin k.ops.tangentDim → ℝ) = fun _ => 0 from rfl, List.ofFn_const]
  rw [e, (lieLaws k).exp_zero]

theorem log_one (k : LieType) : k.ops.log k.ops.identity = List.replicate k.ops.tangentDim 0 := by
  rw [← (lieLaws k).exp_zero, log_exp k (by simp)]
  cases k <;> simp [LieType.angle, LieType.ops, so2, se2, so3, se3, Real.pi_pos, List.replicate]

theorem composed_log_smooth (k : LieType) :
    Smooth (fun p : (Fin k.ops.tangentDim → ℝ) × (Fin k.ops.tangentDim → ℝ) => composed k (List.ofFn p.1) (List.ofFn p.2)) 0 := by
  have L := lieLaws k
  have e : k.ops.multiply (k.ops.exp (List.ofFn (0 : (Fin k.ops.tangentDim → ℝ) × (Fin k.ops.tangentDim → ℝ)).1))
      (k.ops.exp (List.ofFn (0 : (Fin k.ops.tangentDim → ℝ) × (Fin k.ops.tangentDim → ℝ)).2)) = k.ops.identity := by
    rw [Prod.fst_zero, Prod.snd_zero, exp_ofFn_zero, L.one_mul _ L.one]
  refine smooth_log k (composed_smooth k) ?_ ?_
  · rw [e]; exact L.one
  · rw [e]; exact log_one k

theorem identity_pos (k : LieType) : 0 < k.ops.identity.getD 0 0 := by
  cases k <;> simp [LieType.ops, so2, se2, so3, se3]

/-- For small tangent vectors, `composed` is the tangent vector of the product. -/
theorem exp_composed (k : LieType) : ∀ᶠ p : (Fin k.ops.tangentDim → ℝ) × (Fin k.ops.tangentDim → ℝ) in 𝓝 0,
    k.ops.exp (composed k (List.ofFn p.1) (List.ofFn p.2)) = k.ops.multiply (k.ops.exp (List.ofFn p.1)) (k.ops.exp (List.ofFn p.2)) := by
  have L := lieLaws k
  have hlen : ∀ d x, (composed k d x).length = k.ops.tangentDim := fun d x => L.log_len _
  have hofn : ∀ d x, List.ofFn (Spec.vec (composed k d x) k.ops.tangentDim) = composed k d x := by
    intro d x
    apply List.ext_getElem
    · simp [hlen]
    · intro i h1 h2
      simp only [List.getElem_ofFn, Spec.vec]
      rw [List.getD_eq_getElem _ _ h2]
  have c0 : Spec.vec (composed k (List.ofFn (0 : (Fin k.ops.tangentDim → ℝ) × (Fin k.ops.tangentDim → ℝ)).1)
      (List.ofFn (0 : (Fin k.ops.tangentDim → ℝ) × (Fin k.ops.tangentDim → ℝ)).2)) k.ops.tangentDim = 0 := by
    rw [Prod.fst_zero, Prod.snd_zero, composed, exp_ofFn_zero, L.one_mul _ L.one, log_one]
    funext i
    simp [Spec.vec]
  have s1 := (composed_smooth k 0).continuousAt
  have s2 := (smooth_exp k ((composed_log_smooth k).vec _) c0 0).continuousAt
  simp only [hofn] at s2
  have e1 : 0 < (k.ops.multiply (k.ops.exp (List.ofFn (0 : (Fin k.ops.tangentDim → ℝ) × (Fin k.ops.tangentDim → ℝ)).1))
      (k.ops.exp (List.ofFn (0 : (Fin k.ops.tangentDim → ℝ) × (Fin k.ops.tangentDim → ℝ)).2))).getD 0 0 := by
    rw [Prod.fst_zero, Prod.snd_zero, exp_ofFn_zero, L.one_mul _ L.one]
    exact identity_pos k
  have e2 : 0 < (k.ops.exp (composed k (List.ofFn (0 : (Fin k.ops.tangentDim → ℝ) × (Fin k.ops.tangentDim → ℝ)).1)
      (List.ofFn (0 : (Fin k.ops.tangentDim → ℝ) × (Fin k.ops.tangentDim → ℝ)).2))).getD 0 0 := by
    rw [← hofn, c0, exp_ofFn_zero]
    exact identity_pos k
  filter_upwards [s1.eventually (lt_mem_nhds e1), s2.eventually (lt_mem_nhds e2)] with p h1 h2
  have hv := L.mul _ _ (L.exp (List.ofFn p.1)) (L.exp (List.ofFn p.2))
  rcases exp_log_of_pos k hv h1 h2 with h | h
  · exact h
  · exact exp_log_planar k hv h

/-- To first order, `composed` is the sum. -/
theorem composed_deriv (k : LieType) : HasFDerivAt (fun p : (Fin k.ops.tangentDim → ℝ) × (Fin k.ops.tangentDim → ℝ) =>
    Spec.vec (composed k (List.ofFn p.1) (List.ofFn p.2)) k.ops.tangentDim)
    (ContinuousLinearMap.fst ℝ _ _ + ContinuousLinearMap.snd ℝ _ _) 0 := by
  have L := lieLaws k
  have hd := (composed_log_smooth k).vec k.ops.tangentDim
  obtain ⟨D, hD⟩ := hd
  refine hD.congr_fderiv ?_
  refine ContinuousLinearMap.ext fun p => ?_
  have h1 := L.deriv k.ops.identity (List.ofFn p.1) (List.ofFn p.2) L.one (log_one k) (by simp) (by simp)
  have h2 : HasDerivAt (fun t : ℝ => t • p) p 0 := by simpa using (hasDerivAt_id (0 : ℝ)).smul_const p
  rw [← zero_smul ℝ p] at hD
  have h3 := hD.comp_hasDerivAt (0 : ℝ) h2
  have hsc : ∀ (t : ℝ) (v : Fin k.ops.tangentDim → ℝ), scale t (List.ofFn v) = List.ofFn (t • v) := by
    intro t v
    apply List.ext_getElem
    · simp [scale]
    · intro i _ _; simp [scale]
  have hvec : ∀ v : Fin k.ops.tangentDim → ℝ, Spec.vec (List.ofFn v) k.ops.tangentDim = v := by
    intro v; funext i; simp [Spec.vec]
  rw [hvec, hvec] at h1
  refine h3.unique (h1.congr_of_eventuallyEq (Eventually.of_forall fun t => ?_))
  simp only [Function.comp, hsc, composed, Prod.smul_fst, Prod.smul_snd]
  rw [L.mul_one _ (L.mul _ _ (L.exp _) (L.exp _))]

end Jaxfg
