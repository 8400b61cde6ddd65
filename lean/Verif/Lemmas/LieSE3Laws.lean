/- SE(3): the group laws. -/
import Verif.Lemmas.LieSE3

namespace Jaxfg.LieGroup
open Spec Filter Topology
open Matrix

theorem se3_one_eq : ([1, 0, 0, 0, 0, 0, 0] : List ℝ) = [1, 0, 0, 0] ++ [0, 0, 0] := rfl

theorem se3_mul (x y : List ℝ) (hx : LieType.Valid .se3 x) (hy : LieType.Valid .se3 y) : LieType.Valid .se3 (se3Mul x y) := by
  obtain ⟨q, t, hq, ht, rfl⟩ := se3_split.1 hx
  obtain ⟨q', t', hq', ht', rfl⟩ := se3_split.1 hy
  rw [se3Mul_split hq hq' ht ht']
  exact se3_split.2 ⟨_, _, so3Mul_valid hq hq', rfl, rfl⟩

theorem se3_inv (x : List ℝ) (hx : LieType.Valid .se3 x) : LieType.Valid .se3 (se3Inv x) := by
  obtain ⟨q, t, hq, ht, rfl⟩ := se3_split.1 hx
  rw [se3Inv_split hq ht]
  exact se3_split.2 ⟨_, _, so3Inv_valid hq, rfl, rfl⟩

theorem se3_mul_assoc (x y z : List ℝ) (hx : LieType.Valid .se3 x) (hy : LieType.Valid .se3 y) (hz : LieType.Valid .se3 z) : se3Mul (se3Mul x y) z = se3Mul x (se3Mul y z) := by
  obtain ⟨q, t, hq, ht, rfl⟩ := se3_split.1 hx
  obtain ⟨q', t', hq', ht', rfl⟩ := se3_split.1 hy
  obtain ⟨q'', t'', hq'', ht'', rfl⟩ := se3_split.1 hz
  rw [se3Mul_split hq hq' ht ht', se3Mul_split hq' hq'' ht' ht'', se3Mul_split (so3Mul_valid hq hq') hq'' rfl ht'',
    se3Mul_split hq (so3Mul_valid hq' hq'') ht rfl]
  congr 1
  · exact so3_laws.mul_assoc _ _ _ hq hq' hq''
  · rw [so3Matrix_mul' hq hq', mul3_add3, add3_assoc]

theorem se3_one_mul (x : List ℝ) (hx : LieType.Valid .se3 x) : se3Mul [1, 0, 0, 0, 0, 0, 0] x = x := by
  obtain ⟨q, t, hq, ht, rfl⟩ := se3_split.1 hx
  rw [se3_one_eq]
  rw [se3Mul_split so3One_valid hq rfl ht, so3Matrix_one ht]
  congr 1
  · exact so3_laws.one_mul _ hq
  · exact list3_ext rfl ht (by simp [add3]) (by simp [add3]) (by simp [add3])

theorem se3_mul_one (x : List ℝ) (hx : LieType.Valid .se3 x) : se3Mul x [1, 0, 0, 0, 0, 0, 0] = x := by
  obtain ⟨q, t, hq, ht, rfl⟩ := se3_split.1 hx
  rw [se3_one_eq]
  rw [se3Mul_split hq so3One_valid ht rfl]
  congr 1
  · exact so3_laws.mul_one _ hq
  · exact list3_ext rfl ht (by simp [add3, mul3]) (by simp [add3, mul3]) (by simp [add3, mul3])

theorem se3_inv_mul (x : List ℝ) (hx : LieType.Valid .se3 x) : se3Mul (se3Inv x) x = [1, 0, 0, 0, 0, 0, 0] := by
  obtain ⟨q, t, hq, ht, rfl⟩ := se3_split.1 hx
  rw [se3_one_eq]
  rw [se3Inv_split hq ht, se3Mul_split (so3Inv_valid hq) hq rfl ht]
  congr 1
  · exact so3_laws.inv_mul _ hq
  · exact list3_ext rfl rfl (by simp [add3, smul3]) (by simp [add3, smul3]) (by simp [add3, smul3])

theorem se3_mul_inv (x : List ℝ) (hx : LieType.Valid .se3 x) : se3Mul x (se3Inv x) = [1, 0, 0, 0, 0, 0, 0] := by
  obtain ⟨q, t, hq, ht, rfl⟩ := se3_split.1 hx
  rw [se3_one_eq]
  rw [se3Inv_split hq ht, se3Mul_split hq (so3Inv_valid hq) ht rfl, mul3_smul3, ← so3Matrix_mul' hq (so3Inv_valid hq)]
  rw [so3Mul_inv hq, so3Matrix_one ht]
  congr 1
  exact list3_ext rfl rfl (by simp [add3, smul3]) (by simp [add3, smul3]) (by simp [add3, smul3])

theorem vec_deriv {l : ℝ → List ℝ} {n : Nat} {v : Fin n → ℝ} (h : HasDerivAt (fun t => Spec.vec (l t) n) v 0) (k : Nat) (hk : k < n) :
    HasDerivAt (fun t => (l t).getD k 0) (v ⟨k, hk⟩) 0 := (hasDerivAt_pi.1 h) ⟨k, hk⟩

theorem list3_eta {l : List ℝ} (h : l.length = 3) : l = [l.getD 0 0, l.getD 1 0, l.getD 2 0] := by
  obtain ⟨a, b, c, rfl⟩ := List.length_eq_three.1 h
  rfl

/-- First-order behaviour of the logarithm at the identity, from that of the rotation and the translation. -/
theorem se3_log_deriv {Q U : ℝ → List ℝ} {a b c x y z : ℝ} (hQ : ∀ t, (Q t).length = 4) (hU : ∀ t, (U t).length = 3)
    (hω : HasDerivAt (fun t => Spec.vec (so3Log (Q t)) 3) (Spec.vec [x, y, z] 3) 0) (ω0 : so3Log (Q 0) = [0, 0, 0])
    (hu : HasDerivAt (fun t => Spec.vec (U t) 3) (Spec.vec [a, b, c] 3) 0) (u0 : U 0 = [0, 0, 0]) :
    HasDerivAt (fun t => Spec.vec (se3Log (Q t ++ U t)) 6) (Spec.vec [a, b, c, x, y, z] 6) 0 := by
  have e : ∀ t, se3Log (Q t ++ U t) = mul3 (skewPoly (-1 / 2) (logCoeffC (norm3 ((so3Log (Q t)).getD 0 0) ((so3Log (Q t)).getD 1 0)
      ((so3Log (Q t)).getD 2 0))) [(so3Log (Q t)).getD 0 0, (so3Log (Q t)).getD 1 0, (so3Log (Q t)).getD 2 0])
      [(U t).getD 0 0, (U t).getD 1 0, (U t).getD 2 0] ++ so3Log (Q t) := by
    intro t
    rw [← list3_eta (hU t), ← list3_eta rfl]
    unfold se3Log
    rw [List.take_left' (hQ t), List.drop_left' (hQ t)]
  have w0 := vec_deriv hω 0 (by norm_num)
  have w1 := vec_deriv hω 1 (by norm_num)
  have w2 := vec_deriv hω 2 (by norm_num)
  have hn : Tendsto (fun t => norm3 ((so3Log (Q t)).getD 0 0) ((so3Log (Q t)).getD 1 0) ((so3Log (Q t)).getD 2 0)) (𝓝 0) (𝓝 0) := by
    have c0 := w0.continuousAt
    have c1 := w1.continuousAt
    have c2 := w2.continuousAt
    have : ContinuousAt (fun t => norm3 ((so3Log (Q t)).getD 0 0) ((so3Log (Q t)).getD 1 0) ((so3Log (Q t)).getD 2 0)) 0 := by
      unfold norm3; fun_prop
    have := this.tendsto
    rw [ω0] at this
    simpa [norm3] using this
  obtain ⟨d0, d1, d2⟩ := skewPoly_deriv (b := fun _ => -1 / 2)
    (c := fun t => logCoeffC (norm3 ((so3Log (Q t)).getD 0 0) ((so3Log (Q t)).getD 1 0) ((so3Log (Q t)).getD 2 0)))
    (by simpa using hn.const_mul (-1 / 2)) (logCoeffC_tendsto.comp hn) (by rw [ω0]; rfl) (by rw [ω0]; rfl) (by rw [ω0]; rfl)
    (vec_deriv hu 0 (by norm_num)) (vec_deriv hu 1 (by norm_num)) (vec_deriv hu 2 (by norm_num)) (by rw [u0]; rfl) (by rw [u0]; rfl)
    (by rw [u0]; rfl)
  simp only [e]
  refine hasDerivAt_vec fun k hk => ?_
  interval_cases k
  · exact d0
  · exact d1
  · exact d2
  · exact w0
  · exact w1
  · exact w2

theorem se3_deriv {c : List ℝ} (hc : LieType.Valid .se3 c) (hlog : se3Log c = [0, 0, 0, 0, 0, 0]) (u v w x y z u' v' w' x' y' z' : ℝ) :
    HasDerivAt (fun t => Spec.vec (se3Log (se3Mul (se3Mul (se3Exp [t * u, t * v, t * w, t * x, t * y, t * z])
      (se3Exp [t * u', t * v', t * w', t * x', t * y', t * z'])) c)) 6)
      (Spec.vec [u, v, w, x, y, z] 6 + Spec.vec [u', v', w', x', y', z'] 6) 0 := by
  obtain ⟨s, hs, rfl⟩ : ∃ s : ℝ, s ^ 2 = 1 ∧ c = [s, 0, 0, 0] ++ [0, 0, 0] := by
    rcases se3_log_zero hc hlog with rfl | rfl
    · exact ⟨1, by norm_num, rfl⟩
    · exact ⟨-1, by norm_num, rfl⟩
  have hsv : LieType.Valid .so3 [s, 0, 0, 0] := ⟨s, 0, 0, 0, rfl, by linarith⟩
  have hs0 : so3Log [s, 0, 0, 0] = [0, 0, 0] := by simp [so3Log]
  have hrot : HasDerivAt (fun t => Spec.vec (so3Log (so3Mul (so3Mul (so3Exp [t * x, t * y, t * z]) (so3Exp [t * x', t * y', t * z']))
      [s, 0, 0, 0])) 3) (Spec.vec [x, y, z] 3 + Spec.vec [x', y', z'] 3) 0 := so3_laws.deriv _ [x, y, z] [x', y', z'] hsv hs0 rfl rfl
  have hsum3 : Spec.vec [x, y, z] 3 + Spec.vec [x', y', z'] 3 = Spec.vec [x + x', y + y', z + z'] 3 := by
    funext i; fin_cases i <;> simp [Spec.vec]
  have hsum6 : Spec.vec [u, v, w, x, y, z] 6 + Spec.vec [u', v', w', x', y', z'] 6 =
      Spec.vec [u + u', v + v', w + w', x + x', y + y', z + z'] 6 := by
    funext i; fin_cases i <;> simp [Spec.vec]
  rw [hsum3] at hrot
  rw [hsum6]
  obtain ⟨a0, a1, a2⟩ := se3_exp_deriv x y z u v w
  obtain ⟨b0, b1, b2⟩ := se3_exp_deriv x' y' z' u' v' w'
  have hn : Tendsto (fun t : ℝ => norm3 (t * x) (t * y) (t * z)) (𝓝 0) (𝓝 0) := by
    have : ContinuousAt (fun t : ℝ => norm3 (t * x) (t * y) (t * z)) 0 := by unfold norm3; fun_prop
    have := this.tendsto
    simpa [norm3] using this
  have hσ : Tendsto (fun t : ℝ => sinHalfOver (norm3 (t * x) (t * y) (t * z))) (𝓝 0) (𝓝 (1 / 2)) := by
    have := continuousAt_sinHalfOver.tendsto.comp hn
    rwa [show sinHalfOver 0 = 1 / 2 by simp [sinHalfOver]] at this
  have hC : Tendsto (fun t : ℝ => Real.cos (norm3 (t * x) (t * y) (t * z) / 2)) (𝓝 0) (𝓝 1) := by
    have := (so3_exp_deriv_cos x y z).continuousAt.tendsto
    simpa [norm3] using this
  obtain ⟨r0, r1, r2⟩ := skewPoly_deriv
    (b := fun t => 2 * Real.cos (norm3 (t * x) (t * y) (t * z) / 2) * sinHalfOver (norm3 (t * x) (t * y) (t * z)))
    (c := fun t => 2 * sinHalfOver (norm3 (t * x) (t * y) (t * z)) ^ 2) (x := fun t => t * x) (y := fun t => t * y) (z := fun t => t * z)
    (by simpa using ((hC.const_mul 2).mul hσ).mul hn) (by simpa using ((hσ.pow 2).const_mul 2).mul (hn.pow 2))
    (zero_mul x) (zero_mul y) (zero_mul z) b0 b1 b2 (by simp [mul3]) (by simp [mul3]) (by simp [mul3])
  have hmul : ∀ t : ℝ, se3Mul (se3Mul (se3Exp [t * u, t * v, t * w, t * x, t * y, t * z])
      (se3Exp [t * u', t * v', t * w', t * x', t * y', t * z'])) ([s, 0, 0, 0] ++ [0, 0, 0]) =
      so3Mul (so3Mul (so3Exp [t * x, t * y, t * z]) (so3Exp [t * x', t * y', t * z'])) [s, 0, 0, 0] ++
      add3 (mul3 (so3Matrix (so3Exp [t * x, t * y, t * z]))
        (mul3 (skewPoly (expCoeffB (norm3 (t * x') (t * y') (t * z'))) (expCoeffC (norm3 (t * x') (t * y') (t * z')))
          [t * x', t * y', t * z']) [t * u', t * v', t * w']))
        (mul3 (skewPoly (expCoeffB (norm3 (t * x) (t * y) (t * z))) (expCoeffC (norm3 (t * x) (t * y) (t * z)))
          [t * x, t * y, t * z]) [t * u, t * v, t * w]) := by
    intro t
    rw [se3Exp_eq, se3Exp_eq, se3Mul_split (so3Exp_valid _) (so3Exp_valid _) rfl rfl,
      se3Mul_split (so3Mul_valid (so3Exp_valid _) (so3Exp_valid _)) hsv rfl rfl]
    congr 1
    exact list3_ext rfl rfl (by simp [add3, mul3]) (by simp [add3, mul3]) (by simp [add3, mul3])
  simp only [hmul]
  refine se3_log_deriv (fun t => rfl) (fun t => rfl) hrot ?_ ?_ ?_
  · have he : so3Exp [0, 0, 0] = [1, 0, 0, 0] := so3_laws.exp_zero
    simp only [zero_mul, he]
    have h1 : so3Mul [1, 0, 0, 0] [1, 0, 0, 0] = [1, 0, 0, 0] := so3_laws.one_mul _ so3One_valid
    have h2 : so3Mul [1, 0, 0, 0] [s, 0, 0, 0] = [s, 0, 0, 0] := so3_laws.one_mul _ hsv
    rw [h1, h2, hs0]
  · refine hasDerivAt_vec fun k hk => ?_
    interval_cases k
    · refine ((r0.add a0).congr_of_eventuallyEq (Eventually.of_forall fun t => ?_)).congr_deriv (add_comm _ _)
      simp only [so3Matrix_exp]
      rfl
    · refine ((r1.add a1).congr_of_eventuallyEq (Eventually.of_forall fun t => ?_)).congr_deriv (add_comm _ _)
      simp only [so3Matrix_exp]
      rfl
    · refine ((r2.add a2).congr_of_eventuallyEq (Eventually.of_forall fun t => ?_)).congr_deriv (add_comm _ _)
      simp only [so3Matrix_exp]
      rfl
  · simp [add3, mul3]

theorem se3_laws : LieLaws se3 (LieType.Valid .se3) where
  len := by rintro _ ⟨w, i, j, k, a, b, c, rfl, _⟩; rfl
  one := ⟨1, 0, 0, 0, 0, 0, 0, rfl, by norm_num⟩
  mul := se3_mul
  inv := se3_inv
  exp := se3Exp_valid
  mul_assoc := se3_mul_assoc
  one_mul := se3_one_mul
  mul_one := se3_mul_one
  inv_mul := se3_inv_mul
  mul_inv := se3_mul_inv
  log_len := fun _ => rfl
  adjoint := se3_adjoint_isMat
  exp_neg := by
    intro d hd
    obtain ⟨u, v, w, x, y, z, rfl⟩ := length_eq_six hd
    exact se3_exp_neg u v w x y z
  exp_zero := by
    exact se3_exp_zero
  conj := by
    intro g d hg hd
    obtain ⟨u, v, w, x, y, z, rfl⟩ := length_eq_six hd
    exact se3_conj hg u v w x y z
  deriv := by
    intro c d e hc hlog hd he
    obtain ⟨u, v, w, x, y, z, rfl⟩ := length_eq_six hd
    obtain ⟨u', v', w', x', y', z', rfl⟩ := length_eq_six he
    exact se3_deriv hc hlog u v w x y z u' v' w' x' y' z'

end Jaxfg.LieGroup
