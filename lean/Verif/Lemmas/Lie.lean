/- What the proofs about pose factors need to know of a Lie group. -/
import Verif.Lemmas.LieCalculus
import Verif.Spec.Lie
import Mathlib.Analysis.Calculus.Deriv.Prod

namespace Jaxfg
open Spec
open Matrix

/-- Multiplies a tangent vector by a number. -/
def scale (t : ℝ) (d : List ℝ) : List ℝ := d.map (t * ·)

/-- Product of the adjoint of `x` and a tangent vector. -/
noncomputable def LieGroup.Ad (G : LieGroup) (x δ : List ℝ) : List ℝ :=
  List.ofFn (arrMat (G.adjoint x) G.tangentDim G.tangentDim *ᵥ vec δ G.tangentDim)

theorem hasDerivAt_vec {l : ℝ → List ℝ} {n : Nat} {v : Fin n → ℝ}
    (h : ∀ k (hk : k < n), HasDerivAt (fun t => (l t).getD k 0) (v ⟨k, hk⟩) 0) : HasDerivAt (fun t => vec (l t) n) v 0 := by
  rw [hasDerivAt_pi]
  rintro ⟨k, hk⟩
  exact h k hk

/-- The facts about a group that the proofs about factors use. `V` describes the parameter vectors of group elements. -/
structure LieLaws (G : LieGroup) (V : List ℝ → Prop) : Prop where
  len : ∀ x, V x → x.length = G.parametersDim
  one : V G.identity
  mul : ∀ x y, V x → V y → V (G.multiply x y)
  inv : ∀ x, V x → V (G.inverse x)
  exp : ∀ d, V (G.exp d)
  mul_assoc : ∀ x y z, V x → V y → V z → G.multiply (G.multiply x y) z = G.multiply x (G.multiply y z)
  one_mul : ∀ x, V x → G.multiply G.identity x = x
  mul_one : ∀ x, V x → G.multiply x G.identity = x
  inv_mul : ∀ x, V x → G.multiply (G.inverse x) x = G.identity
  mul_inv : ∀ x, V x → G.multiply x (G.inverse x) = G.identity
  log_len : ∀ x, (G.log x).length = G.tangentDim
  adjoint : ∀ x, IsMat (G.adjoint x) G.tangentDim G.tangentDim
  exp_neg : ∀ d, d.length = G.tangentDim → G.inverse (G.exp d) = G.exp (scale (-1) d)
  exp_zero : G.exp (List.replicate G.tangentDim 0) = G.identity
  conj : ∀ x d, V x → d.length = G.tangentDim → G.multiply (G.multiply x (G.exp d)) (G.inverse x) = G.exp (G.Ad x d)
  deriv : ∀ c d e, V c → G.log c = List.replicate G.tangentDim 0 → d.length = G.tangentDim → e.length = G.tangentDim →
    HasDerivAt (fun t => vec (G.log (G.multiply (G.multiply (G.exp (scale t d)) (G.exp (scale t e))) c)) G.tangentDim)
      (vec d G.tangentDim + vec e G.tangentDim) 0

end Jaxfg
