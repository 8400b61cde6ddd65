/- Comparing covariance matrices. -/
import Mathlib.Algebra.BigOperators.Group.Finset.Basic
import Mathlib.Data.Real.Basic

namespace Jaxfg.Spec

/-- The variance of the combination with coefficients `x` of the coordinates whose covariance matrix is `M`. -/
def varianceOf (M : List (List ℝ)) (x : Nat → ℝ) : ℝ :=
  ∑ p ∈ Finset.range M.length, ∑ q ∈ Finset.range M.length, x p * x q * (M.getD p []).getD q 0

end Jaxfg.Spec
