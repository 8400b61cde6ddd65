/- Vocabulary for statements about damped steps. -/
import Verif.Spec.LinearRate
import Verif.Model.LinSolve

namespace Jaxfg.Spec
open Matrix

/-- No eigenvalue of `AᵀA` is above `κ`. -/
def SoftAtMost (κ : ℝ) (A : Coo ℝ) : Prop :=
  ∀ v : Fin A.shape.2 → ℝ, (cooMatrix A A.shape.1 A.shape.2 *ᵥ v) ⬝ᵥ (cooMatrix A A.shape.1 A.shape.2 *ᵥ v) ≤ κ * (v ⬝ᵥ v)

/-- What the CHOLMOD solver object at `addr` has kept, if anything, is the analysis of the sparsity pattern of `A`. -/
def CacheFits (cache : CholmodCache) (addr : Nat) (A : Coo ℝ) : Prop :=
  ∀ p, cache.get? addr = some p → p = ((A.shape.2, A.shape.1), (A.cols.zip A.rows).toFinset)

/-- Euclidean norm. -/
noncomputable def length {n : Nat} (v : Fin n → ℝ) : ℝ := √(v ⬝ᵥ v)

end Jaxfg.Spec
