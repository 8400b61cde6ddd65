/- When a residual fits a noise model. -/
import Verif.Spec.Graph

namespace Jaxfg.Spec

/-- The innermost noise model is a `Gaussian` (with a matrix, not a diagonal). -/
def IsFull : Noise → Prop
  | .gaussian _ => True
  | .diagonal _ => False
  | .huber w _ => IsFull w

/-- `k` entries pass where the noise model is for `n` entries: `k = n`, or one axis has size one and is multiplied with a matrix. -/
def Passes (N : Noise) (n k : Nat) : Prop := k = n ∨ IsFull N ∧ (k = 1 ∨ n = 1)

/-- What a noise model raises for residuals of a wrong size. -/
def mismatchError : Noise → Err
  | .gaussian _ => .value
  | .diagonal _ => .assertion
  | .huber w _ => mismatchError w

end Jaxfg.Spec
