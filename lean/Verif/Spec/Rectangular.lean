/- Noise models given by matrices that need not be square. -/
import Verif.Spec.Graph

namespace Jaxfg.Spec

/-- Number of entries of a whitened residual: the first axis of the array of the noise model. -/
def noiseRows : Noise → Nat
  | .gaussian W => W.shape.headD 0
  | .diagonal d => d.shape.headD 0
  | .huber w _ => noiseRows w

/-- The array fields of a factor are arrays: as many numbers as the shape says. Nothing is said about the shapes. -/
def Shaped (f : Factor) : Prop := ∀ l ∈ f.leaves, l.data.length = l.shape.prod

/-- The noise model, or the one inside Huber wrappers, is given by a matrix that is not square. -/
def NotSquare : Noise → Prop
  | .gaussian W => ∃ m n, W.shape = [m, n] ∧ m ≠ n
  | .diagonal _ => False
  | .huber w _ => NotSquare w

end Jaxfg.Spec
