/- Vocabulary for statements about solver executions. -/
import Verif.Model.Solver
import Verif.Spec.Assign

namespace Jaxfg.Spec
variable {σ μ : Type}

/-- `Runs done step k s t log`: from `s`, exactly `k` executions of `step` lead to `t` and print `log`; before each of them the
flag `done` was off. -/
inductive Runs (done : σ → Bool) (step : σ → Py (σ × List μ)) : Nat → σ → σ → List μ → Prop
  | refl (s : σ) : Runs done step 0 s s []
  | step {k : Nat} {s t u : σ} {log l : List μ} : Runs done step k s t log → done t = false → step t = .ok (u, l) →
      Runs done step (k + 1) s u (log ++ l)

/-- The number that a printed line shows. -/
def lineNumber {S : Type} : Msg S → Nat
  | .iteration i _ _ _ => i
  | .terminated i _ => i

/-- A line `Iteration #…`, as opposed to `Terminated @ iteration #…`. -/
def isIterationLine {S : Type} : Msg S → Bool
  | .iteration .. => true
  | .terminated .. => false

end Jaxfg.Spec
