/- Vocabulary for statements that compare `solve` calls with different numbers of iterations. -/
import Verif.Spec.Solver

namespace Jaxfg.Spec
variable {S : Type}

/-- The same printed line, with `N` where the line shows the maximum number of iterations. -/
def showMax (N : Int) : Msg S → Msg S
  | .iteration i (some _) c v => .iteration i (some N) c v
  | m => m

/-- The assignments returned by a `solve` call, without the printed lines. -/
def outcome (r : Py (Option (Assign S × List (Msg S)))) : Py (Option (Assign S)) := r.map (Option.map Prod.fst)

/-- The linear solver does not look at the iteration counter. -/
def IgnoresCounter (L : LinSolver S) : Prop := ∀ A b lambda i j, L A b lambda i = L A b lambda j

/-- `solve` on `a` performs `k` iterations: converted to the graph's layout, `a` gives an initial state from which `k` steps lead to a state
with the flag `done` on, the flag being off before. -/
def Performs {σ : Type} [Scal S] (C : Ty → VarClass S) (g : GraphOps S) (base : σ → State S) (init : Assign S → Py σ)
    (step : σ → Py (σ × List (Msg S))) (a : Assign S) (k : Nat) : Prop :=
  ∃ b st st' log, a.updateStorageLayout C g.layout = .ok b ∧ init b = .ok st ∧
    Runs (fun s => (base s).done) step k st st' log ∧ (base st').done = true

end Jaxfg.Spec
