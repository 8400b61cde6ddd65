/- Reordering equations and unknowns. -/
import Verif.Spec.Graph
import Verif.Spec.Sparse
import Verif.Spec.SolverReal
import Mathlib.Algebra.Group.End

namespace Jaxfg.Spec

/-- `A'` is `A` with its rows permuted by `ρ` and its columns by `σ`. -/
structure Reordered {m n : Nat} (ρ : Equiv.Perm (Fin m)) (σ : Equiv.Perm (Fin n)) (A A' : Coo ℝ) : Prop where
  wf : CooWF A
  wf' : CooWF A'
  shape : A.shape = (m, n)
  shape' : A'.shape = (m, n)
  matrix : cooMatrix A' m n = (cooMatrix A m n).submatrix ρ σ

/-- `x'` is `x` with its entries permuted by `σ`. -/
structure Permuted {n : Nat} (σ : Equiv.Perm (Fin n)) (x x' : List ℝ) : Prop where
  len : x.length = n
  len' : x'.length = n
  entry : vec x' n = vec x n ∘ σ

/-- The linear solver does not care about the order of the equations and of the unknowns: with the rows of the matrix and its
columns permuted, and the right hand side permuted like the columns, it returns its solution permuted like the columns. -/
def OrderFree (L : LinSolver ℝ) : Prop :=
  ∀ (m n : Nat) (ρ : Equiv.Perm (Fin m)) (σ : Equiv.Perm (Fin n)) (A A' : Coo ℝ) (b b' x : List ℝ) (lambd : ℝ) (it : Nat),
    Reordered ρ σ A A' → Permuted σ b b' → L A b lambd it = .ok x → ∃ x', L A' b' lambd it = .ok x' ∧ Permuted σ x x'

/-- The same for matrices that list no position twice. -/
def OrderFreeDistinct (L : LinSolver ℝ) : Prop :=
  ∀ (m n : Nat) (ρ : Equiv.Perm (Fin m)) (σ : Equiv.Perm (Fin n)) (A A' : Coo ℝ) (b b' x : List ℝ) (lambd : ℝ) (it : Nat),
    Reordered ρ σ A A' → (A.rows.zip A.cols).Nodup → (A'.rows.zip A'.cols).Nodup → Permuted σ b b' → L A b lambd it = .ok x →
    ∃ x', L A' b' lambd it = .ok x' ∧ Permuted σ x x'

/-- `a` and `a'` hold the same values, each over the variables of the factors in an order of its own. -/
structure SameValues (C : Ty → VarClass ℝ) (fs : List Factor) (vars vars' : List Var) (val : Var → Value ℝ) (a a' : Assign ℝ) : Prop where
  left : Holds C fs vars val a
  right : Holds C fs vars' val a'

end Jaxfg.Spec
