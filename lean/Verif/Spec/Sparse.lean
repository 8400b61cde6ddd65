/- What a list of coordinates and values denotes as a matrix. -/
import Verif.Model.Sparse
import Mathlib.LinearAlgebra.Matrix.Defs
import Mathlib.Algebra.BigOperators.Group.List.Defs

namespace Jaxfg.Spec
variable {α : Type _}

/-- The entries of a sparse matrix as (row, column, value). -/
def entries (A : Coo α) : List (Nat × Nat × α) := A.rows.zip (A.cols.zip A.values)

/-- The three arrays have one length and every coordinate is inside the shape. -/
def CooWF (A : Coo α) : Prop :=
  A.rows.length = A.values.length ∧ A.cols.length = A.values.length ∧
    (∀ r ∈ A.rows, r < A.shape.1) ∧ (∀ c ∈ A.cols, c < A.shape.2)

/-- The matrix denoted by the entries: the value at (i, j) is the sum of the values listed for (i, j). -/
def cooMatrix [AddCommMonoid α] (A : Coo α) (m n : Nat) : Matrix (Fin m) (Fin n) α :=
  fun i j => (((entries A).filter fun e => e.1 = i.val ∧ e.2.1 = j.val).map (·.2.2)).sum

/-- A list read as a vector of the given size (used with lists of that length). -/
def vec [Zero α] (l : List α) (n : Nat) : Fin n → α := fun i => l.getD i 0

/-- A list of rows read as a matrix. -/
def mat [Zero α] (l : List (List α)) (m n : Nat) : Matrix (Fin m) (Fin n) α := fun i j => (l.getD i []).getD j 0

end Jaxfg.Spec
