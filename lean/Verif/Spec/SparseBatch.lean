/- What arrays of coordinates and values with batch axes denote. -/
import Verif.Model.SparseBatch
import Verif.Spec.Sparse
import Mathlib.Data.Matrix.Mul

namespace Jaxfg.Spec
variable {α : Type _}

/-- The three arrays have the documented shape `(*, N)`, with `batch` in the place of `*`, and every coordinate is inside the matrices. -/
structure Batched (A : NdCoo α) (batch : List Nat) (N : Nat) : Prop where
  values : A.values.shape = batch ++ [N] ∧ A.values.data.length = batch.prod * N
  rows : A.rows.shape = batch ++ [N] ∧ A.rows.data.length = batch.prod * N
  cols : A.cols.shape = batch ++ [N] ∧ A.cols.data.length = batch.prod * N
  rowsIn : ∀ r ∈ A.rows.data, r < A.shape.1
  colsIn : ∀ c ∈ A.cols.data, c < A.shape.2

/-- The matrices in the batch, in row-major order. -/
def member (A : NdCoo α) (N b : Nat) : Coo α :=
  { values := (A.values.data.drop (b * N)).take N, rows := (A.rows.data.drop (b * N)).take N, cols := (A.cols.data.drop (b * N)).take N,
    shape := A.shape }

/-- `y` is the batch of the products of the matrices with `x`. -/
def IsBatchOfProducts [CommSemiring α] (A : NdCoo α) (batch : List Nat) (N : Nat) (x : List α) (y : Arr α) : Prop :=
  y.shape = batch ++ [A.shape.1] ∧ ∀ b < batch.prod,
    vec ((y.data.drop (b * A.shape.1)).take A.shape.1) A.shape.1 = (cooMatrix (member A N b) A.shape.1 A.shape.2).mulVec (vec x A.shape.2)

end Jaxfg.Spec
