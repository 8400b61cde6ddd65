/-
jaxfg/sparse/_sparse_matrix.py
-/
import Verif.Model.Prelude
import Mathlib.Algebra.Ring.Defs

namespace Jaxfg

/-- `SparseCooMatrix` with its `SparseCooCoordinates`, jaxfg/sparse/_sparse_matrix.py:10-31. Values and coordinates are 1D
arrays (no batch axes); indices are non-negative. -/
structure Coo (α : Type _) where
  values : List α
  rows : List Nat
  cols : List Nat
  shape : Nat × Nat
deriving DecidableEq

namespace Coo
variable {α : Type _}

/-- `A @ other`, jaxfg/sparse/_sparse_matrix.py:39-48. The gather `other[cols]` clamps and the scatter drops out-of-range
indices, as in JAX. Array lengths that disagree raise (length-1 broadcasting of `values` is not modelled). -/
def matmul [Zero α] [Add α] [Mul α] (A : Coo α) (x : List α) : Py (List α) := do
  pyAssert (x.length = A.shape.2)
  if A.values.length ≠ A.cols.length then throw .type
  if A.rows.length ≠ A.cols.length then throw .value
  return scatterAdd (List.replicate A.shape.1 0)
    (A.rows.zip (List.zipWith (· * ·) A.values (gather x A.cols)))

/-- `A.as_dense()`, jaxfg/sparse/_sparse_matrix.py:50-57, as the list of rows. With repeated coordinates JAX leaves the
order of the updates unspecified; the model applies them in order. -/
def asDense [Zero α] (A : Coo α) : Py (List (List α)) := do
  if A.rows.length ≠ A.cols.length then throw .value
  if A.values.length ≠ A.rows.length then throw .value
  return (A.rows.zip (A.cols.zip A.values)).foldl (fun acc p => acc.modify p.1 (·.set p.2.1 p.2.2))
    (List.replicate A.shape.1 (List.replicate A.shape.2 0))

/-- `A.T`, jaxfg/sparse/_sparse_matrix.py:77-87. -/
def T (A : Coo α) : Coo α := { values := A.values, rows := A.cols, cols := A.rows, shape := (A.shape.2, A.shape.1) }

end Coo

/-- A `scipy.sparse.coo_matrix` (library type): entries are kept as given, including duplicates, which count as sums. -/
structure ScipyCoo (α : Type _) where
  data : List α
  row : List Nat
  col : List Nat
  shape : Nat × Nat

/-- `SparseCooMatrix.from_scipy_coo_matrix(matrix)`, jaxfg/sparse/_sparse_matrix.py:59-69. -/
def Coo.fromScipy {α} (m : ScipyCoo α) : Coo α := { values := m.data, rows := m.row, cols := m.col, shape := m.shape }

/-- `A.as_scipy_coo_matrix()`, jaxfg/sparse/_sparse_matrix.py:71-75. The scipy constructor raises `ValueError` for arrays
of different lengths and for indices outside the shape. -/
def Coo.asScipy {α} (A : Coo α) : Py (ScipyCoo α) :=
  if A.rows.length = A.cols.length ∧ A.values.length = A.rows.length ∧
      A.rows.all (· < A.shape.1) ∧ A.cols.all (· < A.shape.2) then
    .ok ⟨A.values, A.rows, A.cols, A.shape⟩
  else .error .value

end Jaxfg
