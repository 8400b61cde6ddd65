/-
jaxfg/sparse/_sparse_matrix.py for arrays with any number of axes
-/
import Verif.Model.Sparse
import Verif.Model.Value

namespace Jaxfg

/-- Broadcasting (`jnp.broadcast_to`) of `a` to a shape that ends with the shape of `a`: the data is repeated. `none` if the shape does
not end so. (Axes of length one that broadcasting would stretch are not modelled.) -/
def Arr.bcast {α} (a : Arr α) (shape : List Nat) : Option (Arr α) :=
  let k := shape.length - a.shape.length
  if shape.drop k = a.shape then some ⟨shape, (List.replicate (shape.take k).prod a.data).flatten⟩ else none

/-- `SparseCooMatrix` with its `SparseCooCoordinates`, jaxfg/sparse/_sparse_matrix.py:10-31: three arrays, "shape should be `(*, N)`". The
constructors check nothing ("Shape checks break under vmap"). Indices are non-negative. -/
structure NdCoo (α : Type _) where
  values : Arr α
  rows : Arr Nat
  cols : Arr Nat
  shape : Nat × Nat
deriving DecidableEq

namespace NdCoo
variable {α : Type _}

/-- `A @ other`, jaxfg/sparse/_sparse_matrix.py:39-48. `values * other[cols]` broadcasts both arrays to a common shape, or raises
`TypeError`; the updates of the scatter are broadcast to the shape of the indices, or it raises `ValueError`. The result has one axis. -/
def matmul [Zero α] [Add α] [Mul α] (A : NdCoo α) (x : List α) : Py (Arr α) := do
  pyAssert (x.length = A.shape.2)
  let g : Arr α := ⟨A.cols.shape, gather x A.cols.data⟩
  let p : Arr α ← match A.values.bcast g.shape, g.bcast A.values.shape with
    | some v, _ => pure ⟨g.shape, List.zipWith (· * ·) v.data g.data⟩
    | none, some g' => pure ⟨A.values.shape, List.zipWith (· * ·) A.values.data g'.data⟩
    | none, none => throw .type
  let u ← match p.bcast A.rows.shape with
    | some u => pure u
    | none => throw .value
  return ⟨[A.shape.1], scatterAdd (List.replicate A.shape.1 0) (A.rows.data.zip u.data)⟩

/-- `A.as_dense()`, jaxfg/sparse/_sparse_matrix.py:50-57, as the list of rows. Row and column indices of different shapes, which would be
broadcast, are not modelled (they raise here). For repeated coordinates see `Coo.asDense`. -/
def asDense [Zero α] (A : NdCoo α) : Py (List (List α)) := do
  if A.rows.shape ≠ A.cols.shape then throw .value
  let u ← match A.values.bcast A.rows.shape with
    | some u => pure u
    | none => throw .value
  return (A.rows.data.zip (A.cols.data.zip u.data)).foldl (fun acc p => acc.modify p.1 (·.set p.2.1 p.2.2))
    (List.replicate A.shape.1 (List.replicate A.shape.2 0))

/-- `A.T`, jaxfg/sparse/_sparse_matrix.py:77-87. -/
def T (A : NdCoo α) : NdCoo α := { values := A.values, rows := A.cols, cols := A.rows, shape := (A.shape.2, A.shape.1) }

/-- `A.as_scipy_coo_matrix()`, jaxfg/sparse/_sparse_matrix.py:71-75. The scipy constructor raises `ValueError` for arrays that do not have
exactly one axis; see also `Coo.asScipy`. -/
def asScipy (A : NdCoo α) : Py (ScipyCoo α) :=
  if A.values.shape.length = 1 ∧ A.rows.shape.length = 1 ∧ A.cols.shape.length = 1 then
    (⟨A.values.data, A.rows.data, A.cols.data, A.shape⟩ : Coo α).asScipy
  else .error .value

end NdCoo

end Jaxfg
