/-
Marginal covariances: jaxfg/experimental/_sparse_covariance.py.
-/
import Verif.Model.Graph
import Verif.Model.LinSolve
import Verif.Model.Cholesky
import Mathlib.LinearAlgebra.Matrix.NonsingularInverse

namespace Jaxfg
open Matrix

/-- A `scipy.sparse.csc_matrix` (library type): for each column its stored entries (row index, value), in storage order. The
`indptr`/`indices`/`data` arrays are split by column. -/
structure Csc (α : Type _) where
  shape : Nat × Nat
  columns : List (List (Nat × α))

section
variable {α : Type _} [Field α]

/-- Python index into a sequence of length `n`: negative indices count from the end, others raise `IndexError`. -/
def pyIndex (n : Nat) (i : Int) : Py Nat :=
  if 0 ≤ i ∧ i < n then .ok i.toNat else if i < 0 ∧ 0 ≤ i + n then .ok (i + n).toNat else .error .index

/-- `m[i, j]`: scipy sums repeated entries (in `todense` and `diagonal`). -/
def Csc.entry (m : Csc α) (i j : Nat) : α := (((m.columns.getD j []).filter fun e => e.1 = i).map (·.2)).sum

/-- `m.diagonal()` -/
def Csc.diagonal (m : Csc α) : List α := (List.range (min m.shape.1 m.shape.2)).map fun i => m.entry i i

/-- `m.todense()`, as a matrix. -/
def Csc.toMatrix (m : Csc α) (r c : Nat) : Matrix (Fin r) (Fin c) α := fun i j => m.entry i j

/-- `m.getcol(j)`: the stored entries of the column; negative indices count from the end. -/
def Csc.getcol (m : Csc α) (j : Int) : Py (List (Nat × α)) := do
  let k ← pyIndex m.shape.2 j
  return m.columns.getD k []

/-- `SparseCovariance`, jaxfg/experimental/_sparse_covariance.py:11-24, without the cache, which changes over time. -/
structure SparseCovariance (α : Type _) where
  L : Csc α
  lDiagInv : List α
  localLayout : Layout

/-- `_value_cache`, jaxfg/experimental/_sparse_covariance.py:24. -/
abbrev CovCache (α : Type _) := PyDict (Int × Int) α

namespace SparseCovariance
variable (c : SparseCovariance α)

/-- `SparseCovariance(L=L, L_diag_inv=1.0 / L.diagonal(), ...)`, jaxfg/experimental/_sparse_covariance.py:44-49 (division by a zero
diagonal entry gives infinity in numpy and 0 here; the theorems assume a non-zero diagonal). -/
def ofFactor (L : Csc α) (lay : Layout) : SparseCovariance α := { L := L, lDiagInv := L.diagonal.map (1 / ·), localLayout := lay }

/-- `self.L_diag_inv[i]` -/
def diagInv (i : Int) : Py α := do
  let k ← pyIndex c.lDiagInv.length i
  return c.lDiagInv.getD k 0

/-- The loop of `_sum_over_col`, jaxfg/experimental/_sparse_covariance.py:114-121. `get` is `self[row, col_l]`. The cache is kept when
an exception is raised. -/
def sumLoop (get : Int → Int → CovCache α → Py α × CovCache α) (col colL : Int) :
    List (Nat × α) → α → CovCache α → Py α × CovCache α
  | [], total, cache => (.ok total, cache)
  | (row, val) :: rest, total, cache =>
    if col ≠ row then
      match get row colL cache with
      | (.ok x, cache) => sumLoop get col colL rest (total + val * x) cache
      | (.error e, cache) => (.error e, cache)
    else sumLoop get col colL rest total cache

/-- `_sum_over_col(col, col_l)`, jaxfg/experimental/_sparse_covariance.py:111-121. -/
def sumOverCol (get : Int → Int → CovCache α → Py α × CovCache α) (col colL : Int) (cache : CovCache α) : Py α × CovCache α :=
  match c.L.getcol col with
  | .ok column => sumLoop get col colL column 0 cache
  | .error e => (.error e, cache)

/-- The value that `__getitem__` computes when it is not in the cache, jaxfg/experimental/_sparse_covariance.py:98-106. -/
def compute (get : Int → Int → CovCache α → Py α × CovCache α) (row col : Int) (cache : CovCache α) : Py α × CovCache α :=
  if row = col then
    match c.diagInv col with
    | .error e => (.error e, cache)
    | .ok d =>
      match c.sumOverCol get col col cache with
      | (.ok s, cache) => (.ok (d * (d - s)), cache)
      | (.error e, cache) => (.error e, cache)
  else
    match c.diagInv row with
    | .error e => (.error e, cache)
    | .ok d =>
      match c.sumOverCol get row col cache with
      | (.ok s, cache) => (.ok (-d * s), cache)
      | (.error e, cache) => (.error e, cache)

/-- `self[i, j]`, jaxfg/experimental/_sparse_covariance.py:86-109, with the cache before and after. `depth` is how many nested calls of
`__getitem__` the Python interpreter allows (each takes two stack frames, `__getitem__` and `_sum_over_col`); beyond that it
raises `RecursionError`. -/
def getItem : Nat → Int → Int → CovCache α → Py α × CovCache α
  | 0, _, _, cache => (.error .recursion, cache)
  | depth + 1, i, j, cache =>
    let (row, col) := if i > j then (j, i) else (i, j)
    match cache.get? (row, col) with
    | some v => (.ok v, cache)
    | none =>
      match c.compute (getItem depth) row col cache with
      | (.ok value, cache) => (.ok value, cache.set (row, col) value)
      | (.error e, cache) => (.error e, cache)

/-- The inner loop over `j` of `_compute_marginal`, jaxfg/experimental/_sparse_covariance.py:82-83. -/
def marginalRow (depth : Nat) (i : Int) : List Int → CovCache α → Py (List α) × CovCache α
  | [], cache => (.ok [], cache)
  | j :: js, cache =>
    match c.getItem depth i j cache with
    | (.error e, cache) => (.error e, cache)
    | (.ok x, cache) =>
      match marginalRow depth i js cache with
      | (.error e, cache) => (.error e, cache)
      | (.ok xs, cache) => (.ok (x :: xs), cache)

/-- The outer loop over `i` of `_compute_marginal`, jaxfg/experimental/_sparse_covariance.py:81. -/
def marginalRows (depth : Nat) (all : List Int) : List Int → CovCache α → Py (List (List α)) × CovCache α
  | [], cache => (.ok [], cache)
  | i :: is, cache =>
    match c.marginalRow depth i all cache with
    | (.error e, cache) => (.error e, cache)
    | (.ok x, cache) =>
      match marginalRows depth all is cache with
      | (.error e, cache) => (.error e, cache)
      | (.ok xs, cache) => (.ok (x :: xs), cache)

/-- `_compute_marginal(indices)`, jaxfg/experimental/_sparse_covariance.py:73-84, as the list of rows. -/
def computeMarginalIdx (depth : Nat) (indices : List Int) (cache : CovCache α) : Py (List (List α)) × CovCache α :=
  c.marginalRows depth indices indices cache

/-- The indices that `compute_marginal` collects, jaxfg/experimental/_sparse_covariance.py:65-70. -/
def marginalIndices {β : Type _} (C : Ty → VarClass β) (lay : Layout) (vars : List Var) : Py (List Int) :=
  vars.foldlM (fun indices v => do
    let start ← lay.indexFromVar.get v
    return indices ++ (List.range (C v.ty).localDim).map fun k => ((start + k : Nat) : Int)) []

/-- `compute_marginal(*variables)`, jaxfg/experimental/_sparse_covariance.py:60-71. -/
def computeMarginal {β : Type _} (C : Ty → VarClass β) (depth : Nat) (vars : List Var) (cache : CovCache α) :
    Py (List (List α)) × CovCache α :=
  match marginalIndices C c.localLayout vars with
  | .error e => (.error e, cache)
  | .ok indices => c.computeMarginalIdx depth indices cache

/-- `as_dense(use_inverse)`, jaxfg/experimental/_sparse_covariance.py:51-58, as the list of rows. `onp.linalg.inv` raises for singular and
non-square matrices. -/
noncomputable def asDense [DecidableEq α] (depth : Nat) (useInverse : Bool) (cache : CovCache α) : Py (List (List α)) × CovCache α :=
  if useInverse then
    if c.L.shape.1 ≠ c.L.shape.2 then (.error .value, cache)
    else
      let M := c.L.toMatrix c.L.shape.1 c.L.shape.1
      if M.det = 0 then (.error .value, cache)
      else (.ok (List.ofFn fun i => List.ofFn fun j => ((M⁻¹)ᵀ * M⁻¹) i j), cache)
  else c.computeMarginalIdx depth ((List.range c.localLayout.dim).map fun (k : Nat) => (k : Int)) cache

end SparseCovariance
end

/-- What CHOLMOD chooses in its symbolic analysis (library): a fill-reducing order of the rows of `A`, by default from the
AMD or METIS heuristics, and which entries of the factor below the diagonal are stored although they are zero. -/
structure CholmodChoice where
  order : Pattern → (n : Nat) → Equiv.Perm (Fin n)
  storesZero : Pattern → Nat → Nat → Bool

/-- A lower triangular matrix in CSC form, with the zeros chosen by `z` stored. -/
noncomputable def Csc.ofLower (n : Nat) (M : Matrix (Fin n) (Fin n) ℝ) (z : Nat → Nat → Bool) : Csc ℝ :=
  open Classical in
  { shape := (n, n)
    columns := List.ofFn fun j => ((List.finRange n).filter fun i => j ≤ i ∧ (M i j ≠ 0 ∨ z i j)).map fun i => (i.val, M i j) }

/-- `sksparse.cholmod.cholesky_AAt(A).L()` (library): the lower factor `L` with `L Lᵀ = P A Aᵀ Pᵀ` for the permutation `P` that the
analysis chose; raises `CholmodNotPositiveDefiniteError` if `A Aᵀ` is not positive definite. -/
noncomputable def cholmodAAtL (lib : CholmodChoice) (A : ScipyCoo ℝ) : Py (Csc ℝ) :=
  open Classical in
  let H := A.toMatrix * A.toMatrixᵀ
  let σ := lib.order A.pattern A.shape.1
  if H.PosDef then .ok (Csc.ofLower _ (cholesky (H.submatrix σ σ)) (lib.storesZero A.pattern)) else .error .value

/-- `SparseCovariance.make(graph, assignments)`, jaxfg/experimental/_sparse_covariance.py:26-49. -/
noncomputable def SparseCovariance.make (lib : CholmodChoice) (F : Nat → FactorClass) (C : Ty → VarClass ℝ) (g : Graph) (a : Assign ℝ) :
    Py (SparseCovariance ℝ) := do
  let r ← g.computeWhitenedResidualVector F C a
  let J ← g.computeWhitenedResidualJacobian F C a r
  let A ← J.T.asScipy
  let L ← cholmodAAtL lib A
  return .ofFactor L g.localLayout

end Jaxfg
