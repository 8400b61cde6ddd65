/-
Linear subproblem solvers: jaxfg/sparse/_linear_solve.py. Scalars are exact real numbers.
-/
import Verif.Model.Sparse
import Mathlib.LinearAlgebra.Matrix.PosDef
import Mathlib.Data.Finset.Defs
import Mathlib.Data.Real.Basic

namespace Jaxfg
open Matrix

/-! ### CHOLMOD -/

/-- The value a scipy matrix has at a position (duplicates are summed by `tocsc`). -/
def ScipyCoo.toMatrix (m : ScipyCoo ℝ) : Matrix (Fin m.shape.1) (Fin m.shape.2) ℝ := fun i j =>
  (((m.row.zip (m.col.zip m.data)).filter fun e => e.1 = i.val ∧ e.2.1 = j.val).map (·.2.2)).sum

/-- Sparsity pattern of a matrix (explicit zeros count): what `sksparse.cholmod.analyze_AAt` analyses. -/
abbrev Pattern := (Nat × Nat) × Finset (Nat × Nat)

/-- See `Pattern`. -/
def ScipyCoo.pattern (m : ScipyCoo ℝ) : Pattern := (m.shape, (m.row.zip m.col).toFinset)

/-- `factor.cholesky_AAt_inplace(S, beta)` followed by `factor.solve_A(b)`, for a `factor` made by `analyze_AAt` for a matrix
with pattern `analysis` (library routine). If `S` has the pattern that was analysed, this factorizes `S Sᵀ + beta I`, raising
`CholmodNotPositiveDefiniteError` if it is not positive definite, and solves the system. For any other pattern the library
promises nothing: `stale` stands for what happens then. -/
noncomputable def cholmodFactorSolve (stale : Pattern → ScipyCoo ℝ → ℝ → List ℝ → Py (List ℝ)) (analysis : Pattern)
    (S : ScipyCoo ℝ) (beta : ℝ) (b : List ℝ) : Py (List ℝ) :=
  open Classical in
  if analysis = S.pattern then
    if b.length ≠ S.shape.1 then .error .value
    else
      let H := S.toMatrix * S.toMatrixᵀ + beta • (1 : Matrix (Fin S.shape.1) (Fin S.shape.1) ℝ)
      if H.PosDef then .ok (List.ofFn (H⁻¹ *ᵥ fun i => b.getD i 0)) else .error .value
  else stale analysis S beta b

/-- `_cholmod_analyze_cache`, keyed by `object.__hash__(self)`, that is by the address of the solver object:
jaxfg/sparse/_linear_solve.py:36, 78-80. -/
abbrev CholmodCache := PyDict Nat Pattern

/-- The analysis that `_solve` uses, and the cache afterwards: jaxfg/sparse/_linear_solve.py:78-80. -/
def cholmodAnalysis (cache : CholmodCache) (addr : Nat) (S : ScipyCoo ℝ) : Pattern × CholmodCache :=
  match cache.get? addr with
  | some p => (p, cache)
  | none => (S.pattern, cache.set addr S.pattern)

/-- `CholmodSolver.solve_subproblem(A, ATb, lambd, iteration)` / `_solve`, jaxfg/sparse/_linear_solve.py:59-88, for a solver
object at address `addr`. The cache keeps a new analysis even if the factorization raises. -/
noncomputable def cholmodSolve (stale : Pattern → ScipyCoo ℝ → ℝ → List ℝ → Py (List ℝ)) (cache : CholmodCache) (addr : Nat)
    (A : Coo ℝ) (ATb : List ℝ) (lambd : ℝ) : Py (List ℝ) × CholmodCache :=
  match A.T.asScipy with
  | .error e => (.error e, cache)
  | .ok S =>
    let p := cholmodAnalysis cache addr S
    (cholmodFactorSolve stale p.1 S (lambd + 1 / 100000) ATb, p.2)

/-! ### Conjugate gradient -/

/-- `jnp.vdot(a, b)` -/
def vdot (a b : List ℝ) : ℝ := (List.zipWith (· * ·) a b).sum

/-- Loop state of `jax.scipy.sparse.linalg.cg` (library routine). -/
structure CgState where
  x : List ℝ
  r : List ℝ
  gamma : ℝ
  p : List ℝ

/-- `body_fun` of the loop in `jax._src.scipy.sparse.linalg._cg_solve`. `op` is the operator, `M` the preconditioner. -/
noncomputable def cgBody (op : List ℝ → Py (List ℝ)) (M : List ℝ → List ℝ) (s : CgState) : Py CgState := do
  let Ap ← op s.p
  let alpha := s.gamma / vdot s.p Ap
  let x' := List.zipWith (· + ·) s.x (s.p.map (alpha * ·))
  let r' := List.zipWith (· - ·) s.r (Ap.map (alpha * ·))
  let z' := M r'
  let gamma' := vdot r' z'
  let beta' := gamma' / s.gamma
  let p' := List.zipWith (· + ·) z' (s.p.map (beta' * ·))
  return ⟨x', r', gamma', p'⟩

/-- The `while_loop` of `_cg_solve`, with the number of iterations that are still allowed. -/
noncomputable def cgLoop (op : List ℝ → Py (List ℝ)) (M : List ℝ → List ℝ) (atol2 : ℝ) : Nat → CgState → Py CgState
  | 0, s => .ok s
  | k + 1, s =>
    open Classical in
    if atol2 < vdot s.r s.r then do cgLoop op M atol2 k (← cgBody op M s) else .ok s

/-- `jax.scipy.sparse.linalg.cg(A=op, b=b, x0=x0, maxiter=maxiter, tol=tol, M=M)` with `atol=0` (library routine; the
surrounding `custom_linear_solve` only matters for differentiation). -/
noncomputable def cg (op : List ℝ → Py (List ℝ)) (b x0 : List ℝ) (maxiter : Nat) (tol : ℝ) (M : List ℝ → List ℝ) :
    Py (List ℝ) := do
  let atol2 := max (tol ^ 2 * vdot b b) 0
  let r0 := List.zipWith (· - ·) b (← op x0)
  let p0 := M r0
  let s ← cgLoop op M atol2 maxiter ⟨x0, r0, vdot r0 p0, p0⟩
  return s.x

/-- `ATA_diagonals`, jaxfg/sparse/_linear_solve.py:109. -/
def ataDiagonals (A : Coo ℝ) (n : Nat) : List ℝ :=
  scatterAdd (List.replicate n 0) (A.cols.zip (A.values.map (· ^ 2)))

/-- `ATA_function(x)`, jaxfg/sparse/_linear_solve.py:112-117. -/
def ataFunction (A : Coo ℝ) (diag : List ℝ) (lambd : ℝ) (x : List ℝ) : Py (List ℝ) := do
  let y ← A.matmul x
  let z ← A.T.matmul y
  return List.zipWith (· + ·) z (List.zipWith (· * ·) (diag.map (lambd * ·)) x)

/-- `jacobi_preconditioner(x)`, jaxfg/sparse/_linear_solve.py:122-123. A zero diagonal entry gives infinity or NaN in the code
and zero here: theorems about this definition assume positive entries, `Model/CgScalar.lean` covers the others. -/
noncomputable def jacobiPreconditioner (diag : List ℝ) (x : List ℝ) : List ℝ := List.zipWith (· / ·) x diag

/-- `_ConjugateGradientSolver.solve_subproblem(A, ATb, lambd, iteration)`, jaxfg/sparse/_linear_solve.py:95-136; `tol` is
`self._get_cg_tolerance(iteration)`. -/
noncomputable def cgSolve (A : Coo ℝ) (ATb : List ℝ) (lambd tol : ℝ) : Py (List ℝ) :=
  let initial := List.replicate ATb.length 0
  let diag := ataDiagonals A ATb.length
  cg (ataFunction A diag lambd) ATb initial initial.length tol (jacobiPreconditioner diag)

/-- `ConjugateGradientSolver._get_cg_tolerance(iteration)`, jaxfg/sparse/_linear_solve.py:139-146. -/
def cgTolerance (tolerance : ℝ) (_iteration : Nat) : ℝ := tolerance

/-- `InexactStepConjugateGradientSolver._get_cg_tolerance(iteration)`, jaxfg/sparse/_linear_solve.py:149-160. -/
noncomputable def inexactTolerance (eta : ℝ) (iteration : Nat) : ℝ := eta / (iteration + 1)

end Jaxfg
