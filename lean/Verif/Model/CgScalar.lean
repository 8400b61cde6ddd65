/-
The conjugate gradient solver over the scalars of Verif.Model.Scalar. Verif.Model.LinSolve has the same program over the real
numbers, where division by zero is zero; here division by a zero diagonal entry gives an infinity or NaN, as in the code.
-/
import Verif.Model.Solver

namespace Jaxfg
variable {S : Type} [Scal S]

/-- `jnp.vdot(a, b)` -/
def vdotS (a b : List S) : S := Scal.sum (List.zipWith (· * ·) a b)

/-- Loop state of `jax.scipy.sparse.linalg.cg` (library routine). -/
structure CgStateS (S : Type) where
  x : List S
  r : List S
  gamma : S
  p : List S

/-- `body_fun` of the loop in `jax._src.scipy.sparse.linalg._cg_solve`. `op` is the operator, `M` the preconditioner. -/
def cgBodyS (op : List S → Py (List S)) (M : List S → List S) (s : CgStateS S) : Py (CgStateS S) := do
  let Ap ← op s.p
  let alpha := s.gamma / vdotS s.p Ap
  let x' := List.zipWith (· + ·) s.x (s.p.map (alpha * ·))
  let r' := List.zipWith (· - ·) s.r (Ap.map (alpha * ·))
  let z' := M r'
  let gamma' := vdotS r' z'
  let beta' := gamma' / s.gamma
  let p' := List.zipWith (· + ·) z' (s.p.map (beta' * ·))
  return ⟨x', r', gamma', p'⟩

/-- The `while_loop` of `_cg_solve`, with the number of iterations that are still allowed. A comparison with NaN is false and ends
the loop. -/
def cgLoopS (op : List S → Py (List S)) (M : List S → List S) (atol2 : S) : Nat → CgStateS S → Py (CgStateS S)
  | 0, s => .ok s
  | k + 1, s => if Scal.lt atol2 (vdotS s.r s.r) then do cgLoopS op M atol2 k (← cgBodyS op M s) else .ok s

/-- `jax.scipy.sparse.linalg.cg(A=op, b=b, x0=x0, maxiter=maxiter, tol=tol, M=M)` with `atol=0` (library routine). -/
def cgS (op : List S → Py (List S)) (b x0 : List S) (maxiter : Nat) (tol : S) (M : List S → List S) : Py (List S) := do
  let atol2 := Scal.maximum (tol * tol * vdotS b b) (Scal.lit 0)
  let r0 := List.zipWith (· - ·) b (← op x0)
  let p0 := M r0
  let s ← cgLoopS op M atol2 maxiter ⟨x0, r0, vdotS r0 p0, p0⟩
  return s.x

/-- `ATA_diagonals`, jaxfg/sparse/_linear_solve.py:109. -/
def ataDiagonalsS (A : Coo S) (n : Nat) : List S :=
  scatterAdd (List.replicate n 0) (A.cols.zip (A.values.map fun v => v * v))

/-- `ATA_function(x)`, jaxfg/sparse/_linear_solve.py:112-117. -/
def ataFunctionS (A : Coo S) (diag : List S) (lambd : S) (x : List S) : Py (List S) := do
  let y ← A.matmul x
  let z ← A.T.matmul y
  return List.zipWith (· + ·) z (List.zipWith (· * ·) (diag.map (lambd * ·)) x)

/-- `jacobi_preconditioner(x)`, jaxfg/sparse/_linear_solve.py:122-123. -/
def jacobiPreconditionerS (diag x : List S) : List S := List.zipWith (· / ·) x diag

/-- `_ConjugateGradientSolver.solve_subproblem(A, ATb, lambd, iteration)`, jaxfg/sparse/_linear_solve.py:95-136; `tol` is
`self._get_cg_tolerance(iteration)`, jaxfg/sparse/_linear_solve.py:139-160. -/
def cgSolveS (A : Coo S) (ATb : List S) (lambd tol : S) : Py (List S) :=
  let initial := List.replicate ATb.length 0
  let diag := ataDiagonalsS A ATb.length
  cgS (ataFunctionS A diag lambd) ATb initial initial.length tol (jacobiPreconditionerS diag)

/-- A conjugate gradient solver object, jaxfg/sparse/_linear_solve.py:139-160: `tol` is `_get_cg_tolerance`. -/
def cgLinear (tol : Nat → S) : LinSolver S := fun A b l i => cgSolveS A b l (tol i)

end Jaxfg
