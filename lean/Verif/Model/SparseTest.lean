/- The tests of the linear solvers, tests/test_sparse.py. -/
import Verif.Model.LinSolve

namespace Jaxfg
open Matrix

open Classical in
/-- `scipy.sparse.coo_matrix(dense)` (library): the entries that are not zero, row by row. -/
noncomputable def ScipyCoo.ofDense {m n : Nat} (A : Matrix (Fin m) (Fin n) ℝ) : ScipyCoo ℝ :=
  let at_ := (List.finRange m ×ˢ List.finRange n).filter fun p => A p.1 p.2 ≠ 0
  ⟨at_.map fun p => A p.1 p.2, at_.map (·.1.val), at_.map (·.2.val), (m, n)⟩

/-- The solvers for which both tests run, as functions of `A` and `ATb` with `lambd=0.0` and `iteration=0`,
tests/test_sparse.py:9-16, 27-32 and 39-46, 60-65. The first one is CHOLMOD; the analyses made so far are in `cache`, and `stale` is
as in `cholmodFactorSolve`. -/
noncomputable def sparseTestSolvers (stale : Pattern → ScipyCoo ℝ → ℝ → List ℝ → Py (List ℝ)) (cache : CholmodCache) (addr : Nat) :
    List (Coo ℝ → List ℝ → Py (List ℝ)) :=
  [fun A ATb => (cholmodSolve stale cache addr A ATb 0).1,
   fun A ATb => cgSolve A ATb 0 (cgTolerance 1e-8 0),
   fun A ATb => cgSolve A ATb 0 (inexactTolerance 1e-8 0)]

open Classical in
/-- `test_solver_no_jit` and `test_solver_jit`, tests/test_sparse.py:17-36 and 47-71: the same function, called directly or compiled.
The drawn matrix `A` (20 × 5 in the tests) and the drawn vector `ATb` are arguments. `onp.linalg.solve` raises for a singular matrix. -/
noncomputable def sparseTest {m n : Nat} (solve : Coo ℝ → List ℝ → Py (List ℝ)) (A : Matrix (Fin m) (Fin n) ℝ) (ATb : Fin n → ℝ) :
    Py Unit := do
  let xOurs ← solve (Coo.fromScipy (.ofDense A)) (List.ofFn ATb)
  if (A.transpose * A).det = 0 then throw .value
  let xOnp := List.ofFn ((A.transpose * A)⁻¹ *ᵥ ATb)
  pyAssert (List.Forall₂ (fun x y => |x - y| ≤ 1e-5 + 1e-5 * |y|) xOurs xOnp)

end Jaxfg
