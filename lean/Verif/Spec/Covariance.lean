/- What the entries of a covariance matrix given by a triangular factor are meant to be. -/
import Verif.Model.Covariance
import Verif.Spec.Sparse

namespace Jaxfg.Spec
open Matrix
variable {α : Type _} [Field α]

/-- The matrix that the stored entries of a CSC matrix denote. -/
def cscMatrix (L : Csc α) (n : Nat) : Matrix (Fin n) (Fin n) α :=
  fun i j => (((L.columns.getD j []).filter fun e => e.1 = i.val).map (·.2)).sum

/-- An `n × n` matrix with all stored entries on or below the diagonal and no zero on the diagonal. Entries may be stored in any
order, as zeros, or more than once. -/
structure IsTriangularFactor (L : Csc α) (n : Nat) : Prop where
  shape : L.shape = (n, n)
  columns : L.columns.length = n
  lower : ∀ j < n, ∀ e ∈ L.columns.getD j [], j ≤ e.1 ∧ e.1 < n
  diagonal : ∀ i, cscMatrix L n i i ≠ 0

/-- The covariance matrix of a square-root information matrix. -/
noncomputable def covarianceOf (L : Csc α) (n : Nat) : Matrix (Fin n) (Fin n) α := (cscMatrix L n * (cscMatrix L n)ᵀ)⁻¹

/-- The caches that a `SparseCovariance` object can have: any history of queries, in range or not, successful or not, under any
recursion limits. -/
inductive Reachable (c : SparseCovariance α) : CovCache α → Prop
  | make : Reachable c .empty
  | getItem {cache} (h : Reachable c cache) (depth : Nat) (i j : Int) : Reachable c (c.getItem depth i j cache).2
  | computeMarginal {cache} {β : Type} (h : Reachable c cache) (C : Ty → VarClass β) (depth : Nat) (vars : List Var) :
      Reachable c (c.computeMarginal C depth vars cache).2
  | asDense [DecidableEq α] {cache} (h : Reachable c cache) (depth : Nat) (useInverse : Bool) :
      Reachable c (c.asDense depth useInverse cache).2

end Jaxfg.Spec
