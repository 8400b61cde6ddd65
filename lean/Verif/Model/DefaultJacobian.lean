/-
The default `FactorBase.compute_residual_jacobians`: jaxfg/core/_factor_base.py:51-93.

`jax.jacfwd` itself is not modelled: the arrays it returns are arguments.
-/
import Verif.Model.Noise

namespace Jaxfg

/-- `leaf.reshape((rows, -1))`: jaxfg/core/_factor_base.py:65-66, 78. Raises if the size is not a multiple of `rows`, and for
`rows = 0` (the unknown dimension is ambiguous). -/
def reshapeRows {α} (rows : Nat) (a : Arr α) : Py (Arr α) :=
  if rows ≠ 0 ∧ a.data.length % rows = 0 then .ok ⟨[rows, a.data.length / rows], a.data⟩ else .error .value

/-- `leaf.reshape((-1, cols))`: jaxfg/core/_factor_base.py:65-66, 85. -/
def reshapeCols {α} (cols : Nat) (a : Arr α) : Py (Arr α) :=
  if cols ≠ 0 ∧ a.data.length % cols = 0 then .ok ⟨[a.data.length / cols, cols], a.data⟩ else .error .value

/-- The second component of the shape of a two-dimensional array. -/
def Arr.numCols {α} (a : Arr α) : Nat := a.shape.getD 1 0

/-- `jnp.concatenate(as, axis=-1)` for a list of two-dimensional arrays: row `i` of the result is the concatenation of the
rows `i`. Raises for an empty list and for differing numbers of rows. jaxfg/core/_factor_base.py:75. -/
def concatCols {α} (rows : Nat) (as : List (Arr α)) : Py (Arr α) :=
  if as = [] then .error .value
  else if as.all fun a => a.shape.head? = some rows ∧ a.shape.length = 2 then
    .ok ⟨[rows, (as.map (·.numCols)).sum],
      (List.range rows).flatMap fun i => as.flatMap fun a => slice a.data (i * a.numCols) a.numCols⟩
  else .error .type

/-- `jnp.concatenate(as, axis=0)` for a list of two-dimensional arrays. jaxfg/core/_factor_base.py:82-88. -/
def concatRows {α} (cols : Nat) (as : List (Arr α)) : Py (Arr α) :=
  if as = [] then .error .value
  else if as.all fun a => a.shape.length = 2 ∧ a.numCols = cols then
    .ok ⟨[(as.map fun a => a.shape.getD 0 0).sum, cols], as.flatMap (·.data)⟩
  else .error .type

/-- One element of the first tuple: the Jacobian of the residual with respect to the parameters of one variable, from the
Jacobians with respect to its leaves. jaxfg/core/_factor_base.py:75-79. -/
def residualBlock {α} (rd : Nat) (leaves : List (Arr α)) : Py (Arr α) := do
  concatCols rd (← leaves.mapM (reshapeRows rd))

/-- One element of the second tuple: the Jacobian of the parameters of one variable with respect to the local parameters.
jaxfg/core/_factor_base.py:82-88. -/
def retractBlock {α} (ld : Nat) (leaves : List (Arr α)) : Py (Arr α) := do
  concatRows ld (← leaves.mapM (reshapeCols ld))

/-- `compute_residual_jacobians(variable_values)`, jaxfg/core/_factor_base.py:51-93.

`rd` is `self.get_residual_dim()`, `lds` the local dimensions of `self.variables`, `resJac` what
`jax.jacfwd(self.compute_residual_vector)(variable_values)` returns (for every value of the tuple, for every leaf, an array of
shape `(rd, *leaf.shape)`), `retJac` what `manifold_retract_jacobian` returns for every variable (for every leaf, an array of
shape `(*leaf.shape, local_dim)`). -/
noncomputable def defaultJacobians (rd : Nat) (lds : List Nat) (resJac retJac : List (List (Arr ℝ))) : Py (List (Arr ℝ)) := do
  pyAssert (lds.length = resJac.length)
  let Ms ← resJac.mapM (residualBlock rd)
  let Ns ← (lds.zip retJac).mapM fun p => retractBlock p.1 p.2
  (Ms.zip Ns).mapM fun p => einsumMatMat p.1 p.2

end Jaxfg
