/-
Variable values (pytrees), variable classes and variables: jaxfg/core/_variables.py.
-/
import Verif.Model.Prelude
import Mathlib.Algebra.BigOperators.Group.List.Defs

namespace Jaxfg

/-- An array leaf: shape and row-major data. dtypes are not modelled. -/
structure Arr (α : Type _) where
  shape : List Nat
  data : List α
deriving DecidableEq

/-- Number of elements an array of this shape has. -/
def Arr.size {α} (a : Arr α) : Nat := a.shape.prod

/-- A pytree, as `jax.tree_flatten` presents it: an (opaque) treedef and the list of leaves. -/
structure Value (α : Type _) where
  treedef : Nat
  leaves : List (Arr α)
deriving DecidableEq

/-- `VariableBase.flatten`, jaxfg/core/_variables.py:105-118: `ravel_pytree(x)[0]` concatenates the raveled leaves. -/
def Value.flatten {α} (v : Value α) : List α := v.leaves.flatMap (·.data)

/-- Splits a flat vector into leaves with the given shapes (the loop inside `ravel_pytree`'s `unravel`). -/
def splitLeaves {α} : List (List Nat) → List α → List (Arr α)
  | [], _ => []
  | s :: ss, l => ⟨s, l.take s.prod⟩ :: splitLeaves ss (l.drop s.prod)

/-- The `unravel` function of `ravel_pytree(example)`, without its length check. -/
def unravel {α} (ex : Value α) (flat : List α) : Value α :=
  ⟨ex.treedef, splitLeaves (ex.leaves.map (·.shape)) flat⟩

/-- Identity of a Python class that derives from `VariableBase`. -/
abbrev Ty := Nat

/-- The attributes of a concrete variable class that the library uses; jaxfg/core/_variables.py:18-97.
`retract` is a total function: shape errors inside user-written retractions are not modelled. -/
structure VarClass (α : Type _) where
  /-- `get_default_value()` -/
  default : Value α
  /-- `get_local_parameter_dim()` -/
  localDim : Nat
  /-- `manifold_retract(x, local_delta)` -/
  retract : Value α → List α → Value α

/-- `get_parameter_dim()`, set by `__init_subclass__` from the flattened default: jaxfg/core/_variables.py:91-96, 99-103. -/
def VarClass.paramDim {α} (c : VarClass α) : Nat := c.default.flatten.length

/-- `unflatten(flat)`, jaxfg/core/_variables.py:120-131: `ravel_pytree`'s unravel checks the length. -/
def VarClass.unflatten {α} (c : VarClass α) (flat : List α) : Py (Value α) :=
  if flat.length = c.paramDim then .ok (unravel c.default flat) else .error .value

/-- A class that overrides only `get_default_value`: local dimension and retraction are the base class defaults,
jaxfg/core/_variables.py:30-50. `RealVectorVariable[N]` (lines 143-158) is the case of a single leaf of shape `(N,)`. -/
def VarClass.euclidean {α} [Add α] (dflt : Value α) : VarClass α where
  default := dflt
  localDim := dflt.flatten.length
  retract := fun x d => unravel dflt (List.zipWith (· + ·) x.flatten d)

/-- `RealVectorVariable[n]`, jaxfg/core/_variables.py:151-158. -/
def VarClass.realVector {α} [Add α] [Zero α] (n : Nat) : VarClass α :=
  .euclidean ⟨0, [⟨[n], List.replicate n 0⟩]⟩

/-- A variable object: its class and its identity. Python compares and hashes variables by identity. -/
structure Var where
  ty : Ty
  uid : Nat
deriving DecidableEq, Repr

/-- `variable.get_local_parameter_dim() if local else variable.get_parameter_dim()`, the size of a variable's block:
jaxfg/core/_storage_layout.py:65-69, _variable_assignments.py:113-117. -/
def dimOf {α} (C : Ty → VarClass α) (loc : Bool) (t : Ty) : Nat :=
  if loc then (C t).localDim else (C t).paramDim

end Jaxfg
