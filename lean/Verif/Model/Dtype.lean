/-
Integer and floating-point arrays in jaxfg/core/_variable_assignments.py.

JAX arrays have a dtype. The other files of the model compute with numbers and have no dtypes. This file models the functions
that create and write the storage vector a second time, with the one distinction that changes numbers: integer or floating
point. Simplifications: integers are unbounded and floats exact; there are no booleans, no complex numbers and no widths.
-/
import Verif.Model.Assign
import Verif.Model.Lift
import Mathlib.Algebra.Order.Round
import Mathlib.Algebra.Order.Archimedean.Real.Basic

namespace Jaxfg

/-- The conversion of a floating-point number to an integer dtype (`lax.convert_element_type`): rounding towards zero. -/
noncomputable def trunc (x : ℝ) : ℤ := if 0 ≤ x then ⌊x⌋ else ⌈x⌉

/-- A one-dimensional array with its dtype. -/
inductive Flat where
  | int (l : List ℤ)
  | float (l : List ℝ)

namespace Flat

/-- Is the dtype an integer type? -/
def isInt : Flat → Bool
  | int _ => true
  | float _ => false

/-- The numbers in the array (`x.astype(float)`). -/
def numbers : Flat → List ℝ
  | int l => l.map (fun n : ℤ => (n : ℝ))
  | float l => l

/-- `x.astype(int)`. -/
noncomputable def toInt : Flat → List ℤ
  | int l => l
  | float l => l.map trunc

/-- `jnp.concatenate(parts)` for a non-empty list of arrays: integers and floats together are promoted to floats. -/
def concat : List Flat → Flat
  | [] => int []
  | int l :: ps => match concat ps with
    | int r => int (l ++ r)
    | float r => float (l.map (fun n : ℤ => (n : ℝ)) ++ r)
  | float l :: ps => float (l ++ (concat ps).numbers)

/-- `x.at[i : i + n].set(v)`: the dtype of `x` stays, `v` is converted to it. (JAX warns, from some version on, when the conversion
is from floats to integers; it does not raise.) -/
noncomputable def setSlice (x : Flat) (i n : Nat) (v : Flat) : Py Flat :=
  match x with
  | int l => (Jaxfg.setSlice l i n v.toInt).map int
  | float l => (Jaxfg.setSlice l i n v.numbers).map float

/-- `jnp.zeros_like(x)`: has the dtype of `x`. -/
def zerosLike : Flat → Flat
  | int l => int (List.replicate l.length 0)
  | float l => float (List.replicate l.length 0)

/-- `x[idx]`: has the dtype of `x`. -/
noncomputable def gather (x : Flat) (idx : List Nat) : Flat :=
  match x with
  | int l => int (Jaxfg.gather l idx)
  | float l => float (Jaxfg.gather l idx)

/-- `x.shape[0]`. -/
def length : Flat → Nat
  | int l => l.length
  | float l => l.length

end Flat

/-- An array leaf with its dtype: shape and row-major data. -/
structure DArr where
  shape : List Nat
  data : Flat

/-- A pytree of arrays with dtypes. -/
structure DValue where
  treedef : Nat
  leaves : List DArr

namespace DValue

/-- The same pytree, with numbers for arrays. -/
def numbers (x : DValue) : Value ℝ := ⟨x.treedef, x.leaves.map fun a => ⟨a.shape, a.data.numbers⟩⟩

/-- `VariableBase.flatten`, jaxfg/core/_variables.py:105-118: `ravel_pytree` concatenates the leaves, and returns an empty
floating-point array for a pytree without leaves. -/
def flatten (x : DValue) : Flat := if x.leaves.isEmpty then .float [] else .concat (x.leaves.map (·.data))

/-- A pytree of floating-point arrays. The default values of variable classes are such pytrees: jaxfg/core/_variables.py:151-158,
jaxfg/geometry/_lie_variables.py:27-31. -/
def ofReal (x : Value ℝ) : DValue := ⟨x.treedef, x.leaves.map fun a => ⟨a.shape, .float a.data⟩⟩

end DValue

/-- `VariableAssignments` with a dtype for the storage, jaxfg/core/_variable_assignments.py:15-24. -/
structure DAssign where
  storage : Flat
  layout : Layout

namespace DAssign

/-- The assignments with numbers for arrays. Costs, residuals and Jacobians are computed from these: residual functions and Jacobians
are taken to be functions of numbers, whatever the dtype. (A factor that leaves the Jacobians to jaxfg/core/_factor_base.py:51-93
raises `TypeError` on integers, because `jax.jacfwd` refuses them; what follows is about the others.) -/
def numbers (a : DAssign) : Assign ℝ := ⟨a.storage.numbers, a.layout⟩

/-- The conditional expression at jaxfg/core/_variable_assignments.py:73-75. -/
def valueOrDefault (C : Ty → VarClass ℝ) (d : PyDict Var DValue) (v : Var) : DValue :=
  match d.get? v with
  | some x => x
  | none => .ofReal (C v.ty).default

/-- `make_from_partial_dict(variables, assignments)`, jaxfg/core/_variable_assignments.py:58-83. -/
def makeFromPartialDict (C : Ty → VarClass ℝ) (vars : List Var) (d : PyDict Var DValue) : Py DAssign := do
  let layout := Layout.make C vars false
  let parts := layout.getVariables.map fun v => (valueOrDefault C d v).flatten
  if parts.isEmpty then throw .value
  let storage := Flat.concat parts
  pyAssert (storage.length = layout.dim)
  return ⟨storage, layout⟩

/-- `set_value(variable, value)`, jaxfg/core/_variable_assignments.py:165-177. -/
noncomputable def setValue (C : Ty → VarClass ℝ) (a : DAssign) (v : Var) (x : DValue) : Py DAssign := do
  let i ← a.layout.indexFromVar.get v
  let s ← a.storage.setSlice i (C v.ty).paramDim x.flatten
  return ⟨s, a.layout⟩

/-- `update_storage_layout(storage_layout)`, jaxfg/core/_variable_assignments.py:85-124. -/
noncomputable def updateStorageLayout (C : Ty → VarClass ℝ) (a : DAssign) (tgt : Layout) : Py DAssign := do
  if a.layout.eq tgt then return a
  pyAssert (a.layout.dim = tgt.dim)
  pyAssert (a.layout.localFlag = tgt.localFlag)
  pyAssert (Assign.sameSet a.layout.getVariables tgt.getVariables)
  let idx ← Assign.shuffleIndices C a.layout tgt
  let new := a.storage.gather idx
  pyAssert (new.length = a.storage.length)
  return ⟨new, tgt⟩

/-- Loop body of `manifold_retract` for one variable type: jaxfg/core/_variable_assignments.py:192-222. The deltas that solvers pass
are floating-point numbers, so are the results of the retraction. -/
noncomputable def retractType (C : Ty → VarClass ℝ) (a : DAssign) (delta : Assign ℝ) (new : Flat) (t : Ty) : Py Flat := do
  let count ← a.layout.countFromType.get t
  let i ← a.layout.indexFromType.get t
  let li ← delta.layout.indexFromType.get t
  let dim := (C t).paramDim
  let ldim := (C t).localDim
  let vals ← reshape2 (slice a.storage.numbers i (dim * count)) count dim
  let deltas ← reshape2 (slice delta.storage li (ldim * count)) count ldim
  let xs ← vals.mapM (C t).unflatten
  new.setSlice i (dim * count) (.float (List.zipWith (C t).retract xs deltas |>.flatMap Value.flatten))

/-- `manifold_retract(local_delta_assignments)`, jaxfg/core/_variable_assignments.py:179-224. The new storage starts as
`jnp.zeros_like(self.storage)`, line 191, so it has the dtype of the old one. -/
noncomputable def manifoldRetract (C : Ty → VarClass ℝ) (a : DAssign) (delta : Assign ℝ) : Py DAssign := do
  pyAssert (!a.layout.localFlag)
  pyAssert delta.layout.localFlag
  let new ← a.layout.getVariableTypes.foldlM (retractType C a delta) a.storage.zerosLike
  return ⟨new, a.layout⟩

end DAssign

/-- The classes that retract like `C` and then truncate. Retracting integer storage with the classes `C` does to the numbers what
retracting storage without a dtype does with these classes (`C114_retract_numbers`). The solvers touch assignments in no other way
that depends on the dtype: they read numbers, move them between layouts and retract. So a run of a solver on integer storage is, on
the numbers, the run of `Solver.lean` with these classes. -/
noncomputable def truncating (C : Ty → VarClass ℝ) (t : Ty) : VarClass ℝ where
  default := (C t).default
  localDim := (C t).localDim
  retract := fun x d => ((C t).retract x d).map fun y => (trunc y : ℝ)

end Jaxfg
