/-
jaxfg/core/_variable_assignments.py
-/
import Verif.Model.Layout

namespace Jaxfg

variable {α : Type _}

/-- `VariableAssignments`, jaxfg/core/_variable_assignments.py:15-24. -/
structure Assign (α : Type _) where
  storage : List α
  layout : Layout

namespace Assign

/-- `make_from_defaults(variables)`, jaxfg/core/_variable_assignments.py:26-46.
`jnp.tile(flat, reps=(count,))` repeats the flattened default `count` times. `jnp.concatenate` of no arrays raises. -/
def makeFromDefaults (C : Ty → VarClass α) (vars : List Var) : Py (Assign α) := do
  let layout := Layout.make C vars false
  let parts ← layout.getVariableTypes.mapM fun t => do
    let count ← layout.countFromType.get t
    return (List.replicate count (C t).default.flatten).flatten
  if parts.isEmpty then throw .value
  let storage := parts.flatten
  pyAssert (storage.length = layout.dim)
  return ⟨storage, layout⟩

/-- The conditional expression at jaxfg/core/_variable_assignments.py:73-75 (a `None` dictionary is an empty one). -/
def valueOrDefault (C : Ty → VarClass α) (d : PyDict Var (Value α)) (v : Var) : Value α :=
  match d.get? v with
  | some x => x
  | none => (C v.ty).default

/-- `make_from_partial_dict(variables, assignments)`, jaxfg/core/_variable_assignments.py:58-83. -/
def makeFromPartialDict (C : Ty → VarClass α) (vars : List Var) (d : PyDict Var (Value α)) : Py (Assign α) := do
  let layout := Layout.make C vars false
  let parts := layout.getVariables.map fun v => (valueOrDefault C d v).flatten
  if parts.isEmpty then throw .value
  let storage := parts.flatten
  pyAssert (storage.length = layout.dim)
  return ⟨storage, layout⟩

/-- `make_from_dict(assignments)`, jaxfg/core/_variable_assignments.py:48-56. -/
def makeFromDict (C : Ty → VarClass α) (d : PyDict Var (Value α)) : Py (Assign α) :=
  makeFromPartialDict C d.keys d

/-- Set equality `set(xs) == set(ys)`. -/
def sameSet (xs ys : List Var) : Bool := xs.all (· ∈ ys) && ys.all (· ∈ xs)

/-- The loop building `shuffle_indices`: jaxfg/core/_variable_assignments.py:109-120. -/
def shuffleIndices (C : Ty → VarClass α) (src tgt : Layout) : Py (List Nat) :=
  tgt.getVariables.foldlM (fun idx v => do
    let s ← src.indexFromVar.get v
    let t ← tgt.indexFromVar.get v
    let n := dimOf C tgt.localFlag v.ty
    setSlice idx t n (List.range' s n)) (List.replicate tgt.dim 0)

/-- `update_storage_layout(storage_layout)`, jaxfg/core/_variable_assignments.py:85-124. -/
def updateStorageLayout [Zero α] (C : Ty → VarClass α) (a : Assign α) (tgt : Layout) : Py (Assign α) := do
  if a.layout.eq tgt then return a
  pyAssert (a.layout.dim = tgt.dim)
  pyAssert (a.layout.localFlag = tgt.localFlag)
  pyAssert (sameSet a.layout.getVariables tgt.getVariables)
  let idx ← shuffleIndices C a.layout tgt
  let new := gather a.storage idx
  pyAssert (new.length = a.storage.length)
  return ⟨new, tgt⟩

/-- `get_variables()`, jaxfg/core/_variable_assignments.py:142-144. -/
def getVariables (a : Assign α) : List Var := a.layout.getVariables

/-- `get_value(variable)`, jaxfg/core/_variable_assignments.py:146-151. -/
def getValue (C : Ty → VarClass α) (a : Assign α) (v : Var) : Py (Value α) := do
  let i ← a.layout.indexFromVar.get v
  (C v.ty).unflatten (slice a.storage i (C v.ty).paramDim)

/-- `as_dict()`, jaxfg/core/_variable_assignments.py:126-128. -/
def asDict (C : Ty → VarClass α) (a : Assign α) : Py (PyDict Var (Value α)) :=
  a.getVariables.foldlM (fun d v => do return d.set v (← a.getValue C v)) .empty

/-- `get_stacked_value(variable_type)`, jaxfg/core/_variable_assignments.py:153-163. The stacked pytree is represented by
the list of its slices along the leading axis, which is what `vmap` produces. -/
def getStackedValue (C : Ty → VarClass α) (a : Assign α) (t : Ty) : Py (List (Value α)) := do
  let i ← a.layout.indexFromType.get t
  let count ← a.layout.countFromType.get t
  let rows ← reshape2 (slice a.storage i ((C t).paramDim * count)) count (C t).paramDim
  rows.mapM (C t).unflatten

/-- `set_value(variable, value)`, jaxfg/core/_variable_assignments.py:165-177. -/
def setValue (C : Ty → VarClass α) (a : Assign α) (v : Var) (x : Value α) : Py (Assign α) := do
  let i ← a.layout.indexFromVar.get v
  let s ← setSlice a.storage i (C v.ty).paramDim x.flatten
  return ⟨s, a.layout⟩

/-- Loop body of `manifold_retract` for one variable type: jaxfg/core/_variable_assignments.py:192-222. -/
def retractType (C : Ty → VarClass α) (a delta : Assign α) (new : List α) (t : Ty) : Py (List α) := do
  let count ← a.layout.countFromType.get t
  let i ← a.layout.indexFromType.get t
  let li ← delta.layout.indexFromType.get t
  let dim := (C t).paramDim
  let ldim := (C t).localDim
  let vals ← reshape2 (slice a.storage i (dim * count)) count dim
  let deltas ← reshape2 (slice delta.storage li (ldim * count)) count ldim
  let xs ← vals.mapM (C t).unflatten
  setSlice new i (dim * count) (List.zipWith (C t).retract xs deltas |>.flatMap Value.flatten)

/-- `manifold_retract(local_delta_assignments)`, jaxfg/core/_variable_assignments.py:179-224. -/
def manifoldRetract [Zero α] (C : Ty → VarClass α) (a delta : Assign α) : Py (Assign α) := do
  pyAssert (!a.layout.localFlag)
  pyAssert delta.layout.localFlag
  let new ← a.layout.getVariableTypes.foldlM (retractType C a delta) (List.replicate a.storage.length 0)
  return ⟨new, a.layout⟩

end Assign

end Jaxfg
