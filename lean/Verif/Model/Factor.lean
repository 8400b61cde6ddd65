/-
Factors and factor stacks: jaxfg/core/_factor_base.py, jaxfg/core/_factor_stack.py.
-/
import Verif.Model.Assign
import Verif.Model.Noise
import Verif.Model.Sparse

namespace Jaxfg

/-! ### Type hints: `build_variable_value_tuple` -/

/-- An expected type in a type hint, as the `isinstance` predicate it induces on Python types of values. The Python type of a
value is identified by the treedef of its pytree. -/
abbrev TyHint := Nat → Bool

/-- The type hint of the `variable_values` argument of `compute_residual_vector`: a `NamedTuple` class, a `Tuple[A, B, ...]`
annotation, or `Tuple[A, ...]` with an ellipsis. jaxfg/core/_factor_base.py:128-154. -/
inductive Hint where
  | named (contents : List TyHint)
  | tuple (contents : List TyHint)
  | ellipsis (content : TyHint)

/-- The tuple handed to `compute_residual_vector`: an instance of the hinted `NamedTuple` class, or a plain tuple. -/
inductive ValueTuple (β : Type _) where
  | named (values : List β)
  | plain (values : List β)

/-- The values in a tuple, in order. -/
def ValueTuple.values {β : Type _} : ValueTuple β → List β
  | named vs => vs
  | plain vs => vs

/-- The validation loop: jaxfg/core/_factor_base.py:156-164. -/
def checkHints {β : Type _} (tyOf : β → Nat) (values : List β) (contents : List TyHint) : Py Unit := do
  pyAssert (values.length = contents.length)
  pyAssert ((values.zip contents).all fun p => p.2 (tyOf p.1))

/-- `build_variable_value_tuple(variable_values)`, jaxfg/core/_factor_base.py:113-166. `hint` is `none` if the argument has no
type hint. A `NamedTuple` constructor called with the wrong number of arguments raises `TypeError`. The assertion that the
argument is a tuple is not modelled (the argument is a list here). -/
def buildVariableValueTuple {β : Type _} (hint : Option Hint) (tyOf : β → Nat) (values : List β) : Py (ValueTuple β) :=
  match hint with
  | none => .error .notImplemented
  | some (.named contents) => do
    if values.length ≠ contents.length then throw .type
    checkHints tyOf values contents
    return .named values
  | some (.tuple contents) => do
    checkHints tyOf values contents
    return .plain values
  | some (.ellipsis content) => do
    checkHints tyOf values (List.replicate values.length content)
    return .plain values

/-! ### Factors -/

/-- What the methods of a factor can read of `self`: the classes of the variables, the noise model and the array fields.
(Simplification: residual functions cannot depend on the identity of `self.variables`; in a stack these are replaced by
canonical instances.) -/
structure FactorSelf where
  types : List Ty
  noise : Noise
  params : List (Arr ℝ)

/-- A factor class together with the values of its static fields (both are part of the treedef): the methods of
jaxfg/core/_factor_base.py:39-93. Methods are total functions: errors inside user-written residuals are not modelled. -/
structure FactorClass where
  /-- type hint of `compute_residual_vector` -/
  hint : Option Hint
  /-- `compute_residual_vector(self, variable_values)` -/
  residual : FactorSelf → List (Value ℝ) → List ℝ
  /-- `compute_residual_jacobians(self, variable_values)` -/
  jacobians : FactorSelf → List (Value ℝ) → List (Arr ℝ)

/-- A factor object, jaxfg/core/_factor_base.py:23-33: `cls` identifies class and static fields, `params` are the array
leaves of the subclass's own fields. -/
structure Factor where
  cls : Nat
  vars : List Var
  noise : Noise
  params : List (Arr ℝ)

namespace Factor

/-- `jax.tree_leaves(factor)`: the noise model is the first non-static field. -/
def leaves (f : Factor) : List (Arr ℝ) := f.noise.leaves ++ f.params

/-- The part of the factor that its methods read; `anonymize_variables` (jaxfg/core/_factor_base.py:168-176) keeps exactly
the classes of the variables. -/
def self (f : Factor) : FactorSelf := ⟨f.vars.map (·.ty), f.noise, f.params⟩

/-- `get_residual_dim()`, jaxfg/core/_factor_base.py:97-100. -/
def residualDim (f : Factor) : Py Nat := f.noise.residualDim

/-- `jax.tree_structure(factor.anonymize_variables())`: class and static fields, variable classes, structure of the noise
model, number of own array leaves. -/
abbrev TreeDef := Nat × List Ty × NoiseDef × Nat

/-- See `TreeDef`. -/
def treedef (f : Factor) : TreeDef := (f.cls, f.vars.map (·.ty), f.noise.treedef, f.params.length)

/-- The group key of jaxfg/core/_stacked_factor_graph.py:60-69: treedef and leaf shapes. -/
abbrev GroupKey := TreeDef × List (List Nat)

/-- See `GroupKey`. -/
def groupKey (f : Factor) : GroupKey := (f.treedef, f.leaves.map (·.shape))

/-- `get_variable_values_from_assignments(assignments)`, jaxfg/core/_factor_base.py:102-111. -/
def valuesFromAssignments (F : Nat → FactorClass) (C : Ty → VarClass ℝ) (f : Factor) (a : Assign ℝ) :
    Py (ValueTuple (Value ℝ)) := do
  let vals ← f.vars.mapM (a.getValue C)
  buildVariableValueTuple (F f.cls).hint (·.treedef) vals

end Factor

/-- Rebuilds a noise model from its treedef and a list of leaves; returns the leaves that are left over. -/
def Noise.build : NoiseDef → List (Arr ℝ) → Py (Noise × List (Arr ℝ))
  | .gaussian, W :: ls => .ok (.gaussian W, ls)
  | .diagonal, d :: ls => .ok (.diagonal d, ls)
  | .huber w, ls => do
    let (w', ls') ← Noise.build w ls
    match ls' with
    | δ :: ls'' => return (.huber w' δ, ls'')
    | [] => throw .value
  | _, [] => .error .value

/-- `jnp.stack(arrays, axis=0)`: shapes must agree. -/
def stackLeaf (as : List (Arr ℝ)) : Py (Arr ℝ) :=
  match as with
  | [] => .error .value
  | a :: _ => if as.all (·.shape = a.shape) then .ok ⟨as.length :: a.shape, as.flatMap (·.data)⟩ else .error .value

/-- Slice `n` of a stacked leaf along the leading axis, as `vmap` sees it. -/
def leafAt (n : Nat) (a : Arr ℝ) : Arr ℝ := ⟨a.shape.tail, slice a.data (n * a.shape.tail.prod) a.shape.tail.prod⟩

/-- `FactorStack`, jaxfg/core/_factor_stack.py:16-27. The stacked factor is its treedef and its stacked leaves; the index
array of a variable is the list of its rows. -/
structure FactorStack where
  numFactors : Nat
  cls : Nat
  types : List Ty
  noiseDef : NoiseDef
  leaves : List (Arr ℝ)
  valueIndices : List (List (List Nat))
  layout : Layout

namespace FactorStack

/-- The index arrays of jaxfg/core/_factor_stack.py:63-80 (`dim = get_parameter_dim`) and 103-121
(`dim = get_local_parameter_dim`): for each variable position the list, over the factors, of the storage indices of the
variable at that position. -/
def indexRows (layout : Layout) (dim : Ty → Nat) (numVars : Nat) (fs : List Factor) : Py (List (List (List Nat))) := do
  let rows ← fs.mapM fun f => f.vars.mapM fun v => do
    let pos ← layout.indexFromVar.get v
    return List.range' pos (dim v.ty)
  return (List.range numVars).map fun i => rows.map fun row => row.getD i []

/-- `FactorStack.make(factors, storage_layout, use_onp)`, jaxfg/core/_factor_stack.py:43-88. `tree_map` raises if the
treedefs differ (which subsumes the assertion on variable types). -/
def make (C : Ty → VarClass ℝ) (fs : List Factor) (layout : Layout) : Py FactorStack :=
  match fs with
  | [] => .error .type
  | f₀ :: _ => do
    if fs.any (·.treedef ≠ f₀.treedef) then throw .value
    let leaves ← (List.range f₀.leaves.length).mapM fun i => stackLeaf (fs.map fun f => f.leaves.getD i ⟨[], []⟩)
    let idx ← indexRows layout (fun t => (C t).paramDim) f₀.vars.length fs
    return { numFactors := fs.length, cls := f₀.cls, types := f₀.vars.map (·.ty), noiseDef := f₀.noise.treedef,
             leaves := leaves, valueIndices := idx, layout := layout }

/-- `compute_jacobian_coords(factors, local_storage_layout, row_offset)`, jaxfg/core/_factor_stack.py:90-159: one list of
(row, column) pairs per variable position. Factors with different variable classes raise here (the code is only called with
the factors of one group). -/
def computeJacobianCoords (C : Ty → VarClass ℝ) (fs : List Factor) (localLayout : Layout) (rowOffset : Nat) :
    Py (List (List (Nat × Nat))) :=
  match fs with
  | [] => .error .index
  | f₀ :: _ => do
    if fs.any (·.vars.map (·.ty) ≠ f₀.vars.map (·.ty)) then throw .index
    let idx ← indexRows localLayout (fun t => (C t).localDim) f₀.vars.length fs
    let rd ← f₀.residualDim
    return idx.map fun rows => (List.range fs.length).flatMap fun n => (List.range rd).flatMap fun r =>
      (rows.getD n []).map fun c => (n * rd + r + rowOffset, c)

/-- `self.factor.get_residual_dim()` on the stacked factor: last axis of the stacked noise array. -/
def factorResidualDim (s : FactorStack) : Py Nat := do
  let (noise, _) ← Noise.build s.noiseDef s.leaves
  noise.residualDim

/-- `get_residual_dim()`, jaxfg/core/_factor_stack.py:161-162. -/
def residualDim (s : FactorStack) : Py Nat := do return (← s.factorResidualDim) * s.numFactors

/-- The `n`-th factor of the stack, as `vmap` passes it to the factor's methods. -/
def selfAt (s : FactorStack) (n : Nat) : Py FactorSelf := do
  let (noise, params) ← Noise.build s.noiseDef (s.leaves.map (leafAt n))
  return ⟨s.types, noise, params⟩

/-- `values_stacked`: jaxfg/core/_factor_stack.py:172-176, 197-201; for each variable position the list, over the factors, of
the values. -/
def valuesStacked (C : Ty → VarClass ℝ) (s : FactorStack) (a : Assign ℝ) : Py (List (List (Value ℝ))) :=
  (s.types.zip s.valueIndices).mapM fun p => p.2.mapM fun idx => (C p.1).unflatten (gather a.storage idx)

/-- The argument tuples of the `vmap`ped calls: values checked against the type hints (on the stacked values, whose Python
type is the one of the variable class), then sliced. jaxfg/core/_factor_stack.py:170-183, 195-208. -/
def arguments (F : Nat → FactorClass) (C : Ty → VarClass ℝ) (s : FactorStack) (a : Assign ℝ) :
    Py (List (FactorSelf × List (Value ℝ))) := do
  pyAssert (a.layout.eq s.layout)
  let stacked ← s.valuesStacked C a
  let tup ← buildVariableValueTuple (F s.cls).hint (fun p : Ty × List (Value ℝ) => (C p.1).default.treedef) (s.types.zip stacked)
  (List.range s.numFactors).mapM fun n => do
    let self ← s.selfAt n
    return (self, tup.values.map fun col => col.2.getD n ⟨0, []⟩)

/-- `compute_residual_vector(assignments)`, jaxfg/core/_factor_stack.py:164-184, as the list of rows. -/
def computeResidualVector (F : Nat → FactorClass) (C : Ty → VarClass ℝ) (s : FactorStack) (a : Assign ℝ) :
    Py (List (List ℝ)) := do
  let args ← s.arguments F C a
  return args.map fun p => (F s.cls).residual p.1 p.2

/-- `compute_residual_jacobian(assignments)`, jaxfg/core/_factor_stack.py:186-209: one stacked array (list of matrices, one per
factor) for each variable position. -/
def computeResidualJacobian (F : Nat → FactorClass) (C : Ty → VarClass ℝ) (s : FactorStack) (a : Assign ℝ) :
    Py (List (List (Arr ℝ))) := do
  let args ← s.arguments F C a
  let rows := args.map fun p => (F s.cls).jacobians p.1 p.2
  return (List.range ((rows.getD 0 []).length)).map fun i => rows.map fun row => row.getD i ⟨[], []⟩

end FactorStack

end Jaxfg
