/-
Helpers: jaxfg/utils.py, `VariableAssignments.__repr__` and `FactorStack.__post_init__`.
-/
import Verif.Model.Graph

namespace Jaxfg

section
variable {α : Type _}

/-- The axis that an `axis` argument means for `n` axes: negative numbers count from the end, and numbers out of range raise. -/
def normalizeAxis (axis : Int) (n : Nat) : Py Nat :=
  if 0 ≤ axis ∧ axis < n then .ok axis.toNat else if -n ≤ axis ∧ axis < 0 then .ok (axis + n).toNat else .error .value

/-- `jnp.stack(arrays, axis)`. It raises for no arrays and for different shapes. -/
def jnpStack (axis : Int) (as : List (Arr α)) : Py (Arr α) :=
  match as with
  | [] => .error .value
  | a :: _ => do
    if as.any (·.shape ≠ a.shape) then throw .value
    let k ← normalizeAxis axis (a.shape.length + 1)
    let inner := (a.shape.drop k).prod
    return ⟨a.shape.take k ++ as.length :: a.shape.drop k,
      (List.range (a.shape.take k).prod).flatMap fun o => as.flatMap fun b => slice b.data (o * inner) inner⟩

/-- `jnp.concatenate(arrays, axis)`. It raises for no arrays and for shapes that differ in another axis. -/
def jnpConcatenate (axis : Int) (as : List (Arr α)) : Py (Arr α) :=
  match as with
  | [] => .error .value
  | a :: _ => do
    let k ← normalizeAxis axis a.shape.length
    if as.any (fun b => b.shape.length ≠ a.shape.length ∨ b.shape.take k ≠ a.shape.take k ∨ b.shape.drop (k + 1) ≠ a.shape.drop (k + 1)) then
      throw .type
    let inner := (a.shape.drop (k + 1)).prod
    return ⟨a.shape.take k ++ (as.map fun b => b.shape.getD k 0).sum :: a.shape.drop (k + 1),
      (List.range (a.shape.take k).prod).flatMap fun o => as.flatMap fun b =>
        slice b.data (o * (b.shape.getD k 0 * inner)) (b.shape.getD k 0 * inner)⟩

/-- `jax.tree_map(lambda *arrays: f(arrays), *trees)`. It raises without trees. A tree whose structure is not that of the first raises;
the trees that JAX admits because the first is a prefix of them raise in `f`, which expects arrays. -/
def treeMap (f : List (Arr α) → Py (Arr α)) (trees : List (Value α)) : Py (Value α) :=
  match trees with
  | [] => .error .type
  | t :: _ => do
    if trees.any fun u => u.treedef ≠ t.treedef ∨ u.leaves.length ≠ t.leaves.length then throw .value
    let leaves ← (List.range t.leaves.length).mapM fun j => f (trees.map fun u => u.leaves.getD j ⟨[], []⟩)
    return ⟨t.treedef, leaves⟩

/-- `pytree_stack(*trees, axis)`, jaxfg/utils.py:13-16. The deprecation warning is not modelled. -/
def pytreeStack (axis : Int) (trees : List (Value α)) : Py (Value α) := treeMap (jnpStack axis) trees

/-- `pytree_concatenate(*trees, axis)`, jaxfg/utils.py:19-22. The deprecation warning is not modelled. -/
def pytreeConcatenate (axis : Int) (trees : List (Value α)) : Py (Value α) := treeMap (jnpConcatenate axis) trees

/-- `with stopwatch(label): body`, jaxfg/utils.py:25-33: the text that is printed, and the result of the body. `elapsed` is the coloured
text of the measured time. The generator has no `try`, so an exception of the body is raised at its `yield`. -/
def stopwatch {β : Type _} (label elapsed : String) (body : List String × Py β) : List String × Py β :=
  match body with
  | (out, .ok x) => (["\n========", "Running (" ++ label ++ ")"] ++ out ++ [elapsed ++ " seconds", "========"], .ok x)
  | (out, .error e) => (["\n========", "Running (" ++ label ++ ")"] ++ out, .error e)

/-- `__repr__()`, jaxfg/core/_variable_assignments.py:130-140. `name` is the name of a variable class and `text` the text of a value. -/
def Assign.repr (C : Ty → VarClass α) (name : Ty → List Char) (text : Value α → List Char) (a : Assign α) : Py (List Char) := do
  let d ← a.asDict C
  let contents := d.items.zipIdx.map fun p => "    ".toList ++ Nat.toDigits 10 p.2 ++ ".".toList ++ name p.1.1.ty ++ ": ".toList ++ text p.1.2
  return "VariableAssignments(\n".toList ++ ['\n'].intercalate contents ++ "\n)".toList

end

/-- `FactorStack.__post_init__()`, jaxfg/core/_factor_stack.py:29-31. `FactorStack.make` leaves it out: it never raises there
(`C94_post_init`). -/
def FactorStack.postInit (s : FactorStack) : Py Unit := pyAssert (s.valueIndices.length = s.types.length)

end Jaxfg
