/-
The two memoized functions of jaxfg/core/_variables.py, `RealVectorVariable[dim]` (143-162) and `canonical_instance` (133-139),
as operations on a small heap.
-/
import Verif.Model.Value
import Mathlib.Data.Rat.Defs

namespace Jaxfg

/-- What can be written between the brackets of `RealVectorVariable[...]`: a hashable number. Others (strings, ...) behave like
numbers that are not of type `int` and equal no number; they are not modelled. -/
inductive DimArg where
  | int (n : Int)
  | bool (b : Bool)
  | float (q : Rat)
deriving DecidableEq

/-- The number that `==` and `hash` of the argument depend on: `1 == True == 1.0`. -/
def DimArg.num : DimArg → Rat
  | int n => n
  | bool b => if b then 1 else 0
  | float q => q

/-- `isinstance(dim, int)`; `bool` is a subclass of `int`. -/
def DimArg.isInt : DimArg → Bool
  | float _ => false
  | _ => true

/-- The heap, as far as it matters: the identity of the next object (class or instance), the dimensions of the classes that the
template has made, and the caches of the two `functools.lru_cache` decorators. The first has key `(cls, dim)`, where `cls` is
always the template; `typed=False`, so keys are compared with `==`. The second has key `(cls,)`. -/
structure Heap where
  next : Nat
  dims : PyDict Ty Nat
  templates : PyDict Rat Ty
  instances : PyDict Ty Var

/-- The heap after `import jaxfg`; `next` objects exist, among them all other classes. -/
def Heap.initial (next : Nat) : Heap := ⟨next, .empty, .empty, .empty⟩

/-- What a program can do with variable classes. -/
inductive Op where
  /-- `RealVectorVariable[dim]` -/
  | template (dim : DimArg)
  /-- `cls.canonical_instance()` -/
  | canonical (cls : Ty)
  /-- `cls()` -/
  | create (cls : Ty)
  /-- `class Foo(VariableBase): ...` -/
  | define

/-- The result of an operation: a class or an instance. -/
inductive Res where
  | cls (t : Ty)
  | var (v : Var)
deriving DecidableEq

/-- `RealVectorVariable[dim]`: jaxfg/core/_variables.py:147-158. A cached result is returned without running the body. Otherwise
the body checks the type, and creating the class calls `get_default_value` (line 91), where `jnp.zeros` raises for a negative
dimension; a call that raises is not cached. -/
def Heap.template (h : Heap) (dim : DimArg) : Heap × Py Res :=
  match h.templates.get? dim.num with
  | some t => (h, .ok (.cls t))
  | none =>
    if !dim.isInt then (h, .error .assertion)
    else if dim.num < 0 then (h, .error .value)
    else (⟨h.next + 1, h.dims.set h.next dim.num.num.toNat, h.templates.set dim.num h.next, h.instances⟩, .ok (.cls h.next))

/-- `cls.canonical_instance()`: jaxfg/core/_variables.py:133-139. -/
def Heap.canonical (h : Heap) (t : Ty) : Heap × Py Res :=
  match h.instances.get? t with
  | some v => (h, .ok (.var v))
  | none => (⟨h.next + 1, h.dims, h.templates, h.instances.set t ⟨t, h.next⟩⟩, .ok (.var ⟨t, h.next⟩))

/-- One operation. -/
def Heap.step (h : Heap) : Op → Heap × Py Res
  | .template dim => h.template dim
  | .canonical t => h.canonical t
  | .create t => ({ h with next := h.next + 1 }, .ok (.var ⟨t, h.next⟩))
  | .define => ({ h with next := h.next + 1 }, .ok (.cls h.next))

/-- A history of operations, with the result of each. -/
def Heap.run (h : Heap) : List Op → Heap × List (Py Res)
  | [] => (h, [])
  | op :: ops =>
    let r := h.step op
    let rest := r.1.run ops
    (rest.1, r.2 :: rest.2)

end Jaxfg
