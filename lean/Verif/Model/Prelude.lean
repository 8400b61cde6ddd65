/-
Python and JAX primitives used by the model: exceptions as values, insertion-ordered dictionaries, and the array
operations that jaxfg's code relies on.
-/
import Mathlib.Algebra.Group.Defs

namespace Jaxfg

/-- Exceptions the modelled code can raise. -/
inductive Err where
  | assertion
  | key
  | index
  | value
  | type
  | notImplemented
  | recursion
deriving DecidableEq, Repr

/-- A Python computation that returns a value or raises. -/
abbrev Py (α : Type _) := Except Err α

/-- Python `assert b`. -/
def pyAssert (b : Bool) : Py Unit := if b then .ok () else .error .assertion

/-- Python `dict` (and `frozendict`): an association list in insertion order.
Used at jaxfg/core/_storage_layout.py:58-78, _stacked_factor_graph.py:55-56, _variable_assignments.py:128. -/
structure PyDict (K V : Type _) where
  items : List (K × V)

namespace PyDict
variable {K V : Type _}

/-- `{}` -/
def empty : PyDict K V := ⟨[]⟩

/-- `d.keys()`, in insertion order. -/
def keys (d : PyDict K V) : List K := d.items.map (·.1)

/-- `d.get(k)` -/
def get? [DecidableEq K] (d : PyDict K V) (k : K) : Option V := d.items.lookup k

/-- `k in d` -/
def contains [DecidableEq K] (d : PyDict K V) (k : K) : Bool := (d.get? k).isSome

/-- `d[k]`, raising `KeyError`. -/
def get [DecidableEq K] (d : PyDict K V) (k : K) : Py V :=
  match d.get? k with
  | some v => .ok v
  | none => .error .key

/-- `d[k] = v`: an existing key keeps its position, a new key goes to the end. -/
def set [DecidableEq K] (d : PyDict K V) (k : K) (v : V) : PyDict K V :=
  if d.contains k then ⟨d.items.map fun p => if p.1 = k then (k, v) else p⟩
  else ⟨d.items ++ [(k, v)]⟩

/-- `d1 == d2`: same keys with equal values, insertion order ignored. -/
def eq [DecidableEq K] [DecidableEq V] (d₁ d₂ : PyDict K V) : Bool :=
  decide (d₁.items.length = d₂.items.length) &&
    d₁.items.all fun p => decide (d₂.get? p.1 = some p.2)

end PyDict

section Arrays
variable {α : Type _}

/-- `x[i : i + n]` on a 1D array. -/
def slice (l : List α) (i n : Nat) : List α := (l.drop i).take n

/-- `x.at[i : i + n].set(v)` on a 1D array: the slice bounds are clipped to the array, `v` must have the length of the
slice or length 1 (broadcast), anything else raises. -/
def setSlice (l : List α) (i n : Nat) (v : List α) : Py (List α) :=
  let m := (slice l i n).length
  if v.length = m then .ok (l.take i ++ v ++ l.drop (i + m))
  else match v with
    | [x] => .ok (l.take i ++ List.replicate m x ++ l.drop (i + m))
    | _ => .error .value

/-- The rows of a `(c, d)` array given in row-major order. -/
def chunk : Nat → Nat → List α → List (List α)
  | 0, _, _ => []
  | c + 1, d, l => l.take d :: chunk c d (l.drop d)

/-- `x.reshape((c, d))` of a 1D array, as the list of rows; raises if the sizes differ. -/
def reshape2 (l : List α) (c d : Nat) : Py (List (List α)) :=
  if l.length = c * d then .ok (chunk c d l) else .error .type

/-- `x[idx]` for an integer index array: JAX clamps out-of-range indices.
(The value for an empty `x` is irrelevant: never used by the code.) -/
def gather [Zero α] (l : List α) (idx : List Nat) : List α :=
  idx.map fun i => l.getD (min i (l.length - 1)) 0

/-- `x.at[idx].add(v)`: repeated indices accumulate, out-of-range indices are dropped. -/
def scatterAdd [Add α] (l : List α) (upd : List (Nat × α)) : List α :=
  upd.foldl (fun acc p => acc.modify p.1 (· + p.2)) l

/-- `x.at[idx].set(v)` for an index array: out-of-range indices are dropped. With repeated indices JAX leaves the order
unspecified; the model applies the updates in order (the last one wins, as on CPU). -/
def scatterSet (l : List α) (upd : List (Nat × α)) : List α :=
  upd.foldl (fun acc p => acc.set p.1 p.2) l

end Arrays

end Jaxfg
