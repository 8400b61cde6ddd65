/-
jaxfg/core/_storage_layout.py
-/
import Verif.Model.Value

namespace Jaxfg

/-- `StorageLayout`, jaxfg/core/_storage_layout.py:11-35. -/
structure Layout where
  localFlag : Bool
  dim : Nat
  indexFromVar : PyDict Var Nat
  indexFromType : PyDict Ty Nat
  countFromType : PyDict Ty Nat

namespace Layout

/-- `get_variables()`, jaxfg/core/_storage_layout.py:37-40. -/
def getVariables (l : Layout) : List Var := l.indexFromVar.keys

/-- `get_variable_types()`, jaxfg/core/_storage_layout.py:42-45. -/
def getVariableTypes (l : Layout) : List Ty := l.indexFromType.keys

/-- Dataclass `==` (jaxfg/core/_storage_layout.py:11): field-wise, dictionaries compared without order. -/
def eq (a b : Layout) : Bool :=
  decide (a.localFlag = b.localFlag) && decide (a.dim = b.dim) &&
    a.indexFromVar.eq b.indexFromVar && a.indexFromType.eq b.indexFromType &&
    a.countFromType.eq b.countFromType

/-- Bucketing loop with a `DefaultDict(list)`: jaxfg/core/_storage_layout.py:51-55. -/
def bucket (vars : List Var) : PyDict Ty (List Var) :=
  vars.foldl (fun d v => d.set v.ty (((d.get? v.ty).getD []) ++ [v])) .empty

/-- Local variables of the second loop: jaxfg/core/_storage_layout.py:58-60. -/
structure Acc where
  idxVar : PyDict Var Nat
  idxType : PyDict Ty Nat
  next : Nat

/-- Inner loop body: jaxfg/core/_storage_layout.py:63-69. -/
def placeVar (dim : Ty → Nat) (acc : Acc) (v : Var) : Acc :=
  { acc with idxVar := acc.idxVar.set v acc.next, next := acc.next + dim v.ty }

/-- Outer loop body: jaxfg/core/_storage_layout.py:61-69. -/
def placeType (dim : Ty → Nat) (acc : Acc) (p : Ty × List Var) : Acc :=
  p.2.foldl (placeVar dim) { acc with idxType := acc.idxType.set p.1 acc.next }

/-- `StorageLayout.make(variables, local)`: jaxfg/core/_storage_layout.py:47-79. -/
def make {α} (C : Ty → VarClass α) (vars : List Var) (loc : Bool) : Layout :=
  let b := bucket vars
  let acc := b.items.foldl (placeType (dimOf C loc)) ⟨.empty, .empty, 0⟩
  { localFlag := loc
    dim := acc.next
    indexFromVar := acc.idxVar
    indexFromType := acc.idxType
    countFromType := ⟨b.items.map fun p => (p.1, p.2.length)⟩ }

end Layout

end Jaxfg
