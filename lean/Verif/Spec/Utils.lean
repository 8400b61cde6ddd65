/- Vocabulary for statements about arrays with several axes. -/
import Verif.Model.Value
import Mathlib.Data.List.Forall2

namespace Jaxfg.Spec

/-- The position of a multi-index in row-major order. -/
def rowMajor : List Nat → List Nat → Nat
  | _ :: ss, i :: is => i * ss.prod + rowMajor ss is
  | _, _ => 0

/-- The array has the entry `x` at a multi-index. -/
def Arr.At {α : Type _} (a : Arr α) (idx : List Nat) (x : α) : Prop :=
  List.Forall₂ (· < ·) idx a.shape ∧ a.data[rowMajor a.shape idx]? = some x

/-- `axis` means axis `k` of `n`. -/
def IsAxis (axis : Int) (n k : Nat) : Prop := k < n ∧ (axis = k ∨ axis = (k : Int) - n)

end Jaxfg.Spec
