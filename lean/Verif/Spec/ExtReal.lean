/- Arithmetic with infinities and NaN, in terms of Mathlib's extended reals. -/
import Verif.Model.Scalar
import Mathlib.Data.EReal.Inv

namespace Jaxfg.Spec

/-- The extended real number that a scalar stands for; NaN stands for none. -/
noncomputable def extVal : Ext → Option EReal
  | .fin x => some (x : EReal)
  | .pinf => some ⊤
  | .ninf => some ⊥
  | .nan => none

open Classical in
/-- IEEE sums: undefined for infinities of opposite sign. -/
noncomputable def ieeeAdd (a b : EReal) : Option EReal :=
  if a = ⊤ ∧ b = ⊥ ∨ a = ⊥ ∧ b = ⊤ then none else some (a + b)

open Classical in
/-- IEEE products: undefined for zero times an infinity. -/
noncomputable def ieeeMul (a b : EReal) : Option EReal :=
  if a = 0 ∧ (b = ⊤ ∨ b = ⊥) ∨ b = 0 ∧ (a = ⊤ ∨ a = ⊥) then none else some (a * b)

open Classical in
/-- IEEE quotients, all zeros being positive: undefined for `0 / 0` and quotients of infinities; `a / 0` is an infinity otherwise. -/
noncomputable def ieeeDiv (a b : EReal) : Option EReal :=
  if a = 0 ∧ b = 0 ∨ (a = ⊤ ∨ a = ⊥) ∧ (b = ⊤ ∨ b = ⊥) then none
  else if b = 0 then some (if 0 < a then ⊤ else ⊥)
  else some (a / b)

end Jaxfg.Spec
