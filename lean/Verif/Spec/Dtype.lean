/- Values with a dtype. -/
import Verif.Model.Dtype
import Mathlib.Data.Sign.Defs

namespace Jaxfg.Spec

/-- Rounding towards zero: the sign, and the integer part of the absolute value. -/
noncomputable def towardsZero (x : ℝ) : ℝ := (SignType.sign x : ℝ) * (⌊|x|⌋ : ℝ)

/-- What storage keeps of a value: integer storage rounds all numbers towards zero, floating-point storage keeps them. -/
noncomputable def kept (isInt : Bool) (x : Value ℝ) : Value ℝ := if isInt then x.map towardsZero else x

/-- A value that consists of integer arrays (at least one). -/
def IntegerArrays (x : DValue) : Prop := x.leaves ≠ [] ∧ ∀ l ∈ x.leaves, l.data.isInt = true

/-- All numbers in a value are integers. -/
def Integral (x : Value ℝ) : Prop := ∀ l ∈ x.leaves, ∀ y ∈ l.data, ∃ n : ℤ, y = n

end Jaxfg.Spec
