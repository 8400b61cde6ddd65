/-
Scalars for the nonlinear solvers. The solver code divides, compares and takes maxima of numbers that may be infinite or NaN,
so the solver model is written over an interface without laws: theorems about control flow hold for every implementation,
IEEE floats included. Theorems about numbers use `Ext`.
-/
import Mathlib.Analysis.SpecialFunctions.Pow.NNReal
import Mathlib.Data.Rat.Cast.Defs

namespace Jaxfg

/-- The operations on `jax.numpy` scalars that the solvers use. There are no laws. `sum` is `jnp.sum` of a vector, with
whatever order of additions. -/
class Scal (S : Type _) extends Zero S, Add S, Sub S, Neg S, Mul S, Div S where
  /-- a Python float literal -/
  lit : ℚ → S
  sum : List S → S
  sqrt : S → S
  abs : S → S
  le : S → S → Bool
  lt : S → S → Bool
  maximum : S → S → S
  minimum : S → S → S

/-- Exact real numbers together with the special values of IEEE arithmetic. There is one zero, with sign `+`; no rounding,
no overflow. -/
inductive Ext where
  | fin (x : ℝ)
  | pinf
  | ninf
  | nan

namespace Ext

/-- `-x` -/
noncomputable def neg : Ext → Ext
  | fin x => fin (-x)
  | pinf => ninf
  | ninf => pinf
  | nan => nan

/-- `x + y` -/
noncomputable def add : Ext → Ext → Ext
  | fin x, fin y => fin (x + y)
  | nan, _ => nan
  | _, nan => nan
  | pinf, ninf => nan
  | ninf, pinf => nan
  | pinf, _ => pinf
  | _, pinf => pinf
  | ninf, _ => ninf
  | _, ninf => ninf

open Classical in
/-- An infinity times a real number. -/
noncomputable def infMul (x : ℝ) : Ext := if 0 < x then pinf else if x < 0 then ninf else nan

/-- `x * y` -/
noncomputable def mul : Ext → Ext → Ext
  | fin x, fin y => fin (x * y)
  | nan, _ => nan
  | _, nan => nan
  | fin x, pinf => infMul x
  | fin x, ninf => neg (infMul x)
  | pinf, fin x => infMul x
  | ninf, fin x => neg (infMul x)
  | pinf, pinf => pinf
  | pinf, ninf => ninf
  | ninf, pinf => ninf
  | ninf, ninf => pinf

open Classical in
/-- `x / y`; `x / 0` is an infinity with the sign of `x`, `0 / 0` is NaN. -/
noncomputable def div : Ext → Ext → Ext
  | fin x, fin y => if y = 0 then infMul x else fin (x / y)
  | nan, _ => nan
  | _, nan => nan
  | fin _, _ => fin 0
  | pinf, fin y => if y < 0 then ninf else pinf
  | ninf, fin y => if y < 0 then pinf else ninf
  | _, _ => nan

open Classical in
/-- `x <= y` -/
noncomputable def le : Ext → Ext → Bool
  | fin x, fin y => decide (x ≤ y)
  | nan, _ => false
  | _, nan => false
  | ninf, _ => true
  | _, pinf => true
  | _, _ => false

open Classical in
/-- `x < y` -/
noncomputable def lt : Ext → Ext → Bool
  | fin x, fin y => decide (x < y)
  | nan, _ => false
  | _, nan => false
  | ninf, ninf => false
  | pinf, pinf => false
  | ninf, _ => true
  | _, pinf => true
  | _, _ => false

/-- `jnp.maximum(x, y)`; NaN propagates. -/
noncomputable def maximum : Ext → Ext → Ext
  | fin x, fin y => fin (max x y)
  | nan, _ => nan
  | _, nan => nan
  | pinf, _ => pinf
  | _, pinf => pinf
  | ninf, y => y
  | x, ninf => x

/-- `jnp.minimum(x, y)`; NaN propagates. -/
noncomputable def minimum : Ext → Ext → Ext
  | fin x, fin y => fin (min x y)
  | nan, _ => nan
  | _, nan => nan
  | ninf, _ => ninf
  | _, ninf => ninf
  | pinf, y => y
  | x, pinf => x

open Classical in
/-- `jnp.sqrt(x)` -/
noncomputable def sqrt : Ext → Ext
  | fin x => if x < 0 then nan else fin (Real.sqrt x)
  | pinf => pinf
  | ninf => nan
  | nan => nan

/-- `jnp.abs(x)` -/
noncomputable def abs : Ext → Ext
  | fin x => fin |x|
  | pinf => pinf
  | ninf => pinf
  | nan => nan

noncomputable instance : Scal Ext where
  zero := fin 0
  add := add
  sub x y := add x (neg y)
  neg := neg
  mul := mul
  div := div
  lit q := fin q
  sum l := l.foldr add (fin 0)
  sqrt := sqrt
  abs := abs
  le := le
  lt := lt
  maximum := maximum
  minimum := minimum

end Ext

end Jaxfg
