/-
Arithmetic with rounding, overflow and underflow: what is assumed of floating point numbers. IEEE arithmetic in any rounding mode,
with or without flushing of denormal numbers, satisfies `IsFloat`; nothing is said about the result of a division by zero.
-/
import Verif.Model.Solver
import Verif.Model.Lift
import Verif.Spec.Sparse
import Verif.Spec.Noise

namespace Jaxfg.Spec
open Ext (fin)

/-- How precise an arithmetic is: a result has relative error at most `u` and, where it underflows, in addition an error of at most
`η`; only results larger than `M` may overflow; up to `pad` zeros may take part in a sum. -/
structure Precision where
  u : ℝ
  η : ℝ
  M : ℝ
  pad : Nat
  u_nonneg : 0 ≤ u
  η_nonneg : 0 ≤ η
  M_nonneg : 0 ≤ M

/-- The number `e` may be the result of an operation whose exact result is the real number `x`. -/
def Rounds (P : Precision) (x : ℝ) (e : Ext) : Prop :=
  (∃ z : ℝ, e = fin z ∧ |z - x| ≤ P.u * |x| + P.η ∧ (0 ≤ x → 0 ≤ z) ∧ (x ≤ 0 → z ≤ 0)) ∨
    (P.M < x ∧ e = .pinf) ∨ (x < -P.M ∧ e = .ninf)

/-- The same for an exact result that may be infinite or NaN. -/
def RoundsTo (P : Precision) : Ext → Ext → Prop
  | fin x, e => Rounds P x e
  | x, e => e = x

/-- `s` is obtained from the members of the list by additions, in some order and with some brackets. -/
inductive Bracketed {S : Type} [Add S] : List S → S → Prop
  | single (a : S) : Bracketed [a] a
  | add {l l₁ l₂ : List S} {s t : S} : l.Perm (l₁ ++ l₂) → Bracketed l₁ s → Bracketed l₂ t → Bracketed l (s + t)

/-- The scalars `S` are floating point numbers of precision `P`; `val` says which number each of them is. -/
structure IsFloat (P : Precision) (S : Type) [Scal S] (val : S → Ext) : Prop where
  zero : val 0 = fin 0
  neg : ∀ a, val (-a) = Ext.neg (val a)
  add : ∀ a b, RoundsTo P (Ext.add (val a) (val b)) (val (a + b))
  sub : ∀ a b, RoundsTo P (Ext.add (val a) (Ext.neg (val b))) (val (a - b))
  mul : ∀ a b, RoundsTo P (Ext.mul (val a) (val b)) (val (a * b))
  div : ∀ a b, val b ≠ fin 0 → RoundsTo P (Ext.div (val a) (val b)) (val (a / b))
  sum : ∀ l, ∃ k ≤ P.pad, (l ++ List.replicate k 0 = [] ∧ val (Scal.sum l) = fin 0) ∨
    Bracketed (l ++ List.replicate k 0) (Scal.sum l)
  le : ∀ a b, Scal.le a b = Ext.le (val a) (val b)
  lt : ∀ a b, Scal.lt a b = Ext.lt (val a) (val b)

section
variable {S : Type} (val : S → Ext)

/-- The number is neither infinite nor NaN. -/
def IsFinite (a : S) : Prop := ∃ x : ℝ, val a = fin x

/-- The real number that a finite floating point number stands for. -/
noncomputable def num (a : S) : ℝ := (val a).toReal

/-- The number of entries listed for a row. -/
def rowCount (A : Coo S) (i : Nat) : Nat := ((entries A).filter fun e => e.1 = i).length

end

end Jaxfg.Spec
