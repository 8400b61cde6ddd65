/-
Part of property C111: the arithmetic with infinities and NaN that the theorems about numbers use. It validates part of the trusted base.
-/
import Verif.Spec.ExtReal

namespace Jaxfg.Props
open Spec
open Ext (fin)

/-- Scalars are extended real numbers or NaN. -/
theorem C111_scalars : Function.Bijective extVal := by
  refine ⟨fun x y h => ?_, fun o => ?_⟩
  · cases x <;> cases y <;> simp_all [extVal]
  · cases o with
    | none => exact ⟨.nan, rfl⟩
    | some a =>
      induction a with
      | bot => exact ⟨.ninf, rfl⟩
      | coe x => exact ⟨.fin x, rfl⟩
      | top => exact ⟨.pinf, rfl⟩

/-- **C111**, comparisons. They are the comparisons of extended real numbers, and false if an argument is NaN. -/
theorem C111_comparisons (x y : Ext) :
    (Scal.lt x y = true ↔ ∃ a b, extVal x = some a ∧ extVal y = some b ∧ a < b) ∧
    (Scal.le x y = true ↔ ∃ a b, extVal x = some a ∧ extVal y = some b ∧ a ≤ b) := by
  constructor
  · show Ext.lt x y = true ↔ _
    cases x <;> cases y <;> simp [Ext.lt, extVal]
  · show Ext.le x y = true ↔ _
    cases x <;> cases y <;> simp [Ext.le, extVal]

/-- **C111**, arithmetic. The operations are those of extended real numbers where these are defined, and NaN otherwise. -/
theorem C111_arithmetic (x y : Ext) :
    extVal (x + y) = (extVal x).bind (fun a => (extVal y).bind fun b => ieeeAdd a b) ∧
    extVal (x - y) = (extVal x).bind (fun a => (extVal y).bind fun b => ieeeAdd a (-b)) ∧
    extVal (x * y) = (extVal x).bind (fun a => (extVal y).bind fun b => ieeeMul a b) ∧
    extVal (x / y) = (extVal x).bind (fun a => (extVal y).bind fun b => ieeeDiv a b) ∧
    extVal (-x) = (extVal x).map (fun a => -a) ∧
    extVal (Scal.maximum x y) = (extVal x).bind (fun a => (extVal y).map fun b => max a b) ∧
    extVal (Scal.minimum x y) = (extVal x).bind (fun a => (extVal y).map fun b => min a b) ∧
    extVal (Scal.abs x) = (extVal x).map (fun a => max a (-a)) := by
  have hneg : ∀ y, extVal (Ext.neg y) = (extVal y).map fun a => -a := by
    intro y; cases y <;> simp [Ext.neg, extVal]
  have hadd : ∀ x y, extVal (Ext.add x y) = (extVal x).bind (fun a => (extVal y).bind fun b => ieeeAdd a b) := by
    intro x y
    cases x <;> cases y <;> simp [Ext.add, extVal, ieeeAdd]
  have hinf : ∀ r : ℝ, extVal (Ext.infMul r) = ieeeMul r ⊤ := by
    intro r
    unfold Ext.infMul ieeeMul
    rcases lt_trichotomy r 0 with h | rfl | h
    · simp [h, h.ne, not_lt.2 h.le, extVal, EReal.coe_mul_top_of_neg h]
    · simp [extVal]
    · simp [h, h.ne', extVal, EReal.coe_mul_top_of_pos h]
  have hinf' : ∀ r : ℝ, extVal (Ext.neg (Ext.infMul r)) = ieeeMul r ⊥ := by
    intro r
    unfold Ext.infMul ieeeMul
    rcases lt_trichotomy r 0 with h | rfl | h
    · simp [h, h.ne, not_lt.2 h.le, extVal, Ext.neg, EReal.coe_mul_bot_of_neg h]
    · simp [extVal, Ext.neg]
    · simp [h, h.ne', extVal, Ext.neg, EReal.coe_mul_bot_of_pos h]
  have hcomm : ∀ a b, ieeeMul a b = ieeeMul b a := by
    intro a b
    unfold ieeeMul
    rw [mul_comm a b]
    simp only [or_comm]
  have hmax : ∀ r t : ℝ, ((max r t : ℝ) : EReal) = max (r : EReal) (t : EReal) := fun r t => EReal.coe_strictMono.monotone.map_max
  have hmin : ∀ r t : ℝ, ((min r t : ℝ) : EReal) = min (r : EReal) (t : EReal) := fun r t => EReal.coe_strictMono.monotone.map_min
  refine ⟨hadd x y, ?_, ?_, ?_, hneg x, ?_, ?_, ?_⟩
  · show extVal (Ext.add x (Ext.neg y)) = _
    rw [hadd, hneg]
    cases extVal y <;> rfl
  · show extVal (Ext.mul x y) = _
    cases x <;> cases y <;>
      first
      | exact hinf _
      | exact hinf' _
      | exact (hinf _).trans (hcomm _ _)
      | exact (hinf' _).trans (hcomm _ _)
      | simp [Ext.mul, extVal, ieeeMul]
  · show extVal (Ext.div x y) = _
    cases x with
    | nan => cases y <;> rfl
    | fin a =>
      cases y with
      | nan => rfl
      | pinf => simp [Ext.div, extVal, ieeeDiv]
      | ninf => simp [Ext.div, extVal, ieeeDiv]
      | fin b =>
        by_cases hb : b = 0
        · subst hb
          simp only [Ext.div, if_true, extVal, Option.bind_some, Ext.infMul, ieeeDiv]
          rcases lt_trichotomy a 0 with h | rfl | h
          · simp [h, h.ne, not_lt.2 h.le]
          · simp
          · simp [h, h.ne']
        · simp [Ext.div, hb, extVal, ieeeDiv, EReal.coe_div]
    | pinf =>
      cases y with
      | nan => rfl
      | pinf => simp [Ext.div, extVal, ieeeDiv]
      | ninf => simp [Ext.div, extVal, ieeeDiv]
      | fin b =>
        rcases lt_trichotomy b 0 with h | rfl | h
        · simp [Ext.div, h, h.ne, extVal, ieeeDiv, EReal.top_div_of_neg_ne_bot (EReal.coe_neg'.2 h)]
        · simp [Ext.div, extVal, ieeeDiv]
        · simp [Ext.div, not_lt.2 h.le, h.ne', extVal, ieeeDiv, EReal.top_div_of_pos_ne_top (EReal.coe_pos.2 h)]
    | ninf =>
      cases y with
      | nan => rfl
      | pinf => simp [Ext.div, extVal, ieeeDiv]
      | ninf => simp [Ext.div, extVal, ieeeDiv]
      | fin b =>
        rcases lt_trichotomy b 0 with h | rfl | h
        · simp [Ext.div, h, h.ne, extVal, ieeeDiv, EReal.bot_div_of_neg_ne_bot (EReal.coe_neg'.2 h)]
        · simp [Ext.div, extVal, ieeeDiv]
        · simp [Ext.div, not_lt.2 h.le, h.ne', extVal, ieeeDiv, EReal.bot_div_of_pos_ne_top (EReal.coe_pos.2 h)]
  · show extVal (Ext.maximum x y) = _
    cases x <;> cases y <;> simp [Ext.maximum, extVal, hmax]
  · show extVal (Ext.minimum x y) = _
    cases x <;> cases y <;> simp [Ext.minimum, extVal, hmin]
  · show extVal (Ext.abs x) = _
    cases x <;> simp [Ext.abs, extVal, abs, hmax]

/-- **C111**, square roots: NaN for negative numbers, `+inf` for `+inf`, otherwise the nonnegative number whose square is `x`. -/
theorem C111_sqrt (x : Ext) : (Scal.sqrt x = .nan ↔ x = .nan ∨ Scal.lt x (fin 0) = true) ∧
    ∀ y, Scal.sqrt x = y → y ≠ .nan → y * y = x ∧ Scal.le (fin 0) y = true := by
  show (Ext.sqrt x = .nan ↔ x = .nan ∨ Ext.lt x (fin 0) = true) ∧ ∀ y, Ext.sqrt x = y → y ≠ .nan → Ext.mul y y = x ∧ Ext.le (fin 0) y = true
  cases x with
  | fin a =>
    by_cases h : a < 0
    · simp [Ext.sqrt, h, Ext.lt]
    · simp [Ext.sqrt, h, Ext.lt, Ext.mul, Ext.le, Real.mul_self_sqrt (not_lt.1 h), Real.sqrt_nonneg]
  | pinf => simp [Ext.sqrt, Ext.lt, Ext.mul, Ext.le]
  | ninf => simp [Ext.sqrt, Ext.lt]
  | nan => simp [Ext.sqrt]

/-- Concrete cases: `-2 / 0` is `-inf`, `inf * 0` and `inf - inf` are NaN, and `inf < inf` is false. -/
example : fin (-2) / fin 0 = Ext.ninf ∧ Ext.pinf * fin 0 = Ext.nan ∧ Ext.pinf - Ext.pinf = Ext.nan ∧ Scal.lt Ext.pinf Ext.pinf = false := by
  refine ⟨C111_scalars.1 ?_, C111_scalars.1 ?_, C111_scalars.1 ?_, ?_⟩
  · rw [(C111_arithmetic _ _).2.2.2.1]
    simp [extVal, ieeeDiv, ← EReal.coe_zero, -EReal.coe_neg]
  · rw [(C111_arithmetic _ _).2.2.1]
    simp [extVal, ieeeMul]
  · rw [(C111_arithmetic _ _).2.1]
    simp [extVal, ieeeAdd]
  · rw [← Bool.not_eq_true, (C111_comparisons _ _).1]
    simp [extVal]

end Jaxfg.Props
