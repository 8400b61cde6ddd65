/- What a factor graph is meant to compute, factor by factor. -/
import Verif.Model.Graph
import Verif.Spec.Assign
import Verif.Spec.Noise

namespace Jaxfg.Spec

/-- The keys of the elements, each once, in order of first appearance. -/
def firstKeys {β κ : Type _} [DecidableEq κ] (key : β → κ) : List β → List κ
  | [] => []
  | x :: xs => key x :: (firstKeys key xs).filter (· ≠ key x)

/-- The elements grouped by key: groups in order of first appearance, input order inside each group. -/
def groupedBy {β κ : Type _} [DecidableEq κ] (key : β → κ) (xs : List β) : List β :=
  (firstKeys key xs).flatMap fun k => xs.filter (key · = k)

/-- What two factors must share to be evaluated together: class and static fields, variable classes, structure of the noise
model, shapes of all array fields. -/
abbrev Kind := Nat × List Ty × NoiseDef × List (List Nat)

/-- See `Kind`. -/
def kind (f : Factor) : Kind :=
  (f.cls, f.vars.map (·.ty), f.noise.treedef, (f.noise.leaves ++ f.params).map (·.shape))

/-- The factors in evaluation order. -/
def evalOrder (fs : List Factor) : List Factor := groupedBy kind fs

/-- Residual size of a noise model: the last axis of its array. -/
def noiseDim : Noise → Nat
  | .gaussian W => W.shape.getLastD 0
  | .diagonal d => d.shape.getLastD 0
  | .huber w _ => noiseDim w

/-- Residual size of a factor. -/
def rdim (f : Factor) : Nat := noiseDim f.noise

/-- The type hint accepts a tuple of values of the given Python types. -/
def HintAccepts : Option Hint → List Nat → Prop
  | none, _ => False
  | some (.named cs), tys => List.Forall₂ (fun t c => c t = true) tys cs
  | some (.tuple cs), tys => List.Forall₂ (fun t c => c t = true) tys cs
  | some (.ellipsis c), tys => ∀ t ∈ tys, c t = true

/-- `vals` are values for the variables, in order. -/
def ValuesFor (C : Ty → VarClass ℝ) (vars : List Var) (vals : List (Value ℝ)) : Prop :=
  List.Forall₂ (fun v x => IsValueOf (C v.ty) x) vars vals

/-- A well-formed factor: it has a variable and a non-empty residual; the noise model is for residuals of that size; array
fields are well shaped; the type hint accepts the variables' values; residuals and Jacobians have the right sizes. -/
structure FactorWF (F : Nat → FactorClass) (C : Ty → VarClass ℝ) (f : Factor) : Prop where
  pos : 0 < rdim f
  vars : f.vars ≠ []
  noise : NoiseWF f.noise (rdim f) (rdim f)
  params : ∀ p ∈ f.params, p.data.length = p.shape.prod
  hint : HintAccepts (F f.cls).hint (f.vars.map fun v => (C v.ty).default.treedef)
  residual : ∀ vals, ValuesFor C f.vars vals → ((F f.cls).residual f.self vals).length = rdim f
  jacobians : ∀ vals, ValuesFor C f.vars vals →
    List.Forall₂ (fun v J => IsMat J (rdim f) (C v.ty).localDim) f.vars ((F f.cls).jacobians f.self vals)

/-- As `FactorWF`, but nothing is known about what the residual function and its Jacobian return. -/
structure FactorShape (F : Nat → FactorClass) (C : Ty → VarClass ℝ) (f : Factor) : Prop where
  pos : 0 < rdim f
  vars : f.vars ≠ []
  noise : NoiseWF f.noise (rdim f) (rdim f)
  params : ∀ p ∈ f.params, p.data.length = p.shape.prod
  hint : HintAccepts (F f.cls).hint (f.vars.map fun v => (C v.ty).default.treedef)

theorem FactorWF.factorShape {F : Nat → FactorClass} {C : Ty → VarClass ℝ} {f : Factor} (h : FactorWF F C f) : FactorShape F C f :=
  ⟨h.pos, h.vars, h.noise, h.params, h.hint⟩

/-- The assignments object `a` (global parameterization, variables `vars` in some order) holds exactly the variables of the
factors, and the value of each variable `v` is `val v`. -/
structure Holds (C : Ty → VarClass ℝ) (fs : List Factor) (vars : List Var) (val : Var → Value ℝ) (a : Assign ℝ) : Prop where
  assignment : IsAssignmentOf C vars a
  isGlobal : a.layout.localFlag = false
  sameVars : ∀ v, v ∈ vars ↔ ∃ f ∈ fs, v ∈ f.vars
  values : ∀ v ∈ vars, a.getValue C v = .ok (val v)

/-- The whitened residual of one factor when the variables have the values `val`. -/
noncomputable def whitenedAt (F : Nat → FactorClass) (val : Var → Value ℝ) (f : Factor) : Py (List ℝ) :=
  f.noise.whiten ((F f.cls).residual f.self (f.vars.map val))

end Jaxfg.Spec
