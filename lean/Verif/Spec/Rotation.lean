/- Graphs of rotations of the plane, in angles. -/
import Verif.Spec.Lie
import Verif.Spec.Accuracy

namespace Jaxfg.Spec

/-- The rotation by the angle `t`, as a value of an `SO2Variable`. -/
noncomputable def turnBy (t : ℝ) : Value ℝ := LieGroup.so2.value [Real.cos t, Real.sin t]

/-- The noise model multiplies residuals with one entry by `w`. -/
def Weighs (w : ℝ) : Noise → Prop
  | .gaussian W => W = ⟨[1, 1], [w]⟩
  | .diagonal d => d = ⟨[1], [w]⟩
  | .huber _ _ => False

/-- `f` is a `PriorFactor` or a `BetweenFactor`, made by the library, that has measured a rotation by the angle `m`, with weight `w`.
Angles count whole turns: a measured rotation has many angles. -/
inductive MeasuresAngle (F : Nat → FactorClass) (m w : ℝ) : Factor → Prop
  | prior (cls : Nat) (v : Var) (noise : Noise) (hF : F cls = priorFactorClass .so2) (hw : Weighs w noise) :
      MeasuresAngle F m w (PriorFactor.make cls v (turnBy m) noise)
  | between (cls : Nat) (a b : Var) (noise : Noise) (f : Factor) (hF : F cls = betweenFactorClass .so2) (hw : Weighs w noise)
      (hf : BetweenFactor.make cls (fun _ => LieGroup.so2.treedef) a b (turnBy m) noise = .ok f) : MeasuresAngle F m w f

/-- By how much the measured angle `m` exceeds the angle that `f` measures, if the variables have the angles `θ`. -/
def misfit (m : ℝ) (θ : Var → ℝ) (f : Factor) : ℝ :=
  match f.vars with
  | [v] => m - θ v
  | [a, b] => m - (θ b - θ a)
  | _ => 0

/-- The sum of the squares of the weighted misfits. -/
def angleCost (fs : List Factor) (m w : Factor → ℝ) (θ : Var → ℝ) : ℝ := (fs.map fun f => (w f * misfit (m f) θ f) ^ 2).sum

/-- Sum of the squared differences of the angles. -/
def angleDist (vars : List Var) (θ θ' : Var → ℝ) : ℝ := (vars.map fun v => (θ v - θ' v) ^ 2).sum

/-- The measurements determine the angles: between any two choices of angles, the weighted misfits change by at least `σ` times as much
as the angles (both squared). -/
def DeterminesAngles (fs : List Factor) (w : Factor → ℝ) (vars : List Var) (σ : ℝ) : Prop :=
  ∀ θ θ' : Var → ℝ, σ * angleDist vars θ θ' ≤ (fs.map fun f => (w f * (misfit 0 θ f - misfit 0 θ' f)) ^ 2).sum

/-- Angles that cost no more than `θ` miss every measurement by less than half a turn. -/
def WithinHalfTurn (fs : List Factor) (m w : Factor → ℝ) (θ : Var → ℝ) : Prop :=
  ∀ θ', angleCost fs m w θ' ≤ angleCost fs m w θ → ∀ f ∈ fs, |misfit (m f) θ' f| < Real.pi

/-- What `k` steps from the angles `θ` to `θ'` have left: by how much the cost exceeds that of any other angles has shrunk by the `k`-th
power of `ρ`, and it bounds the distance from the angles with the least cost. -/
def Nears (fs : List Factor) (m w : Factor → ℝ) (vars : List Var) (σ ρ : ℝ) (k : Nat) (θ θ' : Var → ℝ) : Prop :=
  (∀ y, angleCost fs m w θ' - angleCost fs m w y ≤ ρ ^ k * (angleCost fs m w θ - angleCost fs m w y)) ∧
    ∀ y, (∀ z, angleCost fs m w y ≤ angleCost fs m w z) → σ * angleDist vars θ' y ≤ angleCost fs m w θ' - angleCost fs m w y

end Jaxfg.Spec
