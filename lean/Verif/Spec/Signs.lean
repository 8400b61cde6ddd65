/- The two unit quaternions of a rotation. -/
import Verif.Spec.Symmetry

namespace Jaxfg.Spec
open Ext (fin)

namespace LieType

/-- The other parameter vector of the same pose: a unit quaternion and its negative describe the same rotation of space. Poses in the
plane have one parameter vector. -/
def other : LieType → List ℝ → List ℝ
  | so3, x => x.map (-·)
  | se3, x => (x.take 4).map (-·) ++ x.drop 4
  | _, x => x

/-- One of the two parameter vectors of a pose. -/
def signed (k : LieType) (e : Bool) (x : List ℝ) : List ℝ := if e then k.other x else x

/-- A pose of space whose rotation is by half a turn: the scalar part of its quaternion vanishes (`C118_half_turn`). -/
def HalfTurn (k : LieType) (x : List ℝ) : Prop := (k = so3 ∨ k = se3) ∧ x.getD 0 0 = 0

end LieType

/-- The group of the poses that a factor is about. -/
def factorType (K : Ty → LieType) (f : Factor) : LieType := K (f.vars.headD ⟨0, 0⟩).ty

/-- The factor with the other parameter vector of its measured pose, if `e` says so. -/
def resigned (K : Ty → LieType) (e : Factor → Bool) (f : Factor) : Factor :=
  { f with params := f.params.map fun p => ⟨p.shape, (factorType K f).signed (e f) p.data⟩ }

/-- The motion from the pose, or relative pose, of the variables of a factor to the measured one. -/
noncomputable def poseMisfit (K : Ty → LieType) (f : Factor) (pose : Var → List ℝ) : List ℝ :=
  let G := (factorType K f).ops
  let M := (f.params.getD 0 ⟨[], []⟩).data
  match f.vars with
  | [v] => G.multiply (G.inverse (pose v)) M
  | [a, b] => G.multiply (G.inverse (G.multiply (G.inverse (pose a)) (pose b))) M
  | _ => []

/-- No measurement of the factors is off by exactly half a turn. -/
def NoHalfTurn (C : Ty → VarClass ℝ) (K : Ty → LieType) (fs : List Factor) (a : Assign ℝ) : Prop :=
  ∀ f ∈ fs, ∀ pose : Var → List ℝ, (∀ v ∈ f.vars, a.getValue C v = .ok (poseValue K pose v)) →
    ¬ (factorType K f).HalfTurn (poseMisfit K f pose)

/-- The settings switch off the gradient test (jaxfg/solvers/_mixins.py:75-89). -/
def NoGradientTest (t : Criteria ℝ) : Prop := 1 ≤ t.gradientToleranceStartStep ∧ t.maxIterations ≤ t.gradientToleranceStartStep

/-- `o` holds poses and `o'` the same poses, with the parameter vectors that `s` chooses. -/
def SamePoses (C : Ty → VarClass ℝ) (K : Ty → LieType) (s : Var → Bool) (vars : List Var) (o o' : Assign ℝ) : Prop :=
  ∀ v ∈ vars, ∃ x, (K v.ty).Valid x ∧ o.getValue C v = .ok ((K v.ty).ops.value x) ∧
    o'.getValue C v = .ok ((K v.ty).ops.value ((K v.ty).signed (s v) x))

end Jaxfg.Spec
