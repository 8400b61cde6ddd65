/- Poses that satisfy all edges of a g2o file. -/
import Verif.Spec.PoseGraphScript

namespace Jaxfg.Spec

/-- A chain of edges, in either direction, connects pose `i` with pose 0. -/
inductive TiedToFirst (g : PoseGraph) : Nat → Prop
  | first : TiedToFirst g 0
  | forward {e : FileEdge} (he : e ∈ g.edges) (h : TiedToFirst g e.a) : TiedToFirst g e.b
  | backward {e : FileEdge} (he : e ∈ g.edges) (h : TiedToFirst g e.b) : TiedToFirst g e.a

/-- The poses `x i` and the measured motions are rigid motions, pose 0 is where the file puts it, and each edge leads exactly from its
first pose to its second one. -/
structure FitsFile (g : PoseGraph) (x : Nat → List ℝ) : Prop where
  poses : ∀ (i : Nat) (k : LieType) y, g.poses[i]? = some (k, y) → k.Valid (x i)
  first : ∀ (k : LieType) y, g.poses[0]? = some (k, y) → k.Valid y ∧ k.motion (x 0) = k.motion y
  edges : ∀ e ∈ g.edges, e.k.Valid e.T ∧ e.k.motion (x e.b) = e.k.motion (x e.a) * e.k.motion e.T

/-- The two texts differ at most in the poses on vertex lines. -/
def SameButPoses (R : Reader) (lines lines' : List (List Char)) : Prop :=
  List.Forall₂ (fun l l' => l = l' ∨ ∃ (ps ps' : List (List Char)) (k : LieType) (i : Int) (x y : List ℝ), HasPieces ps l ∧
    HasPieces ps' l' ∧ Reads R k ps (.vertex i x) ∧ Reads R k ps' (.vertex i y)) lines lines'

end Jaxfg.Spec
