/- What any text says when it is read as a g2o file: records of both groups, any indices, unread rest of skipped lines. -/
import Verif.Spec.G2o

namespace Jaxfg.Spec
open Matrix

/-! ### Lines -/

/-- A piece of a line: not empty, without spaces. -/
def IsPiece (p : List Char) : Prop := p ≠ [] ∧ ' ' ∉ p

/-- Pieces separated by one or more spaces. -/
inductive Pieces : List (List Char) → List Char → Prop
  | one (p : List Char) (hp : IsPiece p) : Pieces [p] p
  | cons (p : List Char) (n : Nat) (ps : List (List Char)) (rest : List Char) (hp : IsPiece p) (h : Pieces ps rest) :
      Pieces (p :: ps) (p ++ List.replicate (n + 1) ' ' ++ rest)

/-- A line that consists of these pieces between whitespace. -/
def HasPieces (ps : List (List Char)) (l : List Char) : Prop :=
  ∃ w b w', (∀ c ∈ w, WhiteChar c) ∧ (∀ c ∈ w', WhiteChar c) ∧ (∀ c ∈ b.head?, ¬WhiteChar c) ∧
    (∀ c ∈ b.getLast?, ¬WhiteChar c) ∧ Pieces ps b ∧ l = w ++ b ++ w'

/-! ### Files -/

/-- An edge between the poses at positions `a` and `b`, with the measured motion and the information matrix. -/
structure FileEdge where
  k : LieType
  a : Nat
  b : Nat
  T : List ℝ
  P : Matrix (Fin k.ops.tangentDim) (Fin k.ops.tangentDim) ℝ

/-- The poses with their groups, and the edges. -/
structure PoseGraph where
  poses : List (LieType × List ℝ)
  edges : List FileEdge

/-- The index `i` means position `a` among `n` poses: negative indices count from the end. -/
def Refers (n : Nat) (i : Int) (a : Nat) : Prop := a < n ∧ (i = a ∨ i = (a : Int) - n)

/-- What one line adds to a graph. -/
inductive LineSays (R : Reader) (limit : Int) : PoseGraph → List (List Char) → PoseGraph → Prop
  /-- a pose with the next index; a planar pose is added if there are at most `limit` poses so far -/
  | pose {g : PoseGraph} {k : LieType} {ps : List (List Char)} {x : List ℝ} (h : Reads R k ps (.vertex g.poses.length x))
      (hl : k = .se2 → (g.poses.length : Int) ≤ limit) : LineSays R limit g ps { g with poses := g.poses ++ [(k, x)] }
  /-- a planar pose over the limit: the rest of the line is not looked at -/
  | skipPose {g : PoseGraph} {ps : List (List Char)} (hl : limit < g.poses.length) :
      LineSays R limit g ("VERTEX_SE2".toList :: ps) g
  /-- an edge between poses of its group -/
  | edge {g : PoseGraph} {k : LieType} {ps : List (List Char)} {i j : Int} {T : List ℝ}
      {P : Matrix (Fin k.ops.tangentDim) (Fin k.ops.tangentDim) ℝ} {a b : Nat} {x y : List ℝ}
      (h : Reads R k ps (.edge i j T P)) (hl : EdgeKept k limit i j) (hP : P.PosDef)
      (ha : Refers g.poses.length i a) (hb : Refers g.poses.length j b)
      (hx : g.poses[a]? = some (k, x)) (hy : g.poses[b]? = some (k, y)) :
      LineSays R limit g ps { g with edges := g.edges ++ [⟨k, a, b, T, P⟩] }
  /-- a planar edge with an index over the limit: the rest of the line is not looked at -/
  | skipEdge {g : PoseGraph} {m n : List Char} {ps : List (List Char)} {i j : Int} (hm : R.int m = .ok i) (hn : R.int n = .ok j)
      (hl : limit < i ∨ limit < j) : LineSays R limit g ("EDGE_SE2".toList :: m :: n :: ps) g

/-- What the lines add to a graph. -/
inductive LinesSay (R : Reader) (limit : Int) : PoseGraph → List (List Char) → PoseGraph → Prop
  | nil (g : PoseGraph) : LinesSay R limit g [] g
  | cons {g g' g'' : PoseGraph} {l : List Char} {ps : List (List Char)} {ls : List (List Char)} (hp : HasPieces ps l)
      (h : LineSays R limit g ps g') (hs : LinesSay R limit g' ls g'') : LinesSay R limit g (l :: ls) g''

/-- What a file says. -/
def FileSays (R : Reader) (limit : Int) (lines : List (List Char)) (g : PoseGraph) : Prop :=
  LinesSay R limit ⟨[], []⟩ lines g ∧ g.poses ≠ []

/-- The result for a pose graph: one new variable for each pose, with the pose as initial value; one factor for each edge, in
order; at the end a prior on pose 0 at its initial value. -/
def DescribesGraph (g : PoseGraph) (data : G2oData) : Prop :=
  ∃ vars : List Var, vars.Nodup ∧ vars.map (·.ty) = g.poses.map (·.1.fileTy) ∧
    data.initialPoses.items = vars.zip (g.poses.map fun p => p.1.ops.value p.2) ∧
    ∃ fs anchor v₀ k mu, data.factors = fs ++ [anchor] ∧
      List.Forall₂ (fun e f => ∃ a b, vars[e.a]? = some a ∧ vars[e.b]? = some b ∧ IsEdgeFactor e.k a b e.T e.P f) g.edges fs ∧
      vars.head? = some v₀ ∧ g.poses.head? = some (k, mu) ∧ IsAnchor k v₀ mu anchor

end Jaxfg.Spec
