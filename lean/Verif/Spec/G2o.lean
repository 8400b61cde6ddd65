/- What a g2o file says. -/
import Verif.Model.G2o
import Verif.Spec.Lie
import Mathlib.LinearAlgebra.Matrix.PosDef

namespace Jaxfg.Spec
open Matrix

/-! ### Lines -/

/-- White characters: tab, line feed, vertical tab, form feed, carriage return, the four separators, space, next line,
no-break space, and the spaces and separators of other scripts. -/
def WhiteChar (c : Char) : Prop :=
  c ∈ ['\t', '\n', '\x0b', '\x0c', '\r', '\x1c', '\x1d', '\x1e', '\x1f', ' ', '\u0085', '\u00a0', '\u1680', '\u2000', '\u2001', '\u2002',
    '\u2003', '\u2004', '\u2005', '\u2006', '\u2007', '\u2008', '\u2009', '\u200a', '\u2028', '\u2029', '\u202f', '\u205f', '\u3000']

instance : DecidablePred WhiteChar := fun c => inferInstanceAs (Decidable (c ∈ _))

/-- A word: no whitespace in it. -/
def IsWord (p : List Char) : Prop := p ≠ [] ∧ ∀ c ∈ p, ¬WhiteChar c

/-- Words separated by one or more spaces. -/
inductive Spaced : List (List Char) → List Char → Prop
  | one (p : List Char) (hp : IsWord p) : Spaced [p] p
  | cons (p : List Char) (n : Nat) (ps : List (List Char)) (rest : List Char) (hp : IsWord p) (h : Spaced ps rest) :
      Spaced (p :: ps) (p ++ List.replicate (n + 1) ' ' ++ rest)

/-- A line with these words; whitespace around them is ignored. -/
def IsLine (ps : List (List Char)) (l : List Char) : Prop :=
  ∃ w b w', (∀ c ∈ w, WhiteChar c) ∧ (∀ c ∈ w', WhiteChar c) ∧ Spaced ps b ∧ l = w ++ b ++ w'

/-! ### Records -/

/-- The upper triangle of a matrix, row by row. -/
def upperTriangle {n : Nat} (P : Matrix (Fin n) (Fin n) ℝ) : List ℝ :=
  (List.finRange n).flatMap fun i => ((List.finRange n).filter (i ≤ ·)).map (P i)

/-- The group of the variables of class `t` in graphs read from files. -/
def fileGroup (t : Ty) : LieType := if t = se3Ty then .se3 else .se2

/-- The class of the pose variables of a group. -/
def LieType.fileTy : LieType → Ty
  | .se3 => se3Ty
  | _ => se2Ty

/-- A line of a file: a vertex with its index and pose, or an edge with its two indices, the measured motion and the information
matrix. -/
inductive Record (k : LieType) where
  | vertex (index : Int) (pose : List ℝ)
  | edge (i j : Int) (T : List ℝ) (P : Matrix (Fin k.ops.tangentDim) (Fin k.ops.tangentDim) ℝ)

/-- The words are these numbers. -/
def Numbers (R : Reader) (ws : List (List Char)) (xs : List ℝ) : Prop := List.Forall₂ (fun w x => R.float w = .ok x) ws xs

/-- The words of a line and what they say. Planar poses are given by translation and angle, poses in space by translation and
quaternion with the scalar part last, information matrices by their upper triangle. -/
inductive Reads (R : Reader) : (k : LieType) → List (List Char) → Record k → Prop
  | vertex2 {n xs i a b θ} (hn : R.int n = .ok i) (hx : Numbers R xs [a, b, θ]) :
      Reads R .se2 ("VERTEX_SE2".toList :: n :: xs) (.vertex i [Real.cos θ, Real.sin θ, a, b])
  | edge2 {m n xs us i j a b θ P} (hm : R.int m = .ok i) (hn : R.int n = .ok j) (hx : Numbers R xs [a, b, θ])
      (hu : Numbers R us (upperTriangle P)) (hP : P.IsSymm) :
      Reads R .se2 ("EDGE_SE2".toList :: m :: n :: (xs ++ us)) (.edge i j [Real.cos θ, Real.sin θ, a, b] P)
  | vertex3 {n xs i a b c qx qy qz qw} (hn : R.int n = .ok i) (hx : Numbers R xs [a, b, c, qx, qy, qz, qw]) :
      Reads R .se3 ("VERTEX_SE3:QUAT".toList :: n :: xs) (.vertex i [qw, qx, qy, qz, a, b, c])
  | edge3 {m n xs us i j a b c qx qy qz qw P} (hm : R.int m = .ok i) (hn : R.int n = .ok j)
      (hx : Numbers R xs [a, b, c, qx, qy, qz, qw]) (hu : Numbers R us (upperTriangle P)) (hP : P.IsSymm) :
      Reads R .se3 ("EDGE_SE3:QUAT".toList :: m :: n :: (xs ++ us)) (.edge i j [qw, qx, qy, qz, a, b, c] P)

/-- The lines of a file and the records that they contain. -/
def FileReads (R : Reader) (k : LieType) (lines : List (List Char)) (rs : List (Record k)) : Prop :=
  List.Forall₂ (fun l r => ∃ ps, IsLine ps l ∧ Reads R k ps r) lines rs

/-! ### Files -/

/-- The poses of the vertices, in order. -/
def vertices {k : LieType} (rs : List (Record k)) : List (List ℝ) :=
  rs.filterMap fun | .vertex _ x => some x | _ => none

/-- The vertices that the limit keeps: of planar poses, the first `limit + 1`; it has no effect on poses in space. -/
def keptPoses (k : LieType) (limit : Int) (rs : List (Record k)) : List (List ℝ) :=
  if k = .se2 then (vertices rs).take (limit + 1).toNat else vertices rs

/-- An edge that the limit keeps. -/
def EdgeKept (k : LieType) (limit : Int) (i j : Int) : Prop := k = .se2 → i ≤ limit ∧ j ≤ limit

open Classical in
/-- The edges that the limit keeps, in order. -/
noncomputable def keptEdges (k : LieType) (limit : Int) (rs : List (Record k)) :
    List (Int × Int × List ℝ × Matrix (Fin k.ops.tangentDim) (Fin k.ops.tangentDim) ℝ) :=
  rs.filterMap fun | .edge i j T P => if EdgeKept k limit i j then some (i, j, T, P) else none | _ => none

/-- What a record must satisfy after the records `before`: a vertex that is kept has the next index, an edge that is kept
connects earlier vertices and has a positive definite information matrix. -/
def RecordOK (k : LieType) (limit : Int) (before : List (Record k)) : Record k → Prop
  | .vertex n _ => (k = .se2 → ((vertices before).length : Int) ≤ limit) → n = (vertices before).length
  | .edge i j _ P => EdgeKept k limit i j → i < (vertices before).length ∧ j < (vertices before).length ∧ P.PosDef

/-- A well-formed file. -/
structure FileOK (k : LieType) (limit : Int) (rs : List (Record k)) : Prop where
  records : ∀ n (h : n < rs.length), RecordOK k limit (rs.take n) rs[n]
  nonempty : keptPoses k limit rs ≠ []

/-- All edge indices are natural numbers. -/
def NonnegIndices {k : LieType} (rs : List (Record k)) : Prop := ∀ i j T P, Record.edge i j T P ∈ rs → 0 ≤ i ∧ 0 ≤ j

/-- `f` is a between factor for the poses `a` and `b`, with the measured motion `T`, and weighs a residual `r` by `rᵀ P r`. Its noise
model has no Huber wrapper and is blind in no direction. -/
structure IsEdgeFactor (k : LieType) (a b : Var) (T : List ℝ) (P : Matrix (Fin k.ops.tangentDim) (Fin k.ops.tangentDim) ℝ)
    (f : Factor) : Prop where
  vars : f.vars = [a, b]
  cls : g2oFactors f.cls = betweenFactorClass k.ops
  params : f.params = (k.ops.value T).leaves
  noise : NoiseWF f.noise k.ops.tangentDim k.ops.tangentDim
  gaussian : NoiseGaussian f.noise
  regular : NoiseRegular f.noise k.ops.tangentDim
  weight : ∀ r : List ℝ, r.length = k.ops.tangentDim → ∃ w, f.noise.whiten r = .ok w ∧
    sqNorm w = vec r k.ops.tangentDim ⬝ᵥ (P *ᵥ vec r k.ops.tangentDim)

/-- `f` is a prior factor for the pose `a` at `mu`, and weighs a residual `r` by `100² |r|²`. Its noise model has no Huber wrapper and
is blind in no direction. -/
structure IsAnchor (k : LieType) (a : Var) (mu : List ℝ) (f : Factor) : Prop where
  vars : f.vars = [a]
  cls : g2oFactors f.cls = priorFactorClass k.ops
  params : f.params = (k.ops.value mu).leaves
  noise : NoiseWF f.noise k.ops.tangentDim k.ops.tangentDim
  gaussian : NoiseGaussian f.noise
  regular : NoiseRegular f.noise k.ops.tangentDim
  weight : ∀ r : List ℝ, r.length = k.ops.tangentDim → ∃ w, f.noise.whiten r = .ok w ∧ sqNorm w = 100 ^ 2 * sqNorm r

/-- The result for a file: one new variable for each kept vertex, with its pose as initial value; one factor for each kept
edge, in order, between the variables with the given indices; at the end a prior on pose 0 at its initial value. -/
def Describes (k : LieType) (limit : Int) (rs : List (Record k)) (data : G2oData) : Prop :=
  ∃ vars : List Var, vars.Nodup ∧ (∀ v ∈ vars, v.ty = k.fileTy) ∧ vars.length = (keptPoses k limit rs).length ∧
    data.initialPoses.items = vars.zip ((keptPoses k limit rs).map k.ops.value) ∧
    ∃ fs anchor v₀ mu, data.factors = fs ++ [anchor] ∧
      List.Forall₂ (fun e f => ∃ a b, vars[e.1.toNat]? = some a ∧ vars[e.2.1.toNat]? = some b ∧ IsEdgeFactor k a b e.2.2.1 e.2.2.2 f)
        (keptEdges k limit rs) fs ∧
      vars.head? = some v₀ ∧ (keptPoses k limit rs).head? = some mu ∧ IsAnchor k v₀ mu anchor

end Jaxfg.Spec
