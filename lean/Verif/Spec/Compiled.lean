/- Vocabulary for compiled solves. -/
import Verif.Model.Compiled
import Verif.Spec.Graph

namespace Jaxfg.Spec

/-- The kinds of factors in a list, in order of first occurrence, with the number of factors of each kind. -/
def kindCounts (fs : List Factor) : List (Kind × Nat) := (firstKeys kind fs).map fun k => (k, fs.countP (kind · = k))

/-- Both lists of variables give every variable the same place, or none. -/
def SamePlaces {α : Type} (C : Ty → VarClass α) (vars vars' : List Var) (loc : Bool) : Prop :=
  ∀ v, (Layout.make C vars loc).indexFromVar.get? v = (Layout.make C vars' loc).indexFromVar.get? v

/-- The sparsity pattern of the transposed Jacobian of a graph. -/
def graphPattern (g : Graph) : Pattern := ((g.localLayout.dim, g.residualDim), (g.jacobianCoords.map Prod.swap).toFinset)

/-- A call of `solve` for the factors `fs` with initial values for the variables `vars`. -/
structure IsCall (F : Nat → FactorClass) (C : Ty → VarClass ℝ) (fs : List Factor) (vars : List Var) (c : SolveCall) : Prop where
  ne : fs ≠ []
  wf : ∀ f ∈ fs, FactorWF F C f
  graph : Graph.make C fs = .ok c.graph
  nodup : vars.Nodup
  layout : c.layout = Layout.make C vars false
  len : c.storageLen = c.layout.dim

/-- A matrix with the coordinates of a graph. -/
structure OnGraph (g : Graph) (A : Coo ℝ) : Prop where
  rows : A.rows = g.jacobianCoords.map (·.1)
  cols : A.cols = g.jacobianCoords.map (·.2)
  shape : A.shape = (g.residualDim, g.localLayout.dim)

/-- The subproblems of a call, one after the other, by the solver object at `addr`: the answers, and the cache at the end. -/
noncomputable def runSubproblems (stale : Pattern → ScipyCoo ℝ → ℝ → List ℝ → Py (List ℝ)) (cache : CholmodCache) (addr : Nat) :
    List (Coo ℝ × List ℝ × ℝ) → List (Py (List ℝ)) × CholmodCache
  | [] => ([], cache)
  | s :: ss =>
    let r := cholmodSolve stale cache addr s.1 s.2.1 s.2.2
    let rest := runSubproblems stale r.2 addr ss
    (r.1 :: rest.1, rest.2)

/-- `A Aᵀ` has the same size and the same pattern for matrices `A` of both patterns (unless numbers happen to cancel). -/
def SameNormal (p q : Pattern) : Prop :=
  p.1.1 = q.1.1 ∧ ∀ i j, (∃ k, (i, k) ∈ p.2 ∧ (j, k) ∈ p.2) ↔ ∃ k, (i, k) ∈ q.2 ∧ (j, k) ∈ q.2

/-- A library that can use an analysis for every matrix with the same pattern of `A Aᵀ`. -/
def ReusesAnalyses (stale : Pattern → ScipyCoo ℝ → ℝ → List ℝ → Py (List ℝ)) : Prop :=
  ∀ p S beta b, SameNormal p S.pattern → stale p S beta b = cholmodFactorSolve stale S.pattern S beta b

/-- Some factor contains both variables. -/
def Connected (fs : List Factor) (u v : Var) : Prop := ∃ f ∈ fs, u ∈ f.vars ∧ v ∈ f.vars

end Jaxfg.Spec
