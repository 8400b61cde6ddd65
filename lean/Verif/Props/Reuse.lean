/- C89: CHOLMOD analyses that several graphs may share, and the test of variable and factor orders. -/
import Verif.Lemmas.Reuse
import Verif.Model.OrderingTest
import Verif.Props.Compiled
import Verif.Props.OrderIndependence
import Verif.Props.Progress
import Verif.Props.SolverSpecial

namespace Jaxfg.Props
open Spec
open Ext (fin)

section
variable {F : Nat → FactorClass} {C : Ty → VarClass ℝ}

/-- **C89, the normal matrix.** The pattern of the normal matrix of a graph: there is an entry exactly where the row lies in the block of
a variable and the column in the block of a variable that some factor connects to it. -/
theorem C89_normal_pattern {fs : List Factor} (hne : fs ≠ []) (hfs : ∀ f ∈ fs, FactorWF F C f) :
    ∃ g, Graph.make C fs = .ok g ∧ ∀ i j,
      (∃ k, (i, k) ∈ (graphPattern g).2 ∧ (j, k) ∈ (graphPattern g).2) ↔
        ∃ u v pu pv, Connected fs u v ∧ g.localLayout.indexFromVar.get? u = some pu ∧ g.localLayout.indexFromVar.get? v = some pv ∧
          (pu ≤ i ∧ i < pu + (C u.ty).localDim) ∧ (pv ≤ j ∧ j < pv + (C v.ty).localDim) := by
  obtain ⟨g, hg, hG⟩ := graph_ok (F := F) hfs hne
  refine ⟨g, hg, fun i j => ?_⟩
  rw [normalPattern_iff hfs hG]
  have hidx : ∀ f ∈ fs, ∀ v ∈ f.vars, g.localLayout.indexFromVar.get? v = some (posIn g.localLayout v) := by
    intro f hf v hv
    rw [hG.localLayout]
    exact posIn_spec (variablesOf_spec fs).1 (mem_variablesOf hf hv)
  constructor
  · rintro ⟨u, v, h, h1, h2⟩
    obtain ⟨f, hf, hu, hv⟩ := h
    exact ⟨u, v, _, _, ⟨f, hf, hu, hv⟩, hidx f hf u hu, hidx f hf v hv, h1, h2⟩
  · rintro ⟨u, v, pu, pv, h, e1, e2, h1, h2⟩
    refine ⟨u, v, h, ?_, ?_⟩
    · rw [posIn, e1]; exact h1
    · rw [posIn, e2]; exact h2

theorem sameNormal_of {fs fs' : List Factor} {g g' : Graph} (hfs : ∀ f ∈ fs, FactorWF F C f) (hfs' : ∀ f ∈ fs', FactorWF F C f)
    (hG : GraphOf F C fs g) (hG' : GraphOf F C fs' g')
    (hp : SamePlaces C (Graph.variablesOf fs) (Graph.variablesOf fs') true) (hc : ∀ u v, Connected fs u v ↔ Connected fs' u v) :
    SameNormal (graphPattern g) (graphPattern g') := by
  have hn := (variablesOf_spec fs).1
  have hn' := (variablesOf_spec fs').1
  have hpos : ∀ v, posIn g.localLayout v = posIn g'.localLayout v := by
    intro v
    rw [posIn, posIn, hG.localLayout, hG'.localLayout, hp v]
  refine ⟨?_, fun i j => ?_⟩
  · have := ((layoutEq_iff C hn hn').1 ((layoutEq_iff_places C hn hn').2 hp)).2.1
    simp only [graphPattern, hG.localLayout, hG'.localLayout, this]
  · rw [normalPattern_iff hfs hG, normalPattern_iff hfs' hG']
    simp only [hpos, hc]

/-- **C89, when normal matrices look alike.** Two graphs that share a compiled function have the same pattern of the normal matrix
if they connect the same pairs of variables, and only then if all variables have a positive local dimension. -/
theorem C89_same_connections {fs fs' : List Factor} {vars vars' : List Var} {c c' : SolveCall} (h : IsCall F C fs vars c)
    (h' : IsCall F C fs' vars' c') (ht : c.sameTrace c' = true) :
    ((∀ u v, Connected fs u v ↔ Connected fs' u v) → SameNormal (graphPattern c.graph) (graphPattern c'.graph)) ∧
    ((∀ f ∈ fs, ∀ v ∈ f.vars, 0 < (C v.ty).localDim) → SameNormal (graphPattern c.graph) (graphPattern c'.graph) →
      ∀ u v, Connected fs u v ↔ Connected fs' u v) := by
  have hG := graphOf_make h.wf h.ne h.graph
  have hG' := graphOf_make h'.wf h'.ne h'.graph
  obtain ⟨-, -, -, hp, -⟩ := (call_sameTrace h h').1 ht
  refine ⟨sameNormal_of h.wf h'.wf hG hG' hp, ?_⟩
  rintro hpos ⟨-, hN⟩ u v
  have hn := (variablesOf_spec fs).1
  have hn' := (variablesOf_spec fs').1
  have hmem := samePlaces_mem C hn hn' hp
  have hpos' : ∀ w ∈ Graph.variablesOf fs, 0 < (C w.ty).localDim := by
    intro w hw
    obtain ⟨f, hf, hwf⟩ := ((variablesOf_spec fs).2 w).1 hw
    exact hpos f hf w hwf
  have hpi : ∀ w, posIn c.graph.localLayout w = posIn c'.graph.localLayout w := by
    intro w
    rw [posIn, posIn, hG.localLayout, hG'.localLayout, hp w]
  have huniq : ∀ {w w' : Var}, w ∈ Graph.variablesOf fs → w' ∈ Graph.variablesOf fs →
      posIn c.graph.localLayout w' ≤ posIn c.graph.localLayout w →
      posIn c.graph.localLayout w < posIn c.graph.localLayout w' + (C w'.ty).localDim → w' = w := by
    intro w w' hw hw' h1 h2
    rw [hG.localLayout] at h1 h2
    exact posIn_unique hn (loc := true) hw' hw h1 h2 le_rfl (by have := hpos' w hw; simp only [dimOf, if_true]; omega)
  have hkey : ∀ i j, (∃ u v, Connected fs u v ∧ (posIn c.graph.localLayout u ≤ i ∧ i < posIn c.graph.localLayout u + (C u.ty).localDim) ∧
        (posIn c.graph.localLayout v ≤ j ∧ j < posIn c.graph.localLayout v + (C v.ty).localDim)) ↔
      ∃ u v, Connected fs' u v ∧ (posIn c.graph.localLayout u ≤ i ∧ i < posIn c.graph.localLayout u + (C u.ty).localDim) ∧
        (posIn c.graph.localLayout v ≤ j ∧ j < posIn c.graph.localLayout v + (C v.ty).localDim) := by
    intro i j
    have := hN i j
    rw [normalPattern_iff h.wf hG, normalPattern_iff h'.wf hG'] at this
    simpa only [hpi] using this
  have hin : ∀ {w w'}, Connected fs w w' → w ∈ Graph.variablesOf fs ∧ w' ∈ Graph.variablesOf fs := by
    rintro w w' ⟨f, hf, h1, h2⟩
    exact ⟨mem_variablesOf hf h1, mem_variablesOf hf h2⟩
  have hin' : ∀ {w w'}, Connected fs' w w' → w ∈ Graph.variablesOf fs ∧ w' ∈ Graph.variablesOf fs := by
    rintro w w' ⟨f, hf, h1, h2⟩
    exact ⟨(hmem w).2 (mem_variablesOf hf h1), (hmem w').2 (mem_variablesOf hf h2)⟩
  constructor
  · intro hc
    obtain ⟨mu, mv⟩ := hin hc
    obtain ⟨u', v', hc', ⟨a1, a2⟩, b1, b2⟩ := (hkey (posIn c.graph.localLayout u) (posIn c.graph.localLayout v)).1
      ⟨u, v, hc, ⟨le_rfl, by have := hpos' u mu; omega⟩, le_rfl, by have := hpos' v mv; omega⟩
    obtain ⟨mu', mv'⟩ := hin' hc'
    rw [huniq mu mu' a1 a2, huniq mv mv' b1 b2] at hc'
    exact hc'
  · intro hc
    obtain ⟨mu, mv⟩ := hin' hc
    obtain ⟨u', v', hc', ⟨a1, a2⟩, b1, b2⟩ := (hkey (posIn c.graph.localLayout u) (posIn c.graph.localLayout v)).2
      ⟨u, v, hc, ⟨le_rfl, by have := hpos' u mu; omega⟩, le_rfl, by have := hpos' v mv; omega⟩
    obtain ⟨mu', mv'⟩ := hin hc'
    rw [huniq mu mu' a1 a2, huniq mv mv' b1 b2] at hc'
    exact hc'

/-- **C89.** If CHOLMOD can use an analysis for every matrix with the same pattern of the normal matrix, and all earlier calls of the
process that share the compiled function connect the same pairs of variables, then the call is answered as in a new process. -/
theorem C89_fresh (stale : Pattern → ScipyCoo ℝ → ℝ → List ℝ → Py (List ℝ)) (hst : ReusesAnalyses stale) (calls : List SolveCall)
    {fs : List Factor} {vars : List Var} {c : SolveCall} (hc : IsCall F C fs vars c)
    (hsame : ∀ d ∈ calls, ∃ fs' vars', IsCall F C fs' vars' d ∧ (d.sameTrace c = true → ∀ u v, Connected fs' u v ↔ Connected fs u v)) :
    let L := ((Process.after stale calls).solve stale c).1
    let L₀ : LinSolver ℝ := fun A b l _ => (cholmodSolve stale .empty 0 A b l).1
    let gE := (c.graph.ops F C).lift
    (∀ A, OnGraph c.graph A → ∀ b l i, L A b l i = L₀ A b l i) ∧
      ∀ CE : Ty → VarClass Ext,
        (∀ s : GaussNewton Ext, ({ s with linear := LinSolver.lift L } : GaussNewton Ext).solve CE gE =
          ({ s with linear := LinSolver.lift L₀ } : GaussNewton Ext).solve CE gE) ∧
        (∀ s : LevenbergMarquardt Ext, ({ s with linear := LinSolver.lift L } : LevenbergMarquardt Ext).solve CE gE =
          ({ s with linear := LinSolver.lift L₀ } : LevenbergMarquardt Ext).solve CE gE) ∧
        (∀ s : Dogleg Ext, ({ s with linear := LinSolver.lift L } : Dogleg Ext).solve CE gE =
          ({ s with linear := LinSolver.lift L₀ } : Dogleg Ext).solve CE gE) ∧
        (∀ s : FixedIteration Ext, ({ s with linear := LinSolver.lift L } : FixedIteration Ext).solve CE gE =
          ({ s with linear := LinSolver.lift L₀ } : FixedIteration Ext).solve CE gE) := by
  intro L L₀ gE
  have hnorm : SameNormal (graphPattern ((calls.find? (·.sameTrace c)).getD c).graph) (graphPattern c.graph) := by
    cases hf : calls.find? (·.sameTrace c) with
    | none => exact ⟨rfl, fun i j => Iff.rfl⟩
    | some e =>
      have hm := List.mem_of_find?_eq_some hf
      have het : e.sameTrace c = true := by simpa using List.find?_some hf
      obtain ⟨fe, ve, hce, hcon⟩ := hsame e hm
      exact (C89_same_connections hce hc het).1 (hcon het)
  have han := analysis_after (F := F) (C := C) (stale := stale) calls
    (fun d hd => by obtain ⟨fd, vd, h1, -⟩ := hsame d hd; exact ⟨fd, vd, h1⟩) c ⟨fs, vars, hc⟩
  have key : ∀ A, OnGraph c.graph A → ∀ b l i, L A b l i = L₀ A b l i := by
    intro A hA b l i
    simp only [L, L₀, Process.solve]
    obtain ⟨q, hq⟩ : ∃ q, q = (Process.after stale calls).compile c := ⟨_, rfl⟩
    rw [← hq]
    rw [← hq] at han
    unfold cholmodSolve
    cases hs : A.T.asScipy with
    | error e => rfl
    | ok S =>
      have hS := asScipy_eq hs
      have hp : S.pattern = c.graph.transposed.pattern := by rw [hS, hA.pattern, transposed_pattern]
      have key : (cholmodAnalysis q.2.cache q.1 S).1 = (cholmodAnalysis q.2.cache q.1 c.graph.transposed).1 := by
        unfold cholmodAnalysis
        cases q.2.cache.get? q.1 with
        | some _ => rfl
        | none => simp only [hp]
      have key0 : (cholmodAnalysis .empty 0 S).1 = S.pattern := rfl
      simp only [key, key0, han]
      obtain ⟨p, hpd⟩ : ∃ p, p = graphPattern ((calls.find? (·.sameTrace c)).getD c).graph := ⟨_, rfl⟩
      rw [← hpd] at hnorm ⊢
      have hn : SameNormal p S.pattern := by rw [hp, transposed_pattern]; exact hnorm
      by_cases he : p = S.pattern
      · rw [he]
      · conv_lhs => unfold cholmodFactorSolve
        rw [if_neg he]
        exact hst p S _ b hn
  exact ⟨key, fun CE => ⟨gn_congr (agreeOn_lift key), lm_congr (agreeOn_lift key), dogleg_congr (agreeOn_lift key),
    fixed_congr (agreeOn_lift key)⟩⟩

/-- A call for the factors `fs` in some order. -/
def IsReordering (F : Nat → FactorClass) (C : Ty → VarClass ℝ) (fs : List Factor) (d : SolveCall) : Prop :=
  ∃ fs' vars', fs.Perm fs' ∧ IsCall F C fs' vars' d

theorem connected_perm {fs fs' : List Factor} (h : fs.Perm fs') (u v : Var) : Connected fs u v ↔ Connected fs' u v := by
  unfold Connected
  simp only [h.mem_iff]

/-- **C89, reorderings.** In two processes that have only solved reorderings of one list of factors (in whatever orders, and with the
variables stored in whatever orders), solving two more reorderings from the same values gives the same values. -/
theorem C89_any_order (hC : GoodClasses C) (fs : List Factor) (hpos : ∀ f ∈ fs, ∀ v ∈ f.vars, 0 < (C v.ty).paramDim)
    (stale : Pattern → ScipyCoo ℝ → ℝ → List ℝ → Py (List ℝ)) (hst : ReusesAnalyses stale) (calls₁ calls₂ : List SolveCall)
    (h₁ : ∀ d ∈ calls₁, IsReordering F C fs d) (h₂ : ∀ d ∈ calls₂, IsReordering F C fs d)
    {fs₁ fs₂ : List Factor} {vars₁ vars₂ : List Var} {c₁ c₂ : SolveCall} (hp₁ : fs.Perm fs₁) (hp₂ : fs.Perm fs₂)
    (hc₁ : IsCall F C fs₁ vars₁ c₁) (hc₂ : IsCall F C fs₂ vars₂ c₂) (val : Var → Value ℝ) (a₁ a₂ : Assign ℝ)
    (ha : SameValues C fs vars₁ vars₂ val a₁ a₂) :
    let L₁ := ((Process.after stale calls₁).solve stale c₁).1
    let L₂ := ((Process.after stale calls₂).solve stale c₂).1
    let CE := fun t => (C t).lift
    let g₁ := (c₁.graph.ops F C).lift
    let g₂ := (c₂.graph.ops F C).lift
    let O := fun o o' => o.layout = a₁.layout ∧ o'.layout = a₂.layout ∧ ∃ val', SameValues C fs vars₁ vars₂ val' o o'
    (∀ s : GaussNewton ℝ, SolvesAlike (({ s with linear := L₁ } : GaussNewton ℝ).lift.solve CE g₁)
      (({ s with linear := L₂ } : GaussNewton ℝ).lift.solve CE g₂) a₁ a₂ O) ∧
    (∀ s : LevenbergMarquardt ℝ, s.lambdaFactor ≠ 0 → SolvesAlike (({ s with linear := L₁ } : LevenbergMarquardt ℝ).lift.solve CE g₁)
      (({ s with linear := L₂ } : LevenbergMarquardt ℝ).lift.solve CE g₂) a₁ a₂ O) ∧
    (∀ s : Dogleg ℝ, 0 < s.radiusInitial → SolvesAlike (({ s with linear := L₁ } : Dogleg ℝ).lift.solve CE g₁)
      (({ s with linear := L₂ } : Dogleg ℝ).lift.solve CE g₂) a₁ a₂ O) := by
  intro L₁ L₂ CE g₁ g₂ O
  have fresh : ∀ {calls : List SolveCall}, (∀ d ∈ calls, IsReordering F C fs d) → ∀ {fs' vars' c}, fs.Perm fs' → IsCall F C fs' vars' c → _ :=
    fun {calls} h {fs' vars' c} hp hc => C89_fresh stale hst calls hc fun d hd => by
      obtain ⟨fd, vd, hpd, hcd⟩ := h d hd
      exact ⟨fd, vd, hcd, fun _ u v => (connected_perm hpd u v).symm.trans (connected_perm hp u v)⟩
  obtain ⟨-, f₁⟩ := fresh h₁ hp₁ hc₁
  obtain ⟨-, f₂⟩ := fresh h₂ hp₂ hc₂
  obtain ⟨gn₁, lm₁, dl₁, -⟩ := f₁ CE
  obtain ⟨gn₂, lm₂, dl₂, -⟩ := f₂ CE
  have hp : fs₁.Perm fs₂ := hp₁.symm.trans hp₂
  have hpos₁ : ∀ f ∈ fs₁, ∀ v ∈ f.vars, 0 < (C v.ty).paramDim := fun f hf => hpos f (hp₁.mem_iff.2 hf)
  obtain ⟨g, g', e1, e2, H⟩ := C73_order_independent F C hC fs₁ fs₂ hp hc₁.ne hc₁.wf hpos₁
  rw [hc₁.graph] at e1
  rw [hc₂.graph] at e2
  cases e1; cases e2
  have conv : ∀ {vs : List Var} {w : Var → Value ℝ} {x : Assign ℝ}, Holds C fs vs w x ↔ Holds C fs₁ vs w x := by
    intro vs w x
    constructor
    · rintro ⟨q1, q2, q3, q4⟩; exact ⟨q1, q2, fun v => by rw [q3 v]; simp only [hp₁.mem_iff], q4⟩
    · rintro ⟨q1, q2, q3, q4⟩; exact ⟨q1, q2, fun v => by rw [q3 v]; simp only [hp₁.mem_iff], q4⟩
  obtain ⟨k1, k2, k3, -⟩ := H CE g₁ g₂ (lifts_lift _ _) (lifts_lift _ _) vars₁ vars₂ val a₁ a₂ ⟨conv.1 ha.left, conv.1 ha.right⟩
  have weaken : ∀ {S S' : Nat → Assign Ext → Py (Option (Assign Ext × List (Msg Ext)))}, SolvesAlike S S' a₁ a₂ (fun o o' =>
      o.layout = a₁.layout ∧ o'.layout = a₂.layout ∧ ∃ val', SameValues C fs₁ vars₁ vars₂ val' o o') → SolvesAlike S S' a₁ a₂ O := by
    intro S S' h fuel out log hs
    obtain ⟨o, o', q1, q2, q3, q4, w, q5⟩ := h fuel out log hs
    exact ⟨o, o', q1, q2, q3, q4, w, conv.2 q5.left, conv.2 q5.right⟩
  let L₀ : LinSolver ℝ := fun A b l _ => (cholmodSolve stale .empty 0 A b l).1
  refine ⟨fun s => weaken ?_, fun s hs => weaken ?_, fun s hs => weaken ?_⟩
  · have r1 : ({ s with linear := L₁ } : GaussNewton ℝ).lift.solve CE g₁ = ({ s with linear := L₀ } : GaussNewton ℝ).lift.solve CE g₁ :=
      gn₁ s.lift
    have r2 : ({ s with linear := L₂ } : GaussNewton ℝ).lift.solve CE g₂ = ({ s with linear := L₀ } : GaussNewton ℝ).lift.solve CE g₂ :=
      gn₂ s.lift
    rw [r1, r2]
    exact k1 _ { s with linear := L₀ } (liftsGN_lift _) (.inl (C73_cholmod stale 0))
  · have r1 : ({ s with linear := L₁ } : LevenbergMarquardt ℝ).lift.solve CE g₁ =
        ({ s with linear := L₀ } : LevenbergMarquardt ℝ).lift.solve CE g₁ := lm₁ s.lift
    have r2 : ({ s with linear := L₂ } : LevenbergMarquardt ℝ).lift.solve CE g₂ =
        ({ s with linear := L₀ } : LevenbergMarquardt ℝ).lift.solve CE g₂ := lm₂ s.lift
    rw [r1, r2]
    exact k2 _ { s with linear := L₀ } (liftsLM_lift _) (.inl (C73_cholmod stale 0)) hs
  · have r1 : ({ s with linear := L₁ } : Dogleg ℝ).lift.solve CE g₁ = ({ s with linear := L₀ } : Dogleg ℝ).lift.solve CE g₁ :=
      dl₁ s.lift
    have r2 : ({ s with linear := L₂ } : Dogleg ℝ).lift.solve CE g₂ = ({ s with linear := L₀ } : Dogleg ℝ).lift.solve CE g₂ :=
      dl₂ s.lift
    rw [r1, r2]
    exact k3 _ { s with linear := L₀ } (liftsDogleg_lift _) (.inl (C73_cholmod stale 0)) (cholmod_zeroAtZero stale 0) hs

end

/-! ### The test -/

theorem ordering_wellShaped (t : Ty) : WellShaped (orderingClasses t).default := by
  simp [WellShaped, orderingClasses, VarClass.euclidean]

theorem ordering_paramDim (t : Ty) : (orderingClasses t).paramDim = 1 := by
  simp [VarClass.paramDim, orderingClasses, VarClass.euclidean, Value.flatten]

theorem ordering_localDim (t : Ty) : (orderingClasses t).localDim = 1 := by
  simp [orderingClasses, VarClass.euclidean, Value.flatten]

theorem ordering_good : GoodClasses orderingClasses := by
  intro t
  refine ⟨ordering_wellShaped t, fun x d hx hd => ?_⟩
  have h1 := isValueOf_length (ordering_wellShaped t) hx
  apply isValueOf_unravel (c := orderingClasses t) (ordering_wellShaped t)
  rw [List.length_zipWith, hd, h1, ordering_localDim, ordering_paramDim, min_self]

theorem ordering_noise : NoiseWF (Noise.diagonalFromCovariance ⟨[1], [1]⟩) 1 1 := ⟨⟨rfl, by simp⟩, rfl⟩

theorem orderingPrior_wf (v : Var) (p : ℝ) : FactorWF orderingFactorClasses orderingClasses (orderingPrior v p) := by
  have hd : rdim (orderingPrior v p) = 1 := noiseDim_eq ordering_noise
  refine ⟨by rw [hd]; omega, by simp [orderingPrior], by rw [hd]; exact ordering_noise, by simp [orderingPrior], ?_, ?_, ?_⟩
  · exact .cons rfl .nil
  · intro vals hv
    rw [hd]
    simp [orderingFactorClasses, orderingPrior]
  · intro vals hv
    rw [hd]
    exact .cons (by rw [ordering_localDim]; exact ⟨rfl, rfl⟩) .nil

theorem orderingPair_wf (u v : Var) (p : ℝ) : FactorWF orderingFactorClasses orderingClasses (orderingPair u v p) := by
  have hd : rdim (orderingPair u v p) = 1 := noiseDim_eq ordering_noise
  refine ⟨by rw [hd]; omega, by simp [orderingPair], by rw [hd]; exact ordering_noise, by simp [orderingPair], ?_, ?_, ?_⟩
  · exact .cons rfl (.cons rfl .nil)
  · intro vals hv
    rw [hd]
    simp [orderingFactorClasses, orderingPair]
  · intro vals hv
    rw [hd]
    exact .cons (by rw [ordering_localDim]; exact ⟨rfl, rfl⟩) (.cons (by rw [ordering_localDim]; exact ⟨rfl, rfl⟩) .nil)

theorem orderingFactors_wf (n : Nat) (p₁ p₂ q₁ q₂ : ℝ) :
    ∀ f ∈ orderingFactors n p₁ p₂ q₁ q₂, FactorWF orderingFactorClasses orderingClasses f := by
  intro f hf
  simp only [orderingFactors, List.mem_cons, List.not_mem_nil, or_false] at hf
  rcases hf with rfl | rfl | rfl | rfl
  · exact orderingPrior_wf _ _
  · exact orderingPrior_wf _ _
  · exact orderingPair_wf _ _ _
  · exact orderingPair_wf _ _ _

theorem orderingVariables_mem (n : Nat) (p₁ p₂ q₁ q₂ : ℝ) (v : Var) :
    v ∈ orderingVariables n ↔ ∃ f ∈ orderingFactors n p₁ p₂ q₁ q₂, v ∈ f.vars := by
  simp only [orderingVariables, orderingFactors, orderingPrior, orderingPair, List.mem_cons, List.not_mem_nil, or_false,
    exists_eq_or_imp, exists_eq_left]
  tauto

/-- The solver of the test. -/
noncomputable def orderingSolver (L : LinSolver ℝ) : GaussNewton ℝ := { Criteria.defaults with verbose := false, linear := L }

/-- A round starts from the default values. -/
theorem ordering_start (n : Nat) (p₁ p₂ q₁ q₂ : ℝ) (solver : Nat) {fs : List Factor} {vars : List Var}
    (hf : (orderingFactors n p₁ p₂ q₁ q₂).Perm fs) (hv : (orderingVariables n).Perm vars) :
    ∃ g a, Graph.make orderingClasses fs = .ok g ∧ Assign.makeFromDefaults orderingClasses vars = .ok a ∧
      IsCall orderingFactorClasses orderingClasses fs vars ⟨solver, g, a.layout, a.storage.length⟩ ∧
      Holds orderingClasses (orderingFactors n p₁ p₂ q₁ q₂) vars (fun v => (orderingClasses v.ty).default) a := by
  have hwf : ∀ f ∈ fs, FactorWF orderingFactorClasses orderingClasses f := fun f h =>
    orderingFactors_wf n p₁ p₂ q₁ q₂ f (hf.mem_iff.2 h)
  have hne : fs ≠ [] := by
    rintro rfl
    simpa [orderingFactors] using hf.length_eq
  have hvn : vars ≠ [] := by
    rintro rfl
    simpa [orderingVariables] using hv.length_eq
  have hnd : vars.Nodup := hv.nodup (by simp [orderingVariables])
  obtain ⟨g, hg, -⟩ := C72_cholmod orderingFactorClasses orderingClasses ordering_good fs hne hwf (fun _ _ _ _ => .ok []) 0
  obtain ⟨⟨a', h1, h2, h3, -, -⟩, a, h4, h5, h6⟩ := C07_partial_and_defaults orderingClasses ordering_wellShaped vars hnd hvn .empty
    (fun v _ x hx => by simp [PyDict.empty, PyDict.get?] at hx)
  have : a' = a := by rw [h1] at h6; exact Except.ok.inj h6
  subst this
  refine ⟨g, a', hg, h4, ⟨hne, hwf, hg, hnd, ?_, h2.2.2⟩, h2, h3, fun v => ?_, h5⟩
  · have := h2.2.1
    rw [h3] at this
    exact this
  · rw [← orderingVariables_mem, hv.mem_iff]

/-- **C89, the test.** The loop of tests/test_variable_and_factor_ordering.py, with any measurements and with any rounds, gives the same
values in every round, if the library can use an analysis for matrices with the same pattern of `A Aᵀ`. -/
theorem C89_ordering_test (n : Nat) (p₁ p₂ q₁ q₂ : ℝ) (stale : Pattern → ScipyCoo ℝ → ℝ → List ℝ → Py (List ℝ))
    (hst : ReusesAnalyses stale) (solver fuel : Nat) (hfuel : 100 ≤ fuel) :
    ∃ val : Var → Value ℝ, ∀ rounds : List (List Factor × List Var),
      (∀ r ∈ rounds, (orderingFactors n p₁ p₂ q₁ q₂).Perm r.1 ∧ (orderingVariables n).Perm r.2) →
      ∃ results, orderingLoop stale solver fuel rounds .initial = .ok results ∧
        List.Forall₂ (fun r x => ∃ o : Assign ℝ, x = some (o.map fin) ∧
          Holds orderingClasses (orderingFactors n p₁ p₂ q₁ q₂) r.2 val o) rounds results := by
  set fs := orderingFactors n p₁ p₂ q₁ q₂ with hfs
  have hpos : ∀ f ∈ fs, ∀ v ∈ f.vars, 0 < (orderingClasses v.ty).paramDim := fun f _ v _ => by rw [ordering_paramDim]; omega
  -- a solve in a new process
  obtain ⟨g₀, a₀, hg₀, ha₀, hc₀, hh₀⟩ := ordering_start n p₁ p₂ q₁ q₂ solver (List.Perm.refl _) (List.Perm.refl _)
  set c₀ : SolveCall := ⟨solver, g₀, a₀.layout, a₀.storage.length⟩
  let CE := fun t => (orderingClasses t).lift
  have ret : ∃ o log, IsAssignmentOf orderingClasses (orderingVariables n) o ∧ o.layout = a₀.layout ∧
      (orderingSolver (((Process.after stale []).solve stale c₀).1)).lift.solve CE (g₀.ops orderingFactorClasses orderingClasses).lift fuel
        (a₀.map fin) = .ok (some (o.map fin, log)) := by
    obtain ⟨-, f⟩ := C89_fresh (F := orderingFactorClasses) (C := orderingClasses) stale hst [] hc₀ (fun d hd => by cases hd)
    obtain ⟨gn, -⟩ := f CE
    obtain ⟨g, h1, h2⟩ := C72_solve_returns orderingFactorClasses orderingClasses ordering_good fs hc₀.ne hc₀.wf hpos
    rw [hg₀] at h1
    cases h1
    obtain ⟨g, h1, h3⟩ := C72_cholmod orderingFactorClasses orderingClasses ordering_good fs hc₀.ne hc₀.wf stale 0
    rw [hg₀] at h1
    cases h1
    obtain ⟨k, -⟩ := h2 CE _ (lifts_lift _ _) _ a₀ hh₀.assignment hh₀.isGlobal hh₀.sameVars
    obtain ⟨o, log, r1, r2, r3⟩ := k _ (orderingSolver _) (liftsGN_lift _) h3
    refine ⟨o, log, r1, r2, ?_⟩
    rw [← r3 fuel (by simp only [orderingSolver, Criteria.defaults]; omega)]
    exact congrFun (congrFun (gn (orderingSolver _).lift) fuel) _
  obtain ⟨o₀, log₀, ho₁, ho₂, ho₃⟩ := ret
  -- the other rounds
  have key : ∃ val, ∀ rounds : List (List Factor × List Var), (∀ r ∈ rounds, fs.Perm r.1 ∧ (orderingVariables n).Perm r.2) →
      ∀ calls, (∀ d ∈ calls, IsReordering orderingFactorClasses orderingClasses fs d) →
      ∃ results, orderingLoop stale solver fuel rounds (Process.after stale calls) = .ok results ∧
        List.Forall₂ (fun r x => ∃ o : Assign ℝ, x = some (o.map fin) ∧ Holds orderingClasses fs r.2 val o) rounds results := by
    obtain ⟨val, hval⟩ : ∃ val : Var → Value ℝ, ∀ v ∈ orderingVariables n, o₀.getValue orderingClasses v = .ok (val v) := by
      obtain ⟨gn, -, -⟩ := C89_any_order ordering_good fs hpos stale hst [] [] (fun d hd => by cases hd) (fun d hd => by cases hd)
        (List.Perm.refl _) (List.Perm.refl _) hc₀ hc₀ _ a₀ a₀ ⟨hh₀, hh₀⟩
      obtain ⟨o, o', e1, -, -, -, val, hs⟩ := gn (orderingSolver (((Process.after stale []).solve stale c₀).1)) fuel _ _ ho₃
      obtain rfl : o₀ = o := assign_map_fin e1
      exact ⟨val, hs.left.values⟩
    refine ⟨val, fun rounds => ?_⟩
    induction rounds with
    | nil => exact fun _ calls _ => ⟨[], rfl, .nil⟩
    | cons r rounds ih =>
      intro hr calls hcalls
      obtain ⟨hr1, hr2⟩ := hr r (by simp)
      obtain ⟨g, a, hg, ha, hc, hh⟩ := ordering_start n p₁ p₂ q₁ q₂ solver hr1 hr2
      set c : SolveCall := ⟨solver, g, a.layout, a.storage.length⟩ with hcdef
      obtain ⟨gn, -, -⟩ := C89_any_order ordering_good fs hpos stale hst [] calls (fun d hd => by cases hd) hcalls (List.Perm.refl _) hr1
        hc₀ hc _ a₀ a ⟨hh₀, hh⟩
      obtain ⟨o, o', e1, e2, e3, e4, val', hs⟩ := gn (orderingSolver (((Process.after stale []).solve stale c₀).1)) fuel _ _ ho₃
      obtain rfl : o₀ = o := assign_map_fin e1
      have hround : orderingRound stale solver fuel r (Process.after stale calls) =
          .ok (some (o'.map fin), Process.after stale (calls ++ [c])) := by
        unfold orderingRound
        simp only [hg, ha, py_bind_ok]
        have e2' : GaussNewton.solve CE (g.ops orderingFactorClasses orderingClasses).lift
            { Criteria.defaults.map Ext.fin with
              verbose := false, linear := LinSolver.lift ((Process.after stale calls).solve stale c).1 } fuel (a.map fin) =
            .ok (some (o'.map fin, log₀)) := e2
        rw [e2', after_append]
        rfl
      obtain ⟨results, k1, k2⟩ := ih (fun r' h' => hr r' (by simp [h'])) (calls ++ [c]) (fun d hd => by
        rcases List.mem_append.1 hd with hd | hd
        · exact hcalls d hd
        · rw [List.mem_singleton.1 hd]
          exact ⟨r.1, r.2, hr1, hc⟩)
      refine ⟨some (o'.map fin) :: results, ?_, .cons ⟨o', rfl, ?_⟩ k2⟩
      · unfold orderingLoop
        rw [hround]
        simp only [py_bind_ok, k1]
        rfl
      · refine ⟨hs.right.assignment, hs.right.isGlobal, hs.right.sameVars, fun v hv => ?_⟩
        rw [hs.right.values v hv]
        have hv' : v ∈ orderingVariables n := hr2.mem_iff.2 hv
        have := hs.left.values v hv'
        rw [hval v hv'] at this
        exact this.symm
  obtain ⟨val, key⟩ := key
  exact ⟨val, fun rounds hr => key rounds hr [] (fun d hd => by cases hd)⟩

/-- The factors with the last two exchanged. -/
noncomputable def orderingFactors' (n : Nat) (p₁ p₂ q₁ q₂ : ℝ) : List Factor :=
  [orderingPrior ⟨0, n⟩ p₁, orderingPrior ⟨0, n + 1⟩ p₂, orderingPair ⟨0, n + 1⟩ ⟨1, n + 2⟩ q₂, orderingPair ⟨0, n⟩ ⟨1, n + 2⟩ q₁]

theorem ordering_groups (n : Nat) (p₁ p₂ q₁ q₂ : ℝ) :
    groups kind (orderingFactors n p₁ p₂ q₁ q₂) = [[orderingPrior ⟨0, n⟩ p₁, orderingPrior ⟨0, n + 1⟩ p₂],
      [orderingPair ⟨0, n⟩ ⟨1, n + 2⟩ q₁, orderingPair ⟨0, n + 1⟩ ⟨1, n + 2⟩ q₂]] ∧
    groups kind (orderingFactors' n p₁ p₂ q₁ q₂) = [[orderingPrior ⟨0, n⟩ p₁, orderingPrior ⟨0, n + 1⟩ p₂],
      [orderingPair ⟨0, n + 1⟩ ⟨1, n + 2⟩ q₂, orderingPair ⟨0, n⟩ ⟨1, n + 2⟩ q₁]] := by
  constructor <;>
    simp [groups, firstKeys, kind, orderingFactors, orderingFactors', orderingPrior, orderingPair, Noise.diagonalFromCovariance,
      Noise.treedef, Noise.leaves]

theorem ordering_vars (p₁ p₂ q₁ q₂ : ℝ) : Graph.variablesOf (orderingFactors 0 p₁ p₂ q₁ q₂) = orderingVariables 0 ∧
    Graph.variablesOf (orderingFactors' 0 p₁ p₂ q₁ q₂) = orderingVariables 0 := ⟨rfl, rfl⟩

theorem orderingFactors'_perm (n : Nat) (p₁ p₂ q₁ q₂ : ℝ) : (orderingFactors n p₁ p₂ q₁ q₂).Perm (orderingFactors' n p₁ p₂ q₁ q₂) :=
  .cons _ (.cons _ (.swap _ _ _))

theorem ordering_coords (p₁ p₂ q₁ q₂ : ℝ) {g g' : Graph} (hg : Graph.make orderingClasses (orderingFactors 0 p₁ p₂ q₁ q₂) = .ok g)
    (hg' : Graph.make orderingClasses (orderingFactors' 0 p₁ p₂ q₁ q₂) = .ok g') :
    g.jacobianCoords = [(0, 0), (1, 1), (2, 0), (3, 1), (2, 2), (3, 2)] ∧
    g'.jacobianCoords = [(0, 0), (1, 1), (2, 1), (3, 0), (2, 2), (3, 2)] := by
  have hwf' : ∀ f ∈ orderingFactors' 0 p₁ p₂ q₁ q₂, FactorWF orderingFactorClasses orderingClasses f := fun f hf =>
    orderingFactors_wf 0 p₁ p₂ q₁ q₂ f ((orderingFactors'_perm 0 p₁ p₂ q₁ q₂).mem_iff.2 hf)
  have h := graphOf_make (orderingFactors_wf 0 p₁ p₂ q₁ q₂) (by simp [orderingFactors]) hg
  have h' := graphOf_make hwf' (by simp [orderingFactors']) hg'
  obtain ⟨q, q'⟩ := ordering_groups 0 p₁ p₂ q₁ q₂
  obtain ⟨v, v'⟩ := ordering_vars p₁ p₂ q₁ q₂
  constructor
  · rw [h.coords, q, v]
    rfl
  · rw [h'.coords, q', v']
    rfl

/-- **C89, the test needs it.** Two rounds of the test use one analysis although the patterns of their Jacobians differ (the two
measurements between variables are exchanged). So the second is answered with an analysis of another pattern, and the test
rests on `ReusesAnalyses`. -/
theorem C89_test_shares (p₁ p₂ q₁ q₂ : ℝ) (solver : Nat) : ∃ c c' : SolveCall,
    IsCall orderingFactorClasses orderingClasses (orderingFactors 0 p₁ p₂ q₁ q₂) (orderingVariables 0) c ∧
    IsCall orderingFactorClasses orderingClasses (orderingFactors' 0 p₁ p₂ q₁ q₂) (orderingVariables 0) c' ∧
    (orderingFactors 0 p₁ p₂ q₁ q₂).Perm (orderingFactors' 0 p₁ p₂ q₁ q₂) ∧ c.solver = solver ∧ c'.solver = solver ∧
    c.sameTrace c' = true ∧ ∀ stale A, OnGraph c'.graph A → CooWF A → ∀ b l i,
      ((Process.after stale [c]).solve stale c').1 A b l i =
        stale (graphPattern c.graph) ⟨A.values, A.cols, A.rows, (A.shape.2, A.shape.1)⟩ (l + 1 / 100000) b := by
  obtain ⟨g, a, hg, ha, hc, -⟩ := ordering_start 0 p₁ p₂ q₁ q₂ solver (List.Perm.refl _) (List.Perm.refl _)
  obtain ⟨g', a', hg', ha', hc', -⟩ := ordering_start 0 p₁ p₂ q₁ q₂ solver (orderingFactors'_perm 0 p₁ p₂ q₁ q₂) (List.Perm.refl _)
  obtain ⟨k, k'⟩ := ordering_coords p₁ p₂ q₁ q₂ hg hg'
  set c : SolveCall := ⟨solver, g, a.layout, a.storage.length⟩
  set c' : SolveCall := ⟨solver, g', a'.layout, a'.storage.length⟩
  have htr : c.sameTrace c' = true := C88_ignores_connections hc hc' rfl rfl
    (by simp [orderingFactors, orderingFactors', kind, orderingPrior, orderingPair])
  refine ⟨c, c', hc, hc', orderingFactors'_perm 0 p₁ p₂ q₁ q₂, rfl, rfl, htr, fun stale A hA hwf b l i => ?_⟩
  have hpat : graphPattern c.graph ≠ graphPattern c'.graph := by
    intro h
    have h2 := congrArg (fun p : Pattern => p.2) h
    simp only [graphPattern] at h2
    change (g.jacobianCoords.map Prod.swap).toFinset = (g'.jacobianCoords.map Prod.swap).toFinset at h2
    rw [k, k'] at h2
    revert h2
    decide
  have := (C88_history stale [c] (by simpa using ⟨_, _, hc⟩) hc' hA hwf b l i).1
  rw [this]
  simp only [List.find?_cons, htr, Option.getD_some]
  unfold cholmodFactorSolve
  have hp : ScipyCoo.pattern (⟨A.values, A.cols, A.rows, (A.shape.2, A.shape.1)⟩ : ScipyCoo ℝ) = graphPattern c'.graph :=
    hA.pattern A.values
  rw [if_neg (by rw [hp]; exact hpat)]

open Classical in
/-- Non-vacuity of `C89_fresh`, `C89_any_order` and `C89_ordering_test`: a library that can use analyses with the same pattern of
`A Aᵀ`, and raises an exception for all others. -/
example : ReusesAnalyses (fun p S beta b =>
    if SameNormal p S.pattern then cholmodFactorSolve (fun _ _ _ _ => .error .value) S.pattern S beta b else .error .value) := by
  intro p S beta b h
  simp only [if_pos h]
  unfold cholmodFactorSolve
  simp only [if_pos]

/-- Non-vacuity of `C89_ordering_test`: the 48 rounds of the test. -/
example (n : Nat) : ∀ r ∈ (orderingFactors n 3 7 1 2).permutations.product [orderingVariables n, orderingVariables' n],
    (orderingFactors n 3 7 1 2).Perm r.1 ∧ (orderingVariables n).Perm r.2 := by
  intro r hr
  obtain ⟨h1, h2⟩ := List.mem_product.1 hr
  refine ⟨(List.mem_permutations.1 h1).symm, ?_⟩
  simp only [List.mem_cons, List.not_mem_nil, or_false] at h2
  rcases h2 with h | h
  · rw [h]
  · rw [h]
    exact .swap _ _ _

end Jaxfg.Props
