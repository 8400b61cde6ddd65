/- C116: where Gauss-Newton goes on linear problems with Huber wrappers. -/
import Verif.Lemmas.RobustStep
import Verif.Props.Accuracy
import Verif.Props.Huber

namespace Jaxfg.Props
open Spec
open Ext (fin)
open Matrix hiding vec

section
variable {F : Nat → FactorClass} {C : Ty → VarClass ℝ} {fs : List Factor}

theorem DeterminesInner.perm {vs ws : List Var} {σ : ℝ} (h : vs.Perm ws) (hD : DeterminesInner F C fs vs σ) :
    DeterminesInner F C fs ws σ := by
  intro val val' w w' hv hw
  rw [← sqDist_perm h]
  exact hD val val' w w' (fun v hv' => hv v (h.mem_iff.1 hv')) hw

/-- Values in an assignment with the layout of the graph. -/
theorem stored_at (hC : GoodClasses C) {g : Graph} (hG : GraphOf F C fs g) {m : Var → Value ℝ}
    (hm : ∀ v ∈ Graph.variablesOf fs, IsValueOf (C v.ty) (m v)) : ∃ e, Holds C fs (Graph.variablesOf fs) m e ∧ e.layout = g.layout := by
  have hs := variablesOf_spec fs
  exact ⟨_, (stores_exists (C := C) hs.1 hm (fun v hv => by
    obtain ⟨-, h2, h3⟩ := hm v hv
    rw [flatten_length h3, h2]
    exact (flatten_length (hC v.ty).1).symm)).holds hs.2, by rw [hG.layout]⟩

theorem sqDist_zero {vars : List Var} {x y : Var → Value ℝ} (hx : ∀ v ∈ vars, IsValueOf (C v.ty) (x v))
    (hy : ∀ v ∈ vars, IsValueOf (C v.ty) (y v)) (h : sqDist vars x y ≤ 0) : ∀ v ∈ vars, x v = y v := by
  intro v hv
  have hnn : ∀ z ∈ vars.map fun v => sqNorm (List.zipWith (· - ·) (x v).flatten (y v).flatten), 0 ≤ z := by
    intro z hz
    obtain ⟨u, -, rfl⟩ := List.mem_map.1 hz
    exact sqNorm_nonneg _
  have hzero : sqNorm (List.zipWith (· - ·) (x v).flatten (y v).flatten) = 0 := by
    refine le_antisymm ?_ (sqNorm_nonneg _)
    exact (List.single_le_sum hnn _ (List.mem_map.2 ⟨v, hv, rfl⟩)).trans h
  have hlen : (x v).flatten.length = (y v).flatten.length := by
    obtain ⟨-, h2, h3⟩ := hx v hv
    obtain ⟨-, h5, h6⟩ := hy v hv
    rw [flatten_length h3, flatten_length h6, h2, h5]
  have hfl : (x v).flatten = (y v).flatten := by
    rw [sqNorm_eq_zero] at hzero
    apply List.ext_getElem hlen
    intro i h1 h2
    have : (List.zipWith (· - ·) (x v).flatten (y v).flatten)[i]'(by simp [h1, h2]) = 0 := by
      rw [List.getElem_of_eq hzero]; simp
    rw [List.getElem_zipWith] at this
    linarith
  rw [← unravel_flatten (hx v hv), ← unravel_flatten (hy v hv), hfl]

/-- **C116, the optimum.** On a linear problem with Huber wrappers whose measurements determine the variables, the total of the losses
that grow with exponent 5/4 above the thresholds is least for one choice of values, and only one. -/
theorem C116_optimum (hC : GoodClasses C) (fs : List Factor) (hne : fs ≠ []) (hfs : ∀ f ∈ fs, FactorWF F C f)
    (hsimple : ∀ f ∈ fs, NoiseSimple f.noise) (haff : ∀ f ∈ fs, AffineFactor F C f) (vars : List Var) (hn : vars.Nodup)
    (hvars : ∀ v, v ∈ vars ↔ ∃ f ∈ fs, v ∈ f.vars) (hE : UsesDefaultRetraction C vars) (σ : ℝ) (hσ : 0 < σ)
    (hD : DeterminesInner F C fs vars σ) :
    ∃ y, LeastLoss F C fs vars y ∧ ∀ y', LeastLoss F C fs vars y' → ∀ v ∈ vars, y' v = y v := by
  obtain ⟨g, hg, hG⟩ := graph_ok (F := F) hfs hne
  have hs := variablesOf_spec fs
  have hv : ∀ v, v ∈ vars ↔ v ∈ Graph.variablesOf fs := fun v => by rw [hvars, hs.2]
  have hperm : vars.Perm (Graph.variablesOf fs) := (List.perm_ext_iff_of_nodup hn hs.1).2 hv
  have hE' : UsesDefaultRetraction C (Graph.variablesOf fs) := fun v hv' => hE v ((hv v).2 hv')
  have hD' := DeterminesInner.perm hperm hD
  obtain ⟨y, b, hy, hyl, hmin⟩ := robust_minimizer hC hfs hne hsimple haff hg hE' hσ hD'
  have hst := stores_of_holds hC hy
  have hleast : LeastLoss F C fs vars y := by
    refine ⟨fun v hv' => hst.2 v ((hv v).1 hv'), fun m hm => ?_⟩
    obtain ⟨e, he, hel⟩ := stored_at (F := F) hC hG fun v hv' => hm v ((hv v).2 hv')
    exact hmin _ _ he hel
  refine ⟨y, hleast, fun y' hy' => ?_⟩
  have heq : totalLoss F fs y' = totalLoss F fs y := le_antisymm (hy'.2 _ hleast.1) (hleast.2 _ hy'.1)
  obtain ⟨e, he, hel⟩ := stored_at (F := F) hC hG fun v hv' => hy'.1 v ((hv v).2 hv')
  obtain ⟨m, hm⟩ := smallFor_exists hfs (totalLoss_nonneg hC hfs hy)
  obtain ⟨z, u, hz, hzl, hle⟩ := robust_midpoint hC hfs hne hsimple haff hg hE' hD' he hel hy hyl hm heq.le le_rfl
  have h0 := hmin _ _ hz hzl
  refine sqDist_zero hy'.1 hleast.1 ?_
  rw [sqDist_perm hperm]
  have hp : 0 < m * σ / 2 := by have := hm.1; positivity
  by_contra hc
  push Not at hc
  have := mul_pos hp hc
  rw [heq] at hle
  linarith

section
variable (hC : GoodClasses C) (hfs : ∀ f ∈ fs, FactorWF F C f) (hne : fs ≠ []) (hsimple : ∀ f ∈ fs, NoiseSimple f.noise)
  (haff : ∀ f ∈ fs, AffineFactor F C f) {g : Graph} (hg : Graph.make C fs = .ok g)
  (hE : UsesDefaultRetraction C (Graph.variablesOf fs)) {σ : ℝ} (hσ : 0 < σ) (hD : DeterminesInner F C fs (Graph.variablesOf fs) σ)
include hC hfs hne hsimple haff hg hE hD

/-- The distance from the optimum, by the loss. -/
theorem robust_growth {x y : Var → Value ℝ} {a b : Assign ℝ} (ha : Holds C fs (Graph.variablesOf fs) x a) (hla : a.layout = g.layout)
    (hb : Holds C fs (Graph.variablesOf fs) y b) (hlb : b.layout = g.layout)
    (hmin : ∀ z e, Holds C fs (Graph.variablesOf fs) z e → e.layout = g.layout → totalLoss F fs y ≤ totalLoss F fs z) {L m : ℝ}
    (hm : SmallFor fs L m) (hx : totalLoss F fs x ≤ L) :
    m * σ / 2 * sqDist (Graph.variablesOf fs) x y ≤ totalLoss F fs x - totalLoss F fs y := by
  have hxy := hmin _ _ ha hla
  obtain ⟨z, u, hz, hzl, hle⟩ := robust_midpoint hC hfs hne hsimple haff hg hE hD ha hla hb hlb hm hx (hxy.trans hx)
  have := hmin _ _ hz hzl
  linarith

include hσ

/-- One step. -/
theorem robust_next {μ : ℝ → ℝ} (hμ : 0 ≤ μ 0) {L : LinSolver ℝ}
    (hL : AllJacobians C (g.ops F C) (Graph.variablesOf fs) (DampedUpTo μ L)) {p : State ℝ}
    (hp : GoodState C (g.ops F C) (Graph.variablesOf fs) p)
    (hcur : g.computeCost F C p.assignments = .ok (p.cost, p.residual)) {A : Coo ℝ}
    (hA : g.computeWhitenedResidualJacobian F C p.assignments p.residual = .ok A) {ATr : List ℝ}
    (hT : A.T.matmul p.residual = .ok ATr) {i : Nat} {d : List ℝ} (hd : L A (ATr.map fun x => -x) 0 i = .ok d) {b : Assign ℝ}
    (hb : p.assignments.manifoldRetract C ⟨d, g.localLayout⟩ = .ok b) {val : Var → Value ℝ}
    (h : Holds C fs (Graph.variablesOf fs) val p.assignments) :
    ∃ val', Holds C fs (Graph.variablesOf fs) val' b ∧ totalLoss F fs val' ≤ totalLoss F fs val ∧
      ∀ Λ m, SmallFor fs Λ m → totalLoss F fs val ≤ Λ → ∀ y e, Holds C fs (Graph.variablesOf fs) y e → e.layout = g.layout →
        totalLoss F fs val' - totalLoss F fs y ≤ (1 - m * σ / (σ + μ 0)) * (totalLoss F fs val - totalLoss F fs y) := by
  obtain ⟨g', hg', hS⟩ := sane_graph (F := F) hC hfs hne
  rw [hg] at hg'; cases hg'
  obtain ⟨g', hg', hG⟩ := graph_ok (F := F) hfs hne
  rw [hg] at hg'; cases hg'
  have hjac : (g.ops F C).jacobian p.assignments p.residual = .ok A := hA
  obtain ⟨hwf, hdim⟩ := hp.jac hS hjac
  have hT' : A.T.matmul (p.residual.map fun x => -x) = .ok (ATr.map fun x => -x) := matmul_neg (cooWF_T hwf) hT
  obtain ⟨hrl, hbl, hbv⟩ := descent_ok hwf hT'
  obtain ⟨hdl, D, hDp, hDμ, heq⟩ := hp.all hL hjac _ 0 i d hbl le_rfl hd
  obtain ⟨b', hb', -, hh⟩ := holds_retract hC hG h hp.layout (hdl.trans hdim)
  rw [hb] at hb'; cases hb'
  obtain ⟨k1, k2⟩ := robust_step hC hfs hne hsimple haff hg hE hσ hμ hD h hp.layout hcur hA hT' hdl hDp hDμ heq hb hh
  exact ⟨_, hh, k1, k2⟩

/-- Steps, however the loop ends. -/
theorem robust_runs {μ : ℝ → ℝ} (hμ : 0 ≤ μ 0) {L : LinSolver ℝ}
    (hL : AllJacobians C (g.ops F C) (Graph.variablesOf fs) (DampedUpTo μ L)) {done : State Ext → Bool}
    {step : State Ext → Py (State Ext × List (Msg Ext))}
    (hstep : ∀ (p : State ℝ) p' log, step (p.map fin) = .ok (p', log) → ∃ A ATr delta b c r dn, (g.ops F C).jacobian p.assignments p.residual = .ok A ∧
      A.T.matmul p.residual = .ok ATr ∧ L A (ATr.map fun x => -x) 0 p.iterations = .ok delta ∧
      p.assignments.manifoldRetract C ⟨delta, g.localLayout⟩ = .ok b ∧ g.computeCost F C b = .ok (c, r) ∧
      p' = State.map fin ⟨p.iterations + 1, b, c, r, dn⟩)
    {val : Var → Value ℝ} {a : Assign ℝ} (h : Holds C fs (Graph.variablesOf fs) val a) (hlay : a.layout = g.layout) {c : ℝ} {r : List ℝ}
    (hc : g.computeCost F C a = .ok (c, r)) {st : State Ext} {k : Nat} {log : List (Msg Ext)}
    (hr : Runs done step k (State.map fin ⟨0, a, c, r, false⟩) st log) :
    ∃ (q : State ℝ) (val' : Var → Value ℝ), st = q.map fin ∧ q.iterations = k ∧ q.assignments.layout = g.layout ∧
      Holds C fs (Graph.variablesOf fs) val' q.assignments ∧ totalLoss F fs val' ≤ totalLoss F fs val ∧
      ∀ m, SmallFor fs (totalLoss F fs val) m → ∀ y e, Holds C fs (Graph.variablesOf fs) y e → e.layout = g.layout →
        totalLoss F fs val' - totalLoss F fs y ≤ (1 - m * σ / (σ + μ 0)) ^ k * (totalLoss F fs val - totalLoss F fs y) := by
  suffices H : ∃ (q : State ℝ) (val' : Var → Value ℝ), st = q.map fin ∧ q.iterations = k ∧
      GoodState C (g.ops F C) (Graph.variablesOf fs) q ∧ g.computeCost F C q.assignments = .ok (q.cost, q.residual) ∧
      Holds C fs (Graph.variablesOf fs) val' q.assignments ∧ totalLoss F fs val' ≤ totalLoss F fs val ∧
      ∀ m, SmallFor fs (totalLoss F fs val) m → ∀ y e, Holds C fs (Graph.variablesOf fs) y e → e.layout = g.layout →
        totalLoss F fs val' - totalLoss F fs y ≤ (1 - m * σ / (σ + μ 0)) ^ k * (totalLoss F fs val - totalLoss F fs y) by
    obtain ⟨q, val', h1, h2, h3, -, h5⟩ := H
    exact ⟨q, val', h1, h2, h3.layout, h5⟩
  generalize hst : State.map fin ⟨0, a, c, r, false⟩ = s₀ at hr
  induction hr with
  | refl s =>
    exact ⟨_, val, hst.symm, rfl, GoodState.start h.assignment hlay hc _ _, hc, h, le_rfl, fun m _ y e _ _ => by simp⟩
  | step h1 h2 h3 ih =>
    obtain ⟨q, val₁, rfl, hq, hgood, hcur, hh, hle, hgap⟩ := ih hst
    obtain ⟨A, ATr, d, b, c, r, dn, hA, hT, hx, hb, hc', rfl⟩ := hstep _ _ _ h3
    obtain ⟨val₂, k1, k2, k3⟩ := robust_next hC hfs hne hsimple haff hg hE hσ hD hμ hL hgood hcur hA hT hx hb hh
    refine ⟨_, val₂, rfl, by rw [← hq], hgood.next hb hc' true rfl rfl rfl, hc', k1, k2.trans hle, fun m hm y e he hel => ?_⟩
    refine (k3 _ m hm hle y e he hel).trans ?_
    rw [pow_succ', mul_assoc]
    refine mul_le_mul_of_nonneg_left (hgap m hm y e he hel) ?_
    obtain ⟨m1, m2, -⟩ := hm
    have : m * σ / (σ + μ 0) ≤ m := by
      rw [div_le_iff₀ (by linarith)]
      nlinarith
    linarith

omit hσ in
/-- Values in the variables of the problem. -/
theorem robust_values {vars : List Var} (hperm : vars.Perm (Graph.variablesOf fs)) {μ : ℝ} {k : Nat} {val val' : Var → Value ℝ} {b : Assign ℝ}
    (hb : Holds C fs (Graph.variablesOf fs) val' b) (hl : b.layout = g.layout) (h1 : totalLoss F fs val' ≤ totalLoss F fs val)
    (h2 : ∀ m, SmallFor fs (totalLoss F fs val) m → ∀ y e, Holds C fs (Graph.variablesOf fs) y e → e.layout = g.layout →
      totalLoss F fs val' - totalLoss F fs y ≤ (1 - m * σ / (σ + μ)) ^ k * (totalLoss F fs val - totalLoss F fs y)) :
    Approaches F C fs vars σ μ k val val' := by
  obtain ⟨g', hg', hG⟩ := graph_ok (F := F) hfs hne
  rw [hg] at hg'; cases hg'
  refine ⟨h1, fun m y hm hy => ?_⟩
  obtain ⟨e, he, hel⟩ := stored_at (F := F) hC hG fun v hv' => hy.1 v (hperm.mem_iff.2 hv')
  refine ⟨h2 m hm y e he hel, ?_⟩
  rw [sqDist_perm hperm]
  refine robust_growth hC hfs hne hsimple haff hg hE hD hb hl he hel (fun z u hz hzl => hy.2 z fun v hv => ?_) hm h1
  exact (stores_of_holds hC hz).2 v (hperm.mem_iff.1 hv)
end

/-- **C116, stationary points.** Where the right-hand side of the normal equations is zero, the loss is least. -/
theorem C116_stationary (hC : GoodClasses C) (fs : List Factor) (hne : fs ≠ []) (hfs : ∀ f ∈ fs, FactorWF F C f)
    (hsimple : ∀ f ∈ fs, NoiseSimple f.noise) (haff : ∀ f ∈ fs, AffineFactor F C f) (vars : List Var)
    (hE : UsesDefaultRetraction C vars) (σ : ℝ) (hσ : 0 < σ) (hD : DeterminesInner F C fs vars σ) (g : Graph) (hg : Graph.make C fs = .ok g)
    (val : Var → Value ℝ) (a : Assign ℝ) (h : Holds C fs vars val a) (hlay : a.layout = g.layout) (c : ℝ) (r : List ℝ) (A : Coo ℝ)
    (y : List ℝ) (hc : g.computeCost F C a = .ok (c, r)) (hA : g.computeWhitenedResidualJacobian F C a r = .ok A)
    (hy : A.T.matmul (r.map fun x => -x) = .ok y) (hzero : ∀ x ∈ y, x = 0) : LeastLoss F C fs vars val := by
  obtain ⟨g', hg', hS⟩ := sane_graph (F := F) hC hfs hne
  rw [hg] at hg'; cases hg'
  obtain ⟨g', hg', hG⟩ := graph_ok (F := F) hfs hne
  rw [hg] at hg'; cases hg'
  have hs := variablesOf_spec fs
  have hv : ∀ v, v ∈ vars ↔ v ∈ Graph.variablesOf fs := fun v => by rw [h.sameVars, hs.2]
  have hperm : vars.Perm (Graph.variablesOf fs) := (List.perm_ext_iff_of_nodup h.assignment.1 hs.1).2 hv
  have hE' : UsesDefaultRetraction C (Graph.variablesOf fs) := fun v hv' => hE v ((hv v).2 hv')
  have h' : Holds C fs (Graph.variablesOf fs) val a := by
    refine ⟨⟨hs.1, ?_, h.assignment.2.2⟩, h.isGlobal, hs.2, fun v hv' => h.values v ((hv v).2 hv')⟩
    rw [hlay, hG.layout]; rfl
  have hS' := hS.jacobian a a c r A h'.assignment hlay h'.assignment hlay hc hA
  obtain ⟨hrl, hbl, hbv⟩ := descent_ok hS'.1 hy
  obtain ⟨b, hb, hbl', hh⟩ := holds_retract hC hG h' hlay (d := List.replicate A.shape.2 0)
    (show (List.replicate A.shape.2 (0:ℝ)).length = g.localLayout.dim by rw [List.length_replicate]; exact hS'.2)
  have hx0 : vec (List.replicate A.shape.2 (0:ℝ)) A.shape.2 = 0 := by
    funext i; simp [Spec.vec]
  have hy0 : vec y A.shape.2 = 0 := by
    funext i
    have hi : (i : Nat) < y.length := by rw [hbl]; exact i.2
    show y.getD i 0 = 0
    rw [List.getD_eq_getElem _ _ hi]
    exact hzero _ (List.getElem_mem hi)
  have hstep := robust_step hC hfs hne hsimple haff hg hE' hσ le_rfl (DeterminesInner.perm hperm hD) h' hlay hc hA hy (by simp)
    (D := 0) Matrix.PosSemidef.zero (fun v => by simp) (by rw [hx0, hy0, mulVec_zero]) hb hh
  have hdist := step_distance hC hfs hne hg hE' h' hlay hS'.2 (by simp) hb hh
  rw [hx0] at hdist
  have hst := stores_of_holds hC h'
  have hst' := stores_of_holds hC hh
  have hsame := sqDist_zero (fun v hv => hst'.2 v hv) (fun v hv => hst.2 v hv) (by rw [hdist]; simp)
  have hloss : totalLoss F fs (fun v => (C v.ty).retract (val v) (block C ⟨List.replicate A.shape.2 0, g.localLayout⟩ v)) = totalLoss F fs val :=
    totalLoss_congr fun f hf => List.map_congr_left fun v hv => hsame v ((hs.2 v).2 ⟨f, hf, hv⟩)
  refine ⟨fun v hv' => hst.2 v ((hv v).1 hv'), fun m hm => ?_⟩
  obtain ⟨e, he, hel⟩ := stored_at (F := F) hC hG fun v hv' => hm v ((hv v).2 hv')
  obtain ⟨η, hη⟩ := smallFor_exists hfs (totalLoss_nonneg hC hfs h)
  have := hstep.2 _ η hη le_rfl m e he hel
  rw [hloss, add_zero, mul_div_assoc, div_self hσ.ne', mul_one] at this
  have := hη.1
  nlinarith

/-- **C116.** On a linear problem with Huber wrappers whose measurements determine the variables, `solve` of Gauss-Newton approaches the
values with the least total loss, from any initial values: what the loss exceeds the least loss by shrinks by a factor below one with
every step. The fixed-iteration solver does so with the number of steps it is given. -/
theorem C116_solve (hC : GoodClasses C) (fs : List Factor) (hne : fs ≠ []) (hfs : ∀ f ∈ fs, FactorWF F C f)
    (hpos : ∀ f ∈ fs, ∀ v ∈ f.vars, 0 < (C v.ty).paramDim)
    (hsimple : ∀ f ∈ fs, NoiseSimple f.noise) (haff : ∀ f ∈ fs, AffineFactor F C f) (vars : List Var)
    (hE : UsesDefaultRetraction C vars) (σ : ℝ) (hσ : 0 < σ) (hD : DeterminesInner F C fs vars σ) (μ : ℝ → ℝ) (hμ : 0 ≤ μ 0) :
    ∃ g, Graph.make C fs = .ok g ∧ ∀ CE gE, Lifts CE gE C (g.ops F C) → ∀ val a, Holds C fs vars val a →
      (∀ sE s, LiftsGN sE s → AllJacobians C (g.ops F C) (Graph.variablesOf fs) (TotalSolver s.linear) →
        AllJacobians C (g.ops F C) (Graph.variablesOf fs) (DampedUpTo μ s.linear) →
        ∃ (o : Assign ℝ) (log : List (Msg Ext)) (val' : Var → Value ℝ) (k : Nat), o.layout = a.layout ∧ Holds C fs vars val' o ∧
          (∀ fuel : Nat, max 1 s.maxIterations ≤ fuel → sE.solve CE gE fuel (a.map fin) = .ok (some (o.map fin, log))) ∧
          1 ≤ k ∧ (sE.verbose = true → ∃ l c, log = l ++ [.terminated k c]) ∧ Approaches F C fs vars σ (μ 0) k val val') ∧
      ∀ (sE : FixedIteration Ext) L, LiftsSolver sE.linear L → AllJacobians C (g.ops F C) (Graph.variablesOf fs) (TotalSolver L) →
        AllJacobians C (g.ops F C) (Graph.variablesOf fs) (DampedUpTo μ L) → a.layout = g.layout → ∀ n : Nat, 1 ≤ n → sE.iterations = n →
        ∃ (o : Assign ℝ) (log : List (Msg Ext)) (val' : Var → Value ℝ), o.layout = a.layout ∧ Holds C fs vars val' o ∧
          (∀ fuel : Nat, n ≤ fuel → sE.solve CE gE fuel (a.map fin) = .ok (some (o.map fin, log))) ∧
          Approaches F C fs vars σ (μ 0) n val val' := by
  obtain ⟨g, hg, hret⟩ := C72_solve_returns F C hC fs hne hfs hpos
  obtain ⟨g', hg', hG⟩ := graph_ok (F := F) hfs hne
  rw [hg] at hg'; cases hg'
  refine ⟨g, hg, fun CE gE hl val a h => ?_⟩
  have hs := variablesOf_spec fs
  have hv : ∀ v, v ∈ vars ↔ v ∈ Graph.variablesOf fs := fun v => by rw [h.sameVars, hs.2]
  have hperm : vars.Perm (Graph.variablesOf fs) := (List.perm_ext_iff_of_nodup h.assignment.1 hs.1).2 hv
  have hE' : UsesDefaultRetraction C (Graph.variablesOf fs) := fun v hv' => hE v ((hv v).2 hv')
  have hD' := DeterminesInner.perm hperm hD
  have hp : ∀ v ∈ vars, 0 < (C v.ty).paramDim := fun v hv => by
    obtain ⟨f, hf, hv⟩ := (h.sameVars v).1 hv; exact hpos f hf v hv
  have hal : a.layout = Layout.make C vars false := by rw [h.assignment.2.1, h.isGlobal]
  obtain ⟨gn, -, -, fi⟩ := hret CE gE hl vars a h.assignment h.isGlobal h.sameVars
  constructor
  · intro sE s hS hTS hDU
    obtain ⟨o, log, ho, hol, hsolve⟩ := gn sE s hS hTS
    obtain ⟨b₀, u1, u2, u3⟩ := (stores_of_holds hC h).update hs.1 hv hp
    rw [← hG.layout] at u1 u2
    obtain ⟨b0, st, st', l, h1, h2, h3, h4, h5⟩ := baseSolve_some.1 (hsolve (max 1 s.maxIterations).toNat (by omega))
    rw [hl.layout, hl.updateStorageLayout] at h1
    obtain ⟨b1, hb1, rfl⟩ := py_map_eq_ok.1 h1
    have hb1' : a.updateStorageLayout C g.layout = .ok b1 := hb1
    rw [u1] at hb1'; cases hb1'
    obtain ⟨k, -, hr, hd⟩ := runs_of_whileLoop h3
    obtain ⟨c, r, hc, rfl⟩ := (initState_fin hl).1 h2
    have hk : 1 ≤ k := by
      cases k with
      | zero => cases hr; cases hd
      | succ k => omega
    obtain ⟨q, val', rfl, q1, q2, q3, q4, q5⟩ := robust_runs hC hfs hne hsimple haff hg hE' hσ hD' hμ hDU (fun p p' log hst => by
      obtain ⟨A, ATr, d, b, c, r, conv, hA, hT, hx, hb, hc, -, e, -⟩ := (gnStep_fin hl hS).1 hst
      exact ⟨A, ATr, d, b, c, r, _, hA, hT, hx, hb, hc, e⟩) (u3.holds hs.2) u2 hc hr
    have hbs := stores_of_holds hC q3
    obtain ⟨o', v1, v2, v3⟩ := hbs.update h.assignment.1 (fun v => (hv v).symm) (fun v hv' => hp v ((hv v).2 hv'))
    rw [← hal] at v1
    have h4' : (State.map fin q).assignments.updateStorageLayout CE a.layout = .ok (o.map fin) := h4
    have h4'' : (q.assignments.map fin).updateStorageLayout CE a.layout = .ok (o.map fin) := h4'
    rw [hl.updateStorageLayout, v1] at h4''
    have hoo : o' = o := assign_map_fin (Except.ok.inj h4'')
    subst hoo
    refine ⟨o', log, val', k, hol, v3.holds h.sameVars, hsolve, ?_, ?_, ?_⟩
    · exact hk
    · intro hverb
      refine ⟨l, fin q.cost, ?_⟩
      rw [h5, hverb]
      show l ++ [Msg.terminated q.iterations (fin q.cost)] = _
      rw [q1]
    · exact robust_values hC hfs hne hsimple haff hg hE' hD' hperm q3 q2 q4 q5
  · intro sE L hS hTS hDU hlay n hn1 hn
    have h' : Holds C fs (Graph.variablesOf fs) val a := by
      refine ⟨⟨hs.1, ?_, h.assignment.2.2⟩, h.isGlobal, hs.2, fun v hv' => h.values v ((hv v).2 hv')⟩
      rw [hlay, hG.layout]; rfl
    obtain ⟨o, log, ho, hol, hsolve⟩ := fi sE L hS hTS hlay
    have hsolve' : ∀ fuel : Nat, n ≤ fuel → sE.solve CE gE fuel (a.map fin) = .ok (some (o.map fin, log)) :=
      fun fuel hf => hsolve fuel (by rw [hn]; omega)
    obtain ⟨st, st', l, h1, h2, h3, h4⟩ := fixedSolve_some.1 (hsolve' n le_rfl)
    obtain ⟨c, r, hc, rfl⟩ := (initState_fin hl).1 h1
    have hloop : forLoop (sE.step CE gE) n (State.map fin ⟨0, a, c, r, false⟩) = .ok (st', l) := by
      cases hu : sE.unroll with
      | true =>
        rw [hu, if_pos rfl, hn] at h2
        obtain ⟨p, hp1, hp2⟩ := py_map_eq_ok.1 h2
        cases hp2
        exact hp1
      | false =>
        rw [hu, if_neg (by simp)] at h2
        obtain ⟨m, rfl⟩ : ∃ m, n = m + 1 := ⟨n - 1, by omega⟩
        rw [whileLoop_eq_forLoop sE m (m + 1) _ rfl (by rw [hn]; show ((0 : Nat) : Int) + _ = _; push_cast; ring) le_rfl] at h2
        obtain ⟨p, hp1, hp2⟩ := py_map_eq_ok.1 h2
        cases hp2
        exact hp1
    obtain ⟨q, val', rfl, q1, q2, q3, q4, q5⟩ := robust_runs hC hfs hne hsimple haff hg hE' hσ hD' hμ hDU (fun p p' log hst => by
      obtain ⟨A, ATr, d, b, c, r, hA, hT, hx, hb, hc, e, -⟩ := (fixedStep_fin hl hS).1 hst
      exact ⟨A, ATr, d, b, c, r, _, hA, hT, hx, hb, hc, e⟩) h' hlay hc (runs_of_forLoop.1 hloop)
    have hoo : o = q.assignments := assign_map_fin h3
    subst hoo
    refine ⟨_, log, val', hol, ⟨ho, by rw [hol]; exact h.isGlobal, h.sameVars, fun v hv' => q3.values v ((hv v).1 hv')⟩, hsolve', ?_⟩
    exact robust_values hC hfs hne hsimple haff hg hE' hD' hperm q3 q2 q4 q5

/-- **C116, in the limit.** With the default solver CHOLMOD, for every distance there is a number of iterations above which the
fixed-iteration solver ends closer to the values with the least loss. -/
theorem C116_converges (hC : GoodClasses C) (fs : List Factor) (hne : fs ≠ []) (hfs : ∀ f ∈ fs, FactorWF F C f)
    (hpos : ∀ f ∈ fs, ∀ v ∈ f.vars, 0 < (C v.ty).paramDim)
    (hsimple : ∀ f ∈ fs, NoiseSimple f.noise) (haff : ∀ f ∈ fs, AffineFactor F C f) (vars : List Var)
    (hE : UsesDefaultRetraction C vars) (σ : ℝ) (hσ : 0 < σ) (hD : DeterminesInner F C fs vars σ)
    (stale : Pattern → ScipyCoo ℝ → ℝ → List ℝ → Py (List ℝ)) (addr : Nat) :
    ∃ g, Graph.make C fs = .ok g ∧ ∀ CE gE, Lifts CE gE C (g.ops F C) → ∀ val a, Holds C fs vars val a → a.layout = g.layout →
      ∀ y, LeastLoss F C fs vars y → ∀ ε : ℝ, 0 < ε → ∃ n₀ : Nat, ∀ n, n₀ ≤ n → ∀ sE : FixedIteration Ext, sE.iterations = n →
        LiftsSolver sE.linear (fun A b l _ => (cholmodSolve stale .empty addr A b l).1) →
        ∃ (o : Assign ℝ) (log : List (Msg Ext)) (val' : Var → Value ℝ), Holds C fs vars val' o ∧
          (∀ fuel : Nat, n ≤ fuel → sE.solve CE gE fuel (a.map fin) = .ok (some (o.map fin, log))) ∧ sqDist vars val' y ≤ ε := by
  obtain ⟨g, hg, H⟩ := C116_solve (F := F) hC fs hne hfs hpos hsimple haff vars hE σ hσ hD (fun l => l + 1 / 100000) (by norm_num)
  obtain ⟨g', hg', hS⟩ := sane_graph (F := F) hC hfs hne
  rw [hg] at hg'; cases hg'
  obtain ⟨g', hg', hchol⟩ := C72_cholmod F C hC fs hne hfs stale addr
  rw [hg] at hg'; cases hg'
  refine ⟨g, hg, fun CE gE hl val a h hlay y hy ε hε => ?_⟩
  obtain ⟨m, hm⟩ := smallFor_exists hfs (totalLoss_nonneg hC hfs h)
  obtain ⟨θ, hθ⟩ : ∃ θ, θ = 1 - m * σ / (σ + (0 + 1 / 100000)) := ⟨_, rfl⟩
  have hm1 := hm.1
  have hm2 := hm.2.1
  have ht1 : 0 ≤ θ := by
    have : m * σ / (σ + (0 + 1 / 100000)) ≤ m := by
      rw [div_le_iff₀ (by linarith)]
      nlinarith
    linarith
  have ht2 : θ < 1 := by
    have : 0 < m * σ / (σ + (0 + 1 / 100000)) := by positivity
    linarith
  obtain ⟨G, hG⟩ : ∃ G, G = totalLoss F fs val - totalLoss F fs y := ⟨_, rfl⟩
  have hGnn : 0 ≤ G := by
    have := hy.2 val fun v hv => (stores_of_holds hC h).2 v hv
    linarith
  obtain ⟨n₀, hn₀⟩ := exists_pow_lt_of_lt_one (show 0 < m * σ / 2 * ε / (G + 1) by positivity) ht2
  refine ⟨n₀ + 1, fun n hn sE hi hL => ?_⟩
  obtain ⟨o, log, val', o1, o2, o3, o4, o5⟩ := (H CE gE hl val a h).2 sE _ hL hchol
    (fun a a' c r A h1 h2 h3 h4 h5 h6 => C70_cholmod stale .empty addr (hS.jacobian a a' c r A h1 h2 h3 h4 h5 h6).1 (fun p hp => by cases hp))
    hlay n (by omega) hi
  refine ⟨o, log, val', o2, o3, ?_⟩
  obtain ⟨k1, k2⟩ := o5 m y hm hy
  rw [← hθ, ← hG] at k1
  have hpow : θ ^ n ≤ θ ^ n₀ := pow_le_pow_of_le_one ht1 ht2.le (by omega)
  have h1 : θ ^ n * G ≤ m * σ / 2 * ε := by
    have h2 : θ ^ n ≤ m * σ / 2 * ε / (G + 1) := hpow.trans hn₀.le
    rw [le_div_iff₀ (by linarith)] at h2
    nlinarith [pow_nonneg ht1 n]
  have hp : 0 < m * σ / 2 := by positivity
  exact le_of_mul_le_mul_left (k2.trans (k1.trans h1)) hp

end

/-! ### The outlier of `C69_not_the_huber_gradient` -/

namespace HuberEx

theorem value {x : Value ℝ} (h : IsValueOf (Ex.C Ex.x.ty) x) : ∃ t, x = ⟨0, [⟨[1], [t]⟩]⟩ := by
  obtain ⟨td, ls⟩ := x
  obtain ⟨h1, h2, h3⟩ := h
  simp only [Ex.C, VarClass.realVector, VarClass.euclidean, Ex.x] at h1 h2
  subst h1
  match ls, h2, h3 with
  | [⟨sh, data⟩], h2, h3 =>
    simp only [List.map_cons, List.map_nil, List.cons.injEq, and_true] at h2
    subst h2
    have h3 : data.length = 1 := by simpa [WellShaped] using h3
    obtain ⟨y, rfl⟩ := List.length_eq_one_iff.1 h3
    exact ⟨y, rfl⟩

theorem affine : ∀ g ∈ fs, AffineFactor Ex.F Ex.C g := by
  have mul : ∀ y : ℝ, arrMat (Ex.eye 1 1) 1 (Ex.C 0).localDim *ᵥ Spec.vec [y] (Ex.C 0).localDim = Spec.vec [y] 1 := by
    intro y
    rw [Ex.localDim]
    funext i
    rw [Subsingleton.elim i 0]
    simp [mulVec, dotProduct, arrMat, Spec.vec, Ex.eye, Arr.of2]
  have prior : ∀ (N : Noise) (p : ℝ), NoiseWF N 1 1 → AffineFactor Ex.F Ex.C ⟨0, [Ex.x], N, [⟨[1], [p]⟩]⟩ := by
    intro N p hN vals δs hv hδ
    have hd : rdim ⟨0, [Ex.x], N, [⟨[1], [p]⟩]⟩ = 1 := noiseDim_eq hN
    generalize rdim _ = n at hd ⊢
    subst hd
    match vals, hv, δs, hδ with
    | [x0], .cons h1 .nil, [d], .cons h3 .nil =>
      obtain ⟨x, rfl⟩ := value h1
      obtain ⟨y, rfl⟩ := List.length_eq_one_iff.1 (h3.trans (Ex.localDim 0))
      show Spec.vec [x + y - p] 1 = Spec.vec [x - p] 1 +
        (arrMat (Ex.eye 1 1) 1 (Ex.C 0).localDim *ᵥ Spec.vec [y] (Ex.C 0).localDim + 0)
      rw [mul, add_zero]
      funext i
      rw [Subsingleton.elim i 0]
      simp only [Spec.vec, Pi.add_apply, Fin.val_zero, List.getD_cons_zero]
      ring
  intro g hg
  simp only [fs, List.mem_cons, List.not_mem_nil, or_false] at hg
  rcases hg with rfl | rfl
  · exact prior _ _ ⟨⟨rfl, rfl⟩, rfl⟩
  · exact prior _ _ ⟨⟨⟨rfl, rfl⟩, rfl⟩, 1, rfl, by norm_num⟩

theorem determine : DeterminesInner Ex.F Ex.C fs [Ex.x] 17 := by
  intro v v' w w' hv hw
  obtain ⟨⟨x, hx⟩, y, hy⟩ := (hv Ex.x (by simp)).imp value value
  have w1 := hw f (by simp [fs])
  have w2 := hw out (by simp [fs])
  have e1 : ∀ (u : Var → Value ℝ) z, u Ex.x = ⟨0, [⟨[1], [z]⟩]⟩ → innerAt Ex.F u f = .ok [4 * z] := by
    intro u z hz
    simp [innerAt, f, Ex.F, hz, Factor.self, Value.flatten, Noise.whiten]
  have e2 : ∀ (u : Var → Value ℝ) z, u Ex.x = ⟨0, [⟨[1], [z]⟩]⟩ → innerAt Ex.F u out = .ok [z - 129 / 8] := by
    intro u z hz
    simp [innerAt, out, Ex.F, hz, Factor.self, Value.flatten, Noise.whiten]
  rw [e1 _ _ hx, e1 _ _ hy] at w1
  rw [e2 _ _ hx, e2 _ _ hy] at w2
  simp only [fs, sqDist, List.map_cons, List.map_nil, hx, hy, ← Except.ok.inj w1.1, ← Except.ok.inj w1.2, ← Except.ok.inj w2.1,
    ← Except.ok.inj w2.2]
  simp [sqNorm, Value.flatten]
  nlinarith

/-- `SmallFor` is met, at initial values with total loss 7. -/
example : SmallFor fs 7 (1 / 40) := by
  refine ⟨by norm_num, by norm_num, fun g hg N δ hN => ?_⟩
  simp only [fs, List.mem_cons, List.not_mem_nil, or_false] at hg
  rcases hg with rfl | rfl
  · cases hN
  · cases hN
    norm_num

end HuberEx

/-- **C116, not the Huber loss.** One variable, a measurement 0 with weight 4 and an outlier 129/8 with Huber threshold 1. From every
initial value, the results of the fixed-iteration solver (with CHOLMOD) tend to 1/8 as the number of iterations grows. The Huber loss
has derivative 2 there, and the cost that `compute_cost` reports has derivative 3: neither is least. -/
theorem C116_not_the_huber_optimum (stale : Pattern → ScipyCoo ℝ → ℝ → List ℝ → Py (List ℝ)) (addr : Nat) :
    ∃ g, Graph.make Ex.C HuberEx.fs = .ok g ∧
      (∀ CE gE, Lifts CE gE Ex.C (g.ops Ex.F Ex.C) → ∀ t ε : ℝ, 0 < ε → ∃ n₀ : Nat, ∀ n, n₀ ≤ n → ∀ sE : FixedIteration Ext,
        sE.iterations = n → LiftsSolver sE.linear (fun A b l _ => (cholmodSolve stale .empty addr A b l).1) →
        ∃ (t' : ℝ) (log : List (Msg Ext)), (∀ fuel : Nat, n ≤ fuel →
          sE.solve CE gE fuel ((HuberEx.a t).map fin) = .ok (some ((HuberEx.a t').map fin, log))) ∧ t' ^ 2 ≤ ε) ∧
      HasDerivAt (fun t => (HuberEx.fs.map fun f => factorLoss huberLoss Ex.F (HuberEx.val t) f).sum) 2 0 ∧
      ∃ cost : ℝ → ℝ, (∀ t, ∃ w, g.computeCost Ex.F Ex.C (HuberEx.a t) = .ok (cost t, w)) ∧ HasDerivAt cost 3 0 := by
  obtain ⟨g, r, A, -, hg, hh, hlay, -, hr, hA, hAr, hd, cost, hcost, hd'⟩ := C69_not_the_huber_gradient
  have hne : HuberEx.fs ≠ [] := by simp [HuberEx.fs]
  obtain ⟨g', hg', hG⟩ := graph_ok (F := Ex.F) HuberEx.wf hne
  rw [hg] at hg'; cases hg'
  obtain ⟨g', hg', hS⟩ := sane_graph (F := Ex.F) Ex.good HuberEx.wf hne
  rw [hg] at hg'; cases hg'
  have hE : UsesDefaultRetraction Ex.C [Ex.x] := fun v _ => rfl
  obtain ⟨w, hw⟩ := hcost 0
  have hwr : w = r := by
    unfold Graph.computeCost at hw
    rw [hr] at hw
    exact (Prod.mk.inj (Except.ok.inj hw)).2.symm
  subst hwr
  have hasg : IsAssignmentOf Ex.C (Graph.variablesOf HuberEx.fs) (HuberEx.a 0) := (hh 0).assignment
  have hwf := (hS.jacobian _ _ _ _ _ hasg hlay hasg hlay hw hA).1
  have hleast : LeastLoss Ex.F Ex.C HuberEx.fs [Ex.x] (HuberEx.val 0) :=
    C116_stationary Ex.good _ hne HuberEx.wf HuberEx.simple HuberEx.affine _ hE 17 (by norm_num) HuberEx.determine g hg _ _ (hh 0) hlay _ _ _ _
      hw hA (matmul_neg (cooWF_T hwf) hAr) (by simp)
  obtain ⟨g', hg', hconv⟩ := C116_converges (F := Ex.F) Ex.good HuberEx.fs hne HuberEx.wf
    (fun f _ v _ => by rw [Ex.paramDim]; omega) HuberEx.simple HuberEx.affine [Ex.x] hE 17 (by norm_num) HuberEx.determine stale addr
  rw [hg] at hg'; cases hg'
  refine ⟨g, hg, fun CE gE hl t ε hε => ?_, hd, cost, hcost, hd'⟩
  obtain ⟨n₀, hn₀⟩ := hconv CE gE hl _ _ (hh t) hlay _ hleast ε hε
  refine ⟨n₀, fun n hn sE hi hL => ?_⟩
  obtain ⟨o, log, val', o1, o2, o3⟩ := hn₀ n hn sE hi hL
  have hst := stores_of_holds Ex.good o1
  obtain ⟨s, hs⟩ := HuberEx.value (hst.2 Ex.x (by simp))
  have ho : o = HuberEx.a (s - 1 / 8) := by
    have h1 := hst.1.storage
    have h2 := o1.assignment.2.1
    rw [o1.isGlobal] at h2
    have hgrp : grouped [Ex.x] = [Ex.x] := by decide
    rw [hgrp] at h1
    obtain ⟨st, lay⟩ := o
    simp only at h1 h2
    rw [h1, h2]
    simp [HuberEx.a, hs, Value.flatten]
  subst ho
  refine ⟨_, log, o2, ?_⟩
  simp only [sqDist, HuberEx.val, List.map_cons, List.map_nil, hs] at o3
  simp [sqNorm, Value.flatten] at o3
  nlinarith

end Jaxfg.Props
