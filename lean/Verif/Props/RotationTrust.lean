/- C117, Levenberg-Marquardt and dogleg. -/
import Verif.Lemmas.ExactRate
import Verif.Props.Rotation

namespace Jaxfg.Props
open Spec
open Ext (fin)
open Matrix hiding vec

section
variable {F : Nat → FactorClass} {C : Ty → VarClass ℝ} {fs : List Factor} {m w : Factor → ℝ}
  (hC : GoodClasses C) (hne : fs ≠ []) (hT : ∀ f ∈ fs, MeasuresAngle F (m f) (w f) f)
  (hK : ∀ f ∈ fs, ∀ v ∈ f.vars, C v.ty = SO2Variable) {g : Graph} (hg : Graph.make C fs = .ok g)
include hC hne hT hK hg

/-- Angles are coordinates in which the linearized cost is exact. -/
theorem rotation_exact {θ : Var → ℝ} (hθ : WithinHalfTurn fs m w θ) :
    Exact C (g.ops F C) (angleCost fs m w) (fun θ a => Holds C fs (Graph.variablesOf fs) (fun v => turnBy (θ v)) a) (angleCost fs m w θ) := by
  have hfs : ∀ f ∈ fs, FactorWF F C f := fun f hf => (measuresAngle_wf (hT f hf) (hK f hf)).1
  obtain ⟨g', hg', hG⟩ := graph_ok (F := F) hfs hne
  rw [hg] at hg'; cases hg'
  refine ⟨fun x a c r h hB _ hc => ?_, fun x a c r A d h hB hlay hc hA hd => ?_, fun x a c r A h hB hlay hc hA y => ?_,
    fun x a d b h hlay hd h0 hb => ?_⟩
  · obtain ⟨c', ⟨r', hr', e⟩, -, h3⟩ := C117_cost fs m w hT x
    have hc : g.computeCost F C a = .ok (c, r) := hc
    rw [cost_ok F C hC hne hfs hG h hr'] at hc
    rw [← (Prod.mk.inj (Except.ok.inj hc)).1, ← h3 (hθ x hB), e]
  · obtain ⟨-, -, -, hstep, -⟩ := rotation_view hC hne hT hK hg h hlay (hθ x hB) hc hA
    obtain ⟨x', h1, h2, -, -⟩ := hstep d hd
    exact ⟨x', h1, h2⟩
  · obtain ⟨-, -, -, -, hreach⟩ := rotation_view hC hne hT hK hg h hlay (hθ x hB) hc hA
    obtain ⟨d, -, hd⟩ := hreach y
    exact ⟨d, hd⟩
  · have hs := variablesOf_spec fs
    have hKv : ∀ v ∈ Graph.variablesOf fs, C v.ty = SO2Variable := fun v hv => by
      obtain ⟨f, hf, hv⟩ := (hs.2 v).1 hv
      exact hK f hf v hv
    have hasg : IsAssignmentOf C (Graph.variablesOf fs) ⟨d, g.localLayout⟩ := by
      refine ⟨hs.1, ?_, hd⟩
      simp only [hG.localLayout, make_localFlag]
    obtain ⟨q, hq⟩ := exists_rep hasg
    have hq0 : ∀ v ∈ Graph.variablesOf fs, block C ⟨d, g.localLayout⟩ v = [0] := by
      intro v hv
      rw [hq.block_eq hv]
      have := hq.len v hv
      simp only [hG.localLayout, make_localFlag, dimOf, hKv v hv] at this
      obtain ⟨x, hx⟩ := List.length_eq_one_iff.1 this
      have hm : x ∈ d := by
        rw [show d = (grouped (Graph.variablesOf fs)).flatMap q from hq.storage, List.mem_flatMap]
        exact ⟨v, mem_grouped.2 hv, by simp [hx]⟩
      rw [hx, h0 x hm]
    obtain ⟨b', hb', -, hh⟩ := holds_retract hC hG h hlay hd
    have hb : a.manifoldRetract C ⟨d, g.localLayout⟩ = .ok b := hb
    rw [hb] at hb'; cases hb'
    have hR : Holds C fs (Graph.variablesOf fs) (fun v => turnBy (x v)) b := by
      refine ⟨hh.assignment, hh.isGlobal, hh.sameVars, fun v hv => ?_⟩
      rw [hh.values v hv]
      simp only [hKv v hv]
      rw [turnBy_retract _ (hq0 v hv), add_zero]
    refine ⟨hR, ?_⟩
    have hw : ∀ f ∈ fs, whitenedAt F (fun v => turnBy (x v)) f = .ok _ := fun f hf => measuresAngle_residual (hT f hf) x
    show g.computeCost F C b = g.computeCost F C a
    rw [cost_ok F C hC hne hfs hG h hw, cost_ok F C hC hne hfs hG hR hw]

/-- Every step contracts. -/
theorem rotation_contracts {σ : ℝ} (hσ : 0 < σ) (hD : DeterminesAngles fs w (Graph.variablesOf fs) σ) {μ : ℝ → ℝ}
    (hμ : ∀ l, 0 ≤ l → 0 ≤ μ l) {L : LinSolver ℝ} (hL : AllJacobians C (g.ops F C) (Graph.variablesOf fs) (DampedUpTo μ L))
    {θ : Var → ℝ} (hθ : WithinHalfTurn fs m w θ) (x : Var → ℝ) (a : Assign ℝ) (c : ℝ) (r : List ℝ) (A : Coo ℝ)
    (h : Holds C fs (Graph.variablesOf fs) (fun v => turnBy (x v)) a) (hB : angleCost fs m w x ≤ angleCost fs m w θ)
    (hasg : IsAssignmentOf C (Graph.variablesOf fs) a) (hlay : a.layout = (g.ops F C).layout) (hc : (g.ops F C).computeCost a = .ok (c, r))
    (hA : (g.ops F C).jacobian a r = .ok A) : Contracts σ μ L A := by
  obtain ⟨-, hsh, -, hstep, -⟩ := rotation_view hC hne hT hK hg h hlay (hθ x hB) hc hA
  have h2 : A.shape.2 = g.localLayout.dim := by rw [hsh]
  refine contracts_of_stiff hσ hμ (fun v => ?_) (hL a a c r A hasg hlay hasg hlay hc hA)
  obtain ⟨θ₁, -, -, k3, k4⟩ := hstep (List.ofFn v) (by rw [List.length_ofFn, h2])
  have hv : Spec.vec (List.ofFn v) A.shape.2 = v := by
    funext i
    rw [vec_eq (by simp)]
    simp
  rw [hv] at k3 k4
  rw [k3, k4]
  exact hD _ _
end

section
variable {F : Nat → FactorClass} {C : Ty → VarClass ℝ}

/-- **C117**, Levenberg-Marquardt, with minimum step quality at most 1, from the same rotations: after `k` steps the excess has shrunk by
the factors `(μᵢ / (σ + μᵢ))²` for `i < k`, where `μᵢ = μ (lambda_initial / lambda_factorⁱ)`. -/
theorem C117_levenberg_marquardt (hC : GoodClasses C) (fs : List Factor) (hne : fs ≠ []) (m w : Factor → ℝ)
    (hT : ∀ f ∈ fs, MeasuresAngle F (m f) (w f) f)
    (hK : ∀ f ∈ fs, ∀ v ∈ f.vars, C v.ty = SO2Variable) (vars : List Var) (σ : ℝ) (hσ : 0 < σ) (hD : DeterminesAngles fs w vars σ)
    (μ : ℝ → ℝ) (hμ : ∀ l, 0 ≤ l → 0 ≤ μ l) :
    ∃ g, Graph.make C fs = .ok g ∧ ∀ CE gE, Lifts CE gE C (g.ops F C) → ∀ θ, WithinHalfTurn fs m w θ →
      ∀ a, Holds C fs vars (fun v => turnBy (θ v)) a →
      ∀ sE s, LiftsLM sE s → AllJacobians C (g.ops F C) (Graph.variablesOf fs) (TotalSolver s.linear) →
        AllJacobians C (g.ops F C) (Graph.variablesOf fs) (DampedUpTo μ s.linear) →
        s.stepQualityMin ≤ 1 → 0 ≤ s.lambdaInitial → 1 ≤ s.lambdaFactor → 0 ≤ s.lambdaMin →
        ∃ (o : Assign ℝ) (log : List (Msg Ext)) (θ' : Var → ℝ) (k : Nat), o.layout = a.layout ∧ Holds C fs vars (fun v => turnBy (θ' v)) o ∧
          (∀ fuel : Nat, max 1 s.maxIterations ≤ fuel → sE.solve CE gE fuel (a.map fin) = .ok (some (o.map fin, log))) ∧
          1 ≤ k ∧ (sE.verbose = true → ∃ l, log = l ++ [.terminated k (fin (angleCost fs m w θ'))]) ∧
          HasCost F fs (fun v => turnBy (θ' v)) (angleCost fs m w θ') ∧
          (∀ y, angleCost fs m w θ' - angleCost fs m w y ≤ (∏ i ∈ Finset.range k, (μ (s.lambdaInitial / s.lambdaFactor ^ i) /
            (σ + μ (s.lambdaInitial / s.lambdaFactor ^ i))) ^ 2) * (angleCost fs m w θ - angleCost fs m w y)) ∧
          ∀ y, (∀ z, angleCost fs m w y ≤ angleCost fs m w z) → σ * angleDist vars θ' y ≤ angleCost fs m w θ' - angleCost fs m w y := by
  have hfs : ∀ f ∈ fs, FactorWF F C f := fun f hf => (measuresAngle_wf (hT f hf) (hK f hf)).1
  have hpos : ∀ f ∈ fs, ∀ v ∈ f.vars, 0 < (C v.ty).paramDim := fun f hf v hv => by rw [hK f hf v hv]; decide
  obtain ⟨g, hg, hret⟩ := C72_solve_returns F C hC fs hne hfs hpos
  obtain ⟨g', hg', hG⟩ := graph_ok (F := F) hfs hne
  rw [hg] at hg'; cases hg'
  obtain ⟨g', hg', hSane⟩ := sane_graph (F := F) hC hfs hne
  rw [hg] at hg'; cases hg'
  refine ⟨g, hg, fun CE gE hl θ hθ a h sE s hS hTS hDU q1' q2' q3' q4' => ?_⟩
  have hs := variablesOf_spec fs
  have hv : ∀ v, v ∈ vars ↔ v ∈ Graph.variablesOf fs := fun v => by rw [h.sameVars, hs.2]
  have hperm : vars.Perm (Graph.variablesOf fs) := (List.perm_ext_iff_of_nodup h.assignment.1 hs.1).2 hv
  have hD' := DeterminesAngles.perm hperm hD
  have hp : ∀ v ∈ vars, 0 < (C v.ty).paramDim := fun v hv => by
    obtain ⟨f, hf, hv⟩ := (h.sameVars v).1 hv; exact hpos f hf v hv
  have hal : a.layout = Layout.make C vars false := by rw [h.assignment.2.1, h.isGlobal]
  have cost : ∀ θ', angleCost fs m w θ' ≤ angleCost fs m w θ → HasCost F fs (fun v => turnBy (θ' v)) (angleCost fs m w θ') := by
    intro θ' hle
    obtain ⟨c, h1, -, h3⟩ := C117_cost fs m w hT θ'
    rwa [h3 (hθ θ' hle)] at h1
  obtain ⟨o, log, ho, hol, hsolve⟩ := (hret CE gE hl vars a h.assignment h.isGlobal h.sameVars).2.1 sE s hS hTS (by linarith) q4' q2'
  obtain ⟨b₀, u1, u2, u3⟩ := (stores_of_holds hC h).update hs.1 hv hp
  rw [← hG.layout] at u1 u2
  obtain ⟨b0, st, st', l, h1, h2, h3, h4, h5⟩ := baseSolve_some.1 (hsolve (max 1 s.maxIterations).toNat (by omega))
  rw [hl.layout, hl.updateStorageLayout] at h1
  obtain ⟨b1, hb1, rfl⟩ := py_map_eq_ok.1 h1
  have hb1' : a.updateStorageLayout C g.layout = .ok b1 := hb1
  rw [u1] at hb1'; cases hb1'
  obtain ⟨k, -, hr, hd⟩ := runs_of_whileLoop h3
  obtain ⟨c, r, hc, rfl⟩ := (lmInit_fin hl hS).1 h2
  have hk : 1 ≤ k := by
    cases k with
    | zero => cases hr; cases hd
    | succ k => omega
  have hst := u3.holds hs.2
  obtain ⟨q, θ', rfl, -, q4, q5, q1, hcost', -, -, -, q6⟩ := exact_levenberg_marquardt hl hSane hσ hμ hS
    (rotation_exact hC hne hT hK hg hθ) (rotation_contracts hC hne hT hK hg hσ hD' hμ hDU hθ) q1' q2' q3' q4' hst.assignment u2 hc hst le_rfl hr
  obtain ⟨o', v1, v2, v3⟩ := (stores_of_holds hC q4).update h.assignment.1 (fun v => (hv v).symm) (fun v hv' => hp v ((hv v).2 hv'))
  rw [← hal] at v1
  have h4'' : (q.assignments.map fin).updateStorageLayout CE a.layout = .ok (o.map fin) := h4
  rw [hl.updateStorageLayout, v1] at h4''
  have hoo : o' = o := assign_map_fin (Except.ok.inj h4'')
  subst hoo
  refine ⟨o', log, θ', k, hol, v3.holds h.sameVars, hsolve, hk, fun hverb => ⟨l, ?_⟩, cost θ' q5, q6, fun y hy => angleCost_growth hD hy θ'⟩
  rw [h5, hverb]
  show l ++ [Msg.terminated q.iterations (fin q.cost)] = _
  rw [q1, hcost']

/-- **C117**, dogleg, with minimum step quality at most 1, from the same rotations: the cost stays the sum of the squared weighted
differences of angles, and once the radius, tripled `K` times, is large enough, every further step shrinks the excess as a Gauss-Newton step
does. -/
theorem C117_dogleg (hC : GoodClasses C) (fs : List Factor) (hne : fs ≠ []) (m w : Factor → ℝ)
    (hT : ∀ f ∈ fs, MeasuresAngle F (m f) (w f) f)
    (hK : ∀ f ∈ fs, ∀ v ∈ f.vars, C v.ty = SO2Variable) (vars : List Var) (σ : ℝ) (hσ : 0 < σ) (hD : DeterminesAngles fs w vars σ)
    (μ : ℝ → ℝ) (hμ : ∀ l, 0 ≤ l → 0 ≤ μ l) :
    ∃ g, Graph.make C fs = .ok g ∧ ∀ CE gE, Lifts CE gE C (g.ops F C) → ∀ θ, WithinHalfTurn fs m w θ →
      ∀ a, Holds C fs vars (fun v => turnBy (θ v)) a →
      ∀ sE s, LiftsDogleg sE s → AllJacobians C (g.ops F C) (Graph.variablesOf fs) (TotalSolver s.linear) → ZeroAtZero s.linear →
        AllJacobians C (g.ops F C) (Graph.variablesOf fs) (DampedUpTo μ s.linear) →
        s.stepQualityMin ≤ 1 → 0 < s.radiusInitial →
        ∃ (o : Assign ℝ) (log : List (Msg Ext)) (θ' : Var → ℝ) (k : Nat), o.layout = a.layout ∧ Holds C fs vars (fun v => turnBy (θ' v)) o ∧
          (∀ fuel : Nat, max 1 s.maxIterations ≤ fuel → sE.solve CE gE fuel (a.map fin) = .ok (some (o.map fin, log))) ∧
          1 ≤ k ∧ (sE.verbose = true → ∃ l, log = l ++ [.terminated k (fin (angleCost fs m w θ'))]) ∧
          HasCost F fs (fun v => turnBy (θ' v)) (angleCost fs m w θ') ∧ angleCost fs m w θ' ≤ angleCost fs m w θ ∧
          ∀ K : Nat, angleCost fs m w θ ≤ σ * (3 ^ K * s.radiusInitial) ^ 2 →
            Nears fs m w vars σ ((μ 0 / (σ + μ 0)) ^ 2) (k - K) θ θ' := by
  have hfs : ∀ f ∈ fs, FactorWF F C f := fun f hf => (measuresAngle_wf (hT f hf) (hK f hf)).1
  have hpos : ∀ f ∈ fs, ∀ v ∈ f.vars, 0 < (C v.ty).paramDim := fun f hf v hv => by rw [hK f hf v hv]; decide
  obtain ⟨g, hg, hret⟩ := C72_solve_returns F C hC fs hne hfs hpos
  obtain ⟨g', hg', hG⟩ := graph_ok (F := F) hfs hne
  rw [hg] at hg'; cases hg'
  obtain ⟨g', hg', hSane⟩ := sane_graph (F := F) hC hfs hne
  rw [hg] at hg'; cases hg'
  refine ⟨g, hg, fun CE gE hl θ hθ a h sE s hS hTS hZ hDU q1' q2' => ?_⟩
  have hs := variablesOf_spec fs
  have hv : ∀ v, v ∈ vars ↔ v ∈ Graph.variablesOf fs := fun v => by rw [h.sameVars, hs.2]
  have hperm : vars.Perm (Graph.variablesOf fs) := (List.perm_ext_iff_of_nodup h.assignment.1 hs.1).2 hv
  have hD' := DeterminesAngles.perm hperm hD
  have hp : ∀ v ∈ vars, 0 < (C v.ty).paramDim := fun v hv => by
    obtain ⟨f, hf, hv⟩ := (h.sameVars v).1 hv; exact hpos f hf v hv
  have hal : a.layout = Layout.make C vars false := by rw [h.assignment.2.1, h.isGlobal]
  have cost : ∀ θ', angleCost fs m w θ' ≤ angleCost fs m w θ → HasCost F fs (fun v => turnBy (θ' v)) (angleCost fs m w θ') := by
    intro θ' hle
    obtain ⟨c, h1, -, h3⟩ := C117_cost fs m w hT θ'
    rwa [h3 (hθ θ' hle)] at h1
  obtain ⟨o, log, ho, hol, hsolve⟩ := (hret CE gE hl vars a h.assignment h.isGlobal h.sameVars).2.2.1 sE s hS hTS hZ q2'
  obtain ⟨b₀, u1, u2, u3⟩ := (stores_of_holds hC h).update hs.1 hv hp
  rw [← hG.layout] at u1 u2
  obtain ⟨b0, st, st', l, h1, h2, h3, h4, h5⟩ := baseSolve_some.1 (hsolve (max 1 s.maxIterations).toNat (by omega))
  rw [hl.layout, hl.updateStorageLayout] at h1
  obtain ⟨b1, hb1, rfl⟩ := py_map_eq_ok.1 h1
  have hb1' : a.updateStorageLayout C g.layout = .ok b1 := hb1
  rw [u1] at hb1'; cases hb1'
  obtain ⟨k, -, hr, hd⟩ := runs_of_whileLoop h3
  obtain ⟨c, r, hc, rfl⟩ := (doglegInit_fin hl hS).1 h2
  have hk : 1 ≤ k := by
    cases k with
    | zero => cases hr; cases hd
    | succ k => omega
  have hst := u3.holds hs.2
  obtain ⟨q, θ', rfl, -, q4, q5, q1, hcost', -, q6⟩ := exact_dogleg hl hSane hσ hμ hS (rotation_exact hC hne hT hK hg hθ)
    (rotation_contracts hC hne hT hK hg hσ hD' hμ hDU hθ) q1' q2' hst.assignment u2 hc hst le_rfl hr
  obtain ⟨o', v1, v2, v3⟩ := (stores_of_holds hC q4).update h.assignment.1 (fun v => (hv v).symm) (fun v hv' => hp v ((hv v).2 hv'))
  rw [← hal] at v1
  have h4'' : (q.assignments.map fin).updateStorageLayout CE a.layout = .ok (o.map fin) := h4
  rw [hl.updateStorageLayout, v1] at h4''
  have hoo : o' = o := assign_map_fin (Except.ok.inj h4'')
  subst hoo
  refine ⟨o', log, θ', k, hol, v3.holds h.sameVars, hsolve, hk, fun hverb => ⟨l, ?_⟩, cost θ' q5, q5, fun K hK' =>
    ⟨q6 K hK', fun y hy => angleCost_growth hD hy θ'⟩⟩
  rw [h5, hverb]
  show l ++ [Msg.terminated q.iterations (fin q.cost)] = _
  rw [q1, hcost']
end

theorem Ring3.stays {a o : Assign ℝ} (h : Holds Ring3.C Ring3.fs [Ring3.v0, Ring3.v1, Ring3.v2] (fun v => turnBy (Ring3.thirds v)) a)
    {θ' : Var → ℝ} (h1 : o.layout = a.layout) (h2 : Holds Ring3.C Ring3.fs [Ring3.v0, Ring3.v1, Ring3.v2] (fun v => turnBy (θ' v)) o)
    (hle : angleCost Ring3.fs Ring3.m (fun _ => 1) θ' ≤ angleCost Ring3.fs Ring3.m (fun _ => 1) Ring3.thirds) : o = a := by
  obtain ⟨t0, t1, t2⟩ := Ring3.low hle
  have hst := storage_congr (stores_of_holds Ring3.classes h) (stores_of_holds Ring3.classes h2) (fun v hv => by
    simp only [List.mem_cons, List.not_mem_nil, or_false] at hv
    rcases hv with rfl | rfl | rfl
    · rw [t0]; simp [Ring3.thirds, Ring3.v0]
    · rw [t1]; simp [Ring3.thirds, Ring3.v1]
    · rw [t2, show Ring3.thirds Ring3.v2 = 4 * Real.pi / 3 by simp [Ring3.thirds, Ring3.v2]; ring])
  cases o; cases a
  simp only at hst h1
  rw [hst, h1]

/-- **C117, not the best rotations**, with CHOLMOD and default settings: from thirds of a turn (see `C117_not_global`) the three solvers
with termination tests return the initial rotations. -/
theorem C117_not_global_defaults (stale : Pattern → ScipyCoo ℝ → ℝ → List ℝ → Py (List ℝ)) (addr : Nat) :
    ∃ g, Graph.make Ring3.C Ring3.fs = .ok g ∧ ∀ CE gE, Lifts CE gE Ring3.C (g.ops Ring3.F Ring3.C) →
      ∀ a, Holds Ring3.C Ring3.fs [Ring3.v0, Ring3.v1, Ring3.v2] (fun v => turnBy (Ring3.thirds v)) a →
        let L : LinSolver ℝ := fun A b l _ => (cholmodSolve stale .empty addr A b l).1
        (∀ sE, LiftsGN sE (GaussNewton.defaults L) →
          ∃ log : List (Msg Ext), ∀ fuel : Nat, 100 ≤ fuel → sE.solve CE gE fuel (a.map fin) = .ok (some (a.map fin, log))) ∧
        (∀ sE, LiftsLM sE (LevenbergMarquardt.defaults L) →
          ∃ log : List (Msg Ext), ∀ fuel : Nat, 100 ≤ fuel → sE.solve CE gE fuel (a.map fin) = .ok (some (a.map fin, log))) ∧
        (∀ sE, LiftsDogleg sE (Dogleg.defaults L) →
          ∃ log : List (Msg Ext), ∀ fuel : Nat, 100 ≤ fuel → sE.solve CE gE fuel (a.map fin) = .ok (some (a.map fin, log))) := by
  have hne : Ring3.fs ≠ [] := by simp [Ring3.fs]
  have hwf : ∀ f ∈ Ring3.fs, FactorWF Ring3.F Ring3.C f := fun f hf => (measuresAngle_wf (Ring3.measures f hf) fun _ _ => rfl).1
  obtain ⟨σ, hσ, hD⟩ := C117_anchored Ring3.fs (fun _ => 1) (fun _ _ => one_ne_zero) [Ring3.v0, Ring3.v1, Ring3.v2] (by decide) Ring3.same
    Ring3.anchored
  have hμ : ∀ l : ℝ, 0 ≤ l → (0 : ℝ) ≤ l + 1 / 100000 := fun l hl => by positivity
  obtain ⟨g, hg, H1⟩ := C117_solve (F := Ring3.F) Ring3.classes Ring3.fs hne Ring3.m (fun _ => 1) Ring3.measures
    (fun _ _ _ _ => rfl) _ σ hσ hD (fun l => l + 1 / 100000) (by norm_num)
  obtain ⟨g', hg', H2⟩ := C117_levenberg_marquardt (F := Ring3.F) Ring3.classes Ring3.fs hne Ring3.m (fun _ => 1) Ring3.measures
    (fun _ _ _ _ => rfl) _ σ hσ hD (fun l => l + 1 / 100000) hμ
  rw [hg] at hg'; cases hg'
  obtain ⟨g', hg', H3⟩ := C117_dogleg (F := Ring3.F) Ring3.classes Ring3.fs hne Ring3.m (fun _ => 1) Ring3.measures
    (fun _ _ _ _ => rfl) _ σ hσ hD (fun l => l + 1 / 100000) hμ
  rw [hg] at hg'; cases hg'
  obtain ⟨g', hg', hTS⟩ := C72_cholmod Ring3.F Ring3.C Ring3.classes Ring3.fs hne hwf stale addr
  rw [hg] at hg'; cases hg'
  obtain ⟨g', hg', hSane⟩ := sane_graph (F := Ring3.F) Ring3.classes hwf hne
  rw [hg] at hg'; cases hg'
  have hDU : AllJacobians Ring3.C (g.ops Ring3.F Ring3.C) (Graph.variablesOf Ring3.fs)
      (DampedUpTo (fun l => l + 1 / 100000) fun A b l _ => (cholmodSolve stale .empty addr A b l).1) := by
    intro a a' c r A h1 h2 h3 h4 h5 h6
    exact C70_cholmod stale .empty addr (hSane.jacobian a a' c r A h1 h2 h3 h4 h5 h6).1 fun p hp => by cases hp
  refine ⟨g, hg, fun CE gE hl a h => ⟨fun sE hS => ?_, fun sE hS => ?_, fun sE hS => ?_⟩⟩
  · obtain ⟨o, log, θ', k, h1, h2, h3, -, -, -, h4, -⟩ := (H1 CE gE hl _ Ring3.within a h).1 sE _ hS hTS hDU
    have h5 := h4 Ring3.thirds
    rw [sub_self, mul_zero] at h5
    rw [Ring3.stays h h1 h2 (by linarith)] at h3
    exact ⟨log, fun fuel hf => h3 fuel (by show max 1 (100 : Int) ≤ _; omega)⟩
  · obtain ⟨o, log, θ', k, h1, h2, h3, -, -, -, h4, -⟩ := H2 CE gE hl _ Ring3.within a h sE _ hS hTS hDU
      (by norm_num [LevenbergMarquardt.defaults]) (by norm_num [LevenbergMarquardt.defaults]) (by norm_num [LevenbergMarquardt.defaults])
      (by norm_num [LevenbergMarquardt.defaults])
    have h5 := h4 Ring3.thirds
    rw [sub_self, mul_zero] at h5
    rw [Ring3.stays h h1 h2 (by linarith)] at h3
    exact ⟨log, fun fuel hf => h3 fuel (by show max 1 (100 : Int) ≤ _; omega)⟩
  · obtain ⟨o, log, θ', k, h1, h2, h3, -, -, -, h4, -⟩ := H3 CE gE hl _ Ring3.within a h sE _ hS hTS (cholmod_zeroAtZero stale addr) hDU
      (by norm_num [Dogleg.defaults]) (by norm_num [Dogleg.defaults])
    rw [Ring3.stays h h1 h2 h4] at h3
    exact ⟨log, fun fuel hf => h3 fuel (by show max 1 (100 : Int) ≤ _; omega)⟩

end Jaxfg.Props
