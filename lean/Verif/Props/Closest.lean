/- C115: linear problems whose measurements do not determine the variables. -/
import Verif.Lemmas.Closest
import Verif.Lemmas.ExampleDeriv
import Verif.Props.Accuracy

namespace Jaxfg.Props
open Spec
open Ext (fin)
open Matrix hiding vec

section
variable {F : Nat → FactorClass} {C : Ty → VarClass ℝ}

/-- Measurements that determine the variables determine what they see of them. -/
theorem determinesSeen_of_determines {fs : List Factor} {vars : List Var} {σ : ℝ} (h : Determines F C fs vars σ) :
    DeterminesSeen F C fs vars σ := fun val val' w w' hv hw =>
  ⟨val', fun v hv' => (hv v hv').2, fun f hf => (hw f hf).2, h val val' w w' hv hw⟩

/-- **C115, what is seen is determined.** For every linear problem with Gaussian noise there is a `σ > 0` such that the measurements
determine, up to `σ`, whatever they see of the variables. -/
theorem C115_determined (hC : GoodClasses C) (fs : List Factor) (hne : fs ≠ []) (hfs : ∀ f ∈ fs, FactorWF F C f)
    (hgauss : ∀ f ∈ fs, NoiseGaussian f.noise) (haff : ∀ f ∈ fs, AffineFactor F C f) (vars : List Var) (hn : vars.Nodup)
    (hvars : ∀ v, v ∈ vars ↔ ∃ f ∈ fs, v ∈ f.vars) (hE : UsesDefaultRetraction C vars) :
    ∃ σ : ℝ, 0 < σ ∧ DeterminesSeen F C fs vars σ := by
  obtain ⟨g, hg, hG⟩ := graph_ok (F := F) hfs hne
  have hs := variablesOf_spec fs
  have hv : ∀ v, v ∈ vars ↔ v ∈ Graph.variablesOf fs := fun v => by rw [hvars, hs.2]
  have hperm : vars.Perm (Graph.variablesOf fs) := (List.perm_ext_iff_of_nodup hn hs.1).2 hv
  obtain ⟨M, ρ, h⟩ := linear_graph hC hfs hne hgauss haff (fun v hv' => hE v ((hv v).2 hv')) hg
  obtain ⟨σ, h1, h2⟩ := exists_seen M
  exact ⟨σ, h1, (h.determines hC hfs hperm).2 h2⟩

/-- **C115, the closest optimum.** Every linear problem with Gaussian noise has optima, and among them exactly one that is closest to the
given values. -/
theorem C115_closest (hC : GoodClasses C) (fs : List Factor) (hne : fs ≠ []) (hfs : ∀ f ∈ fs, FactorWF F C f)
    (hgauss : ∀ f ∈ fs, NoiseGaussian f.noise) (haff : ∀ f ∈ fs, AffineFactor F C f) (vars : List Var) (hn : vars.Nodup)
    (hvars : ∀ v, v ∈ vars ↔ ∃ f ∈ fs, v ∈ f.vars) (hE : UsesDefaultRetraction C vars) (val : Var → Value ℝ)
    (hval : ∀ v ∈ vars, IsValueOf (C v.ty) (val v)) :
    ∃ m c, IsClosestOptimum F C fs vars val m c ∧
      ∀ m' c', IsClosestOptimum F C fs vars val m' c' → c' = c ∧ ∀ v ∈ vars, m' v = m v := by
  obtain ⟨g, hg, hG⟩ := graph_ok (F := F) hfs hne
  have hs := variablesOf_spec fs
  have hv : ∀ v, v ∈ vars ↔ v ∈ Graph.variablesOf fs := fun v => by rw [hvars, hs.2]
  have hperm : vars.Perm (Graph.variablesOf fs) := (List.perm_ext_iff_of_nodup hn hs.1).2 hv
  obtain ⟨M, ρ, h⟩ := linear_graph hC hfs hne hgauss haff (fun v hv' => hE v ((hv v).2 hv')) hg
  obtain ⟨a, ha⟩ := stored hC hv hval
  obtain ⟨y, hy⟩ := exists_best M ρ (vec a.storage g.localLayout.dim)
  obtain ⟨m, b, hb, hby⟩ := h.reach hC (vec a.storage g.localLayout.dim + (Mᵀ * M) *ᵥ y)
  rw [← hby] at hy
  have hopt := (h.optimum hC hfs hv hb).2 ⟨hy, rfl⟩
  refine ⟨m, _, ⟨hopt, fun m' c' hm' => ?_⟩, ?_⟩
  · obtain ⟨e, he⟩ := stored hC hv hm'.1
    obtain ⟨k1, -⟩ := (h.optimum hC hfs hv he).1 hm'
    rw [h.dist hperm ha hb, h.dist hperm ha he]
    rw [hby] at hy ⊢
    exact hy.closest_of_range k1
  · rintro m' c' ⟨hm', hcl⟩
    obtain ⟨e, he⟩ := stored hC hv hm'.1
    obtain ⟨k1, rfl⟩ := (h.optimum hC hfs hv he).1 hm'
    refine ⟨le_antisymm (k1 _) (hy _), ?_⟩
    obtain ⟨z, hz⟩ := k1.closest (x₀ := vec a.storage g.localLayout.dim) fun x hx => by
      obtain ⟨m'', e', he', rfl⟩ := h.reach hC x
      have := hcl _ _ ((h.optimum hC hfs hv he').2 ⟨hx, rfl⟩)
      rwa [h.dist hperm ha he, h.dist hperm ha he'] at this
    -- two seen directions with the same residual are equal
    have h0 := hy.unseen k1
    have h1 : vec e.storage g.localLayout.dim - vec b.storage g.localLayout.dim = (Mᵀ * M) *ᵥ (z - y) := by
      rw [hz, hby, mulVec_sub]; abel
    have h2 := range_orthogonal h0 (z - y)
    rw [← h1] at h2
    have h3 := sub_eq_zero.1 (dotProduct_self_eq_zero.1 h2)
    have h4 : e.storage = b.storage := by
      rw [← ofVec_vec (h.size _ _ he), h3, ofVec_vec (h.size _ _ hb)]
    intro v hv'
    have hv'' := (hv v).1 hv'
    have e1 := (he.holds hs.2).values v hv''
    have e2 := (hb.holds hs.2).values v hv''
    have : e = b := by
      obtain ⟨s1, l1⟩ := e
      obtain ⟨s2, l2⟩ := b
      have q1 := he.1.layout; have q2 := hb.1.layout
      simp only at h4 q1 q2
      rw [h4, q1, q2]
    rw [this, e2] at e1
    exact (Except.ok.inj e1).symm

/-- From what the solver does with the graph to what it does with values. -/
theorem solves_to_closest (hC : GoodClasses C) {fs : List Factor} (hfs : ∀ f ∈ fs, FactorWF F C f) (hne : fs ≠ [])
    (hpos : ∀ f ∈ fs, ∀ v ∈ f.vars, 0 < (C v.ty).paramDim) {g : Graph} (hG : GraphOf F C fs g)
    {M : Matrix (Fin g.residualDim) (Fin g.localLayout.dim) ℝ} {ρ : Fin g.residualDim → ℝ} (h : LinearGraph F C fs g M ρ) {σ θ : ℝ}
    (hM : ∀ v, σ * ((M *ᵥ v) ⬝ᵥ (M *ᵥ v)) ≤ ((Mᵀ * M) *ᵥ v) ⬝ᵥ ((Mᵀ * M) *ᵥ v)) {vars : List Var} {val : Var → Value ℝ}
    {a b₀ : Assign ℝ} (ha : Holds C fs vars val a) (u1 : a.updateStorageLayout C g.layout = .ok b₀) (u2 : b₀.layout = g.layout)
    (u3 : Stores C (Graph.variablesOf fs) val b₀) {N : Int} {solve : Nat → Assign Ext → Py (Option (Assign Ext × List (Msg Ext)))}
    (hret : Returns C solve N vars a) (hrun : Excess C (g.ops F C) (Graph.variablesOf fs) a θ solve)
    (hkept : ∀ x : List ℝ, x.length = g.localLayout.dim → M *ᵥ vec x g.localLayout.dim = 0 → ReturnsOnly solve a fun o =>
      o.layout = a.layout ∧ ∃ val' b', Holds C fs vars val' o ∧ Stores C (Graph.variablesOf fs) val' b' ∧
        vdot x b'.storage = vdot x b₀.storage) : SolvesToClosest F C fs vars σ θ val a N solve := by
  have hs := variablesOf_spec fs
  have hv : ∀ v, v ∈ vars ↔ v ∈ Graph.variablesOf fs := fun v => by rw [ha.sameVars, hs.2]
  have hp : ∀ v ∈ vars, 0 < (C v.ty).paramDim := fun v hv => by
    obtain ⟨f, hf, hv⟩ := (ha.sameVars v).1 hv; exact hpos f hf v hv
  have hperm : vars.Perm (Graph.variablesOf fs) := (List.perm_ext_iff_of_nodup ha.assignment.1 hs.1).2 hv
  obtain ⟨o, log, ho, hol, hsolve⟩ := hret
  obtain ⟨c₀, r₀, k1, k2⟩ := hasCost_of_holds hC hfs hne hG (u3.holds hs.2)
  obtain ⟨b, c, r, b1, b2, b3, b4, b5⟩ := hrun _ _ _ b₀ c₀ r₀ (hsolve (max 1 N).toNat (by omega)) u1 u3.1.isAssignment u2 k1
  -- the values that are returned
  obtain ⟨f, hf⟩ := exists_rep b1
  have b2 : b.layout = g.layout := b2
  have hfl : b.layout.localFlag = false := by rw [b2, hG.layout]; rfl
  rw [hfl] at hf
  obtain ⟨val', hval'⟩ : ∃ val' : Var → Value ℝ, val' = fun v => unravel (C v.ty).default (f v) := ⟨_, rfl⟩
  have hb : Holds C fs (Graph.variablesOf fs) val' b := ⟨b1, hfl, hs.2, fun v hv => by rw [hval']; exact hf.getValue_ok hv⟩
  have hbs := stores_of_holds hC hb
  have hal : a.layout = Layout.make C vars false := by rw [ha.assignment.2.1, ha.isGlobal]
  obtain ⟨o', v1, v2, v3⟩ := hbs.update ha.assignment.1 (fun v => (hv v).symm) (fun v hv' => hp v ((hv v).2 hv'))
  rw [← hal] at v1
  rw [v1] at b3
  have hoo : o' = o := assign_map_fin (Except.ok.inj b3)
  subst hoo
  obtain ⟨c2, r2, l1, l2⟩ := hasCost_of_holds hC hfs hne hG hb
  have b4 : g.computeCost F C b = .ok (c, r) := b4
  rw [b4] at l1; cases l1
  have hoh := v3.holds ha.sameVars
  refine ⟨o', log, val', c₀, c, hol, hoh, k2, l2, hsolve, ?_⟩
  rintro m c' ⟨hopt, hcl⟩
  obtain ⟨e, he⟩ := stored hC hv hopt.1
  obtain ⟨hbest, rfl⟩ := (h.optimum hC hfs hv he).1 hopt
  obtain ⟨c1, r1, q1, q2⟩ := hasCost_of_holds hC hfs hne hG (he.holds hs.2)
  have hc1 := HasCost.unique q2 (h.cost hC hfs he)
  refine ⟨hc1 ▸ b5 e c1 r1 he.1.isAssignment (by show e.layout = g.layout; rw [he.1.layout, hG.layout]) q1, ?_⟩
  -- the returned values differ from the initial ones in a direction that is seen
  obtain ⟨y, hy⟩ : ∃ y, vec b.storage g.localLayout.dim - vec b₀.storage g.localLayout.dim = (Mᵀ * M) *ᵥ y := by
    apply range_of_orthogonal
    intro x hx
    obtain ⟨o, ho1, -, val'', b'', z1, z2, z3⟩ := hkept (ofVec x) (length_ofVec x) (by rw [vec_ofVec, hx]) _ _ _
      (hsolve (max 1 N).toNat (by omega))
    obtain rfl : o' = o := assign_map_fin ho1
    have hval : ∀ v ∈ Graph.variablesOf fs, val'' v = val' v := fun v hv' => by
      have e1 := z1.values v ((hv v).2 hv')
      rw [hoh.values v ((hv v).2 hv')] at e1
      exact (Except.ok.inj e1).symm
    rw [← storage_congr hbs z2 hval, vdot_eq (length_ofVec x) (h.size _ _ hbs), vdot_eq (length_ofVec x) (h.size _ _ u3), vec_ofVec] at z3
    rw [dotProduct_sub, z3, sub_self]
  obtain ⟨z, hz⟩ := hbest.closest (x₀ := vec b₀.storage g.localLayout.dim) fun x hx => by
    obtain ⟨m'', e', he', rfl⟩ := h.reach hC x
    have := hcl _ _ ((h.optimum hC hfs hv he').2 ⟨hx, rfl⟩)
    rwa [h.dist hperm u3 he, h.dist hperm u3 he'] at this
  have hd : vec b.storage g.localLayout.dim - vec e.storage g.localLayout.dim = (Mᵀ * M) *ᵥ (y - z) := by
    rw [hz, mulVec_sub, ← hy]; abel
  rw [h.dist hperm hbs he, HasCost.unique l2 (h.cost hC hfs hbs), hbest.gap, hd]
  exact range_stiff hM _

/-- **C115, `solve`.** Linear factors with Gaussian noise, CHOLMOD, any initial values in any storage order, whether or not the
measurements determine the variables: `solve` returns, and one step already brings the excess of the cost over the least one down to the
square of `μ / (σ + μ)` times the initial one, where `μ` is the damping of the first step and `σ` says how well the measurements
determine what they see. The returned values are close to the optimum that is closest to the initial values: the squared distance is at
most `1 / σ` times the remaining excess. The fixed-iteration solver with `n` iterations has the `n`-th power. -/
theorem C115_solve (hC : GoodClasses C) (fs : List Factor) (hne : fs ≠ []) (hfs : ∀ f ∈ fs, FactorWF F C f)
    (hpos : ∀ f ∈ fs, ∀ v ∈ f.vars, 0 < (C v.ty).paramDim)
    (hgauss : ∀ f ∈ fs, NoiseGaussian f.noise) (haff : ∀ f ∈ fs, AffineFactor F C f) (vars : List Var) (hn : vars.Nodup)
    (hvars : ∀ v, v ∈ vars ↔ ∃ f ∈ fs, v ∈ f.vars) (hE : UsesDefaultRetraction C vars) (σ : ℝ) (hσ : 0 < σ)
    (hD : DeterminesSeen F C fs vars σ) (stale : Pattern → ScipyCoo ℝ → ℝ → List ℝ → Py (List ℝ)) (addr : Nat) :
    ∃ g, Graph.make C fs = .ok g ∧ ∀ CE gE, Lifts CE gE C (g.ops F C) → ∀ val a, Holds C fs vars val a →
      let L : LinSolver ℝ := fun A b l _ => (cholmodSolve stale .empty addr A b l).1
      (∀ sE s, LiftsGN sE s → s.linear = L →
        SolvesToClosest F C fs vars σ ((1 / 100000 / (σ + 1 / 100000)) ^ 2) val a s.maxIterations (sE.solve CE gE)) ∧
      (∀ sE s, LiftsLM sE s → s.linear = L → s.stepQualityMin ≤ 1 → 0 ≤ s.lambdaInitial → 1 ≤ s.lambdaFactor → 0 ≤ s.lambdaMin →
        SolvesToClosest F C fs vars σ (((s.lambdaInitial + 1 / 100000) / (σ + (s.lambdaInitial + 1 / 100000))) ^ 2) val a
          s.maxIterations (sE.solve CE gE)) ∧
      (∀ sE s c₀, LiftsDogleg sE s → s.linear = L → s.stepQualityMin ≤ 1 → 0 < s.radiusInitial → HasCost F fs val c₀ →
        c₀ ≤ σ * s.radiusInitial ^ 2 →
        SolvesToClosest F C fs vars σ ((1 / 100000 / (σ + 1 / 100000)) ^ 2) val a s.maxIterations (sE.solve CE gE)) ∧
      (∀ (sE : FixedIteration Ext) (n : Nat), LiftsSolver sE.linear L → a.layout = g.layout → 1 ≤ n → sE.iterations = n →
        SolvesToClosest F C fs vars σ (((1 / 100000 / (σ + 1 / 100000)) ^ 2) ^ n) val a sE.iterations (sE.solve CE gE)) := by
  obtain ⟨g, hg, hT⟩ := total_graph (F := F) hC hfs hne
  obtain ⟨g', hg', hG⟩ := graph_ok (F := F) hfs hne
  rw [hg] at hg'; cases hg'
  obtain ⟨g', hg', hret⟩ := C72_solve_returns F C hC fs hne hfs hpos
  rw [hg] at hg'; cases hg'
  obtain ⟨g', hg', htot⟩ := C72_cholmod F C hC fs hne hfs stale addr
  rw [hg] at hg'; cases hg'
  have hs := variablesOf_spec fs
  have hv : ∀ v, v ∈ vars ↔ v ∈ Graph.variablesOf fs := fun v => by rw [hvars, hs.2]
  have hp : ∀ v ∈ vars, 0 < (C v.ty).paramDim := fun v hv => by
    obtain ⟨f, hf, hv⟩ := (hvars v).1 hv; exact hpos f hf v hv
  have hperm : vars.Perm (Graph.variablesOf fs) := (List.perm_ext_iff_of_nodup hn hs.1).2 hv
  have hE' : UsesDefaultRetraction C (Graph.variablesOf fs) := fun v hv' => hE v ((hv v).2 hv')
  have hEf : ∀ f ∈ fs, UsesDefaultRetraction C f.vars := fun f hf v hv' => hE v ((hvars v).2 ⟨f, hf, hv'⟩)
  have haffg := affine_graph hC hfs hne hgauss haff hg
  obtain ⟨M, ρ, h⟩ := linear_graph hC hfs hne hgauss haff hE' hg
  have hM := (h.determines hC hfs hperm).1 hD
  have held : ∀ u, IsAssignmentOf C (Graph.variablesOf fs) u → u.layout = g.layout →
      ∃ val, Holds C fs (Graph.variablesOf fs) val u := by
    intro u hu hul
    have hfl : u.layout.localFlag = false := by rw [hul, hG.layout]; rfl
    obtain ⟨f, hf⟩ := exists_rep hu
    rw [hfl] at hf
    exact ⟨_, hu, hfl, hs.2, fun v hv => hf.getValue_ok hv⟩
  have hL : AllJacobians C (g.ops F C) (Graph.variablesOf fs)
      (Contracts σ (fun l => l + 1 / 100000) fun A b l _ => (cholmodSolve stale .empty addr A b l).1) := by
    intro a a' c r A h1 h2 h3 h4 h5 h6
    obtain ⟨va, hva⟩ := held a h1 h2
    obtain ⟨va', hva'⟩ := held a' h3 h4
    obtain ⟨w, hw⟩ := hva'.whitened hC hfs
    have hcost := cost_ok _ _ hC hne hfs hG hva' fun f hf => (hw f hf).1
    have h5 : g.computeCost F C a' = .ok (c, r) := h5
    obtain ⟨-, rfl⟩ := Prod.mk.inj (Except.ok.inj (hcost.symm.trans h5))
    obtain ⟨k1, k2, k3⟩ := h.jacobian va a w A hva (fun f hf => (hw f hf).2) h6
    refine contracts_of_seen hσ (fun l hl => by positivity) ?_ fun b l i x hb hl hx => ?_
    · obtain ⟨A1, A2, A3, A4⟩ := A
      simp only at k2
      subst k2
      intro v
      simp only [k3]
      exact hM v
    · obtain ⟨hpd, x', j1, j2, j3, -⟩ := C35_cholmod stale .empty addr A k1 b hb l hl (fun p hp => by cases hp)
      have hx : (cholmodSolve stale .empty addr A b l).1 = .ok x := hx
      rw [j1] at hx
      cases Except.ok.inj hx
      exact ⟨j2, j3⟩
  have hμ : ∀ l : ℝ, 0 ≤ l → 0 ≤ (fun l : ℝ => l + 1 / 100000) l := fun l hl => by simp only; linarith
  refine ⟨g, hg, fun CE gE hl val a ha => ?_⟩
  obtain ⟨hr1, hr2, hr3, hr4⟩ := hret CE gE hl vars a ha.assignment ha.isGlobal hvars
  obtain ⟨b₀, u1, u2, u3⟩ := (stores_of_holds hC ha).update hs.1 hv hp
  rw [← hG.layout] at u1 u2
  have hkept := fun (x : List ℝ) (hx : x.length = g.localLayout.dim) (h0 : M *ᵥ vec x g.localLayout.dim = 0) =>
    orthogonal_kept F C hC hne hfs hpos hEf hG hx (fun val a w A h1 h2 h3 => by
      obtain ⟨-, k2, k3⟩ := h.jacobian val a w A h1 h2 h3
      obtain ⟨A1, A2, A3, A4⟩ := A
      simp only at k2
      subst k2
      simp only [k3]
      exact h0) hl ha u3
  have l1 : SizedSolutions (fun A b l _ => (cholmodSolve stale .empty addr A b l).1) := cholmod_sized stale addr
  have l2 := C113_cholmod_orthogonal stale addr
  have l3 := cholmod_zeroAtZero stale addr
  refine ⟨fun sE s hsE hlin => ?_, fun sE s hsE hlin p0 p1 p2 p3 => ?_, fun sE s c₀' hsE hlin p0 p1 hc₀' hle => ?_,
    fun sE n hsE hlay hn1 hn => ?_⟩
  · rw [← hlin] at hL htot l1 l2
    have := excess_gauss_newton (a := a) hl hT haffg hE' hσ hμ hsE hL
    simp only [zero_add] at this
    exact solves_to_closest hC hfs hne hpos hG h hM ha u1 u2 u3 (hr1 sE s hsE htot) this
      fun x hx h0 => (hkept x hx h0).1 sE s hsE l1 l2
  · rw [← hlin] at hL htot l1 l2
    exact solves_to_closest hC hfs hne hpos hG h hM ha u1 u2 u3 (hr2 sE s hsE htot (by linarith) p3 p1)
      (excess_levenberg_marquardt hl hT haffg hE' hσ hμ hsE hL p0 p1 p2 p3)
      fun x hx h0 => (hkept x hx h0).2.1 sE s hsE l1 l2 (by linarith)
  · rw [← hlin] at hL htot l1 l2 l3
    have := excess_dogleg (a := a) hl hT haffg hE' hσ hμ hsE l3 hL p0 p1 fun b₀' c₀ r₀ hb₀ hcost => by
      obtain rfl : b₀ = b₀' := Except.ok.inj (u1.symm.trans hb₀)
      obtain ⟨c2, r2, j1, j2⟩ := hasCost_of_holds hC hfs hne hG (u3.holds hs.2)
      obtain ⟨rfl, -⟩ := Prod.mk.inj (Except.ok.inj (j1.symm.trans hcost))
      rw [HasCost.unique j2 hc₀']
      exact hle
    simp only [zero_add] at this
    exact solves_to_closest hC hfs hne hpos hG h hM ha u1 u2 u3 (hr3 sE s hsE htot l3 p1) this
      fun x hx h0 => (hkept x hx h0).2.2.1 sE s hsE l1 l2 l3 p1
  · have := excess_fixed_iteration (a := a) hl hT haffg hE' hsE hL hlay hn1 hn
    simp only [zero_add] at this
    exact solves_to_closest hC hfs hne hpos hG h hM ha u1 u2 u3 (hr4 sE _ hsE htot hlay) this
      fun x hx h0 => (hkept x hx h0).2.2.2 sE _ hsE l1 l2 hlay

end

/-! ### The test of orders without its priors -/

/-- The pair factors of tests/test_variable_and_factor_ordering.py alone. -/
noncomputable def pairFactors (n : Nat) (q₁ q₂ : ℝ) : List Factor :=
  [orderingPair ⟨0, n⟩ ⟨1, n + 2⟩ q₁, orderingPair ⟨0, n + 1⟩ ⟨1, n + 2⟩ q₂]

theorem pairFactors_subset (n : Nat) (q₁ q₂ : ℝ) : ∀ f ∈ pairFactors n q₁ q₂, f ∈ orderingFactors n 0 0 q₁ q₂ := by
  intro f hf
  simp only [pairFactors, List.mem_cons, List.not_mem_nil, or_false] at hf
  simp only [orderingFactors, List.mem_cons, List.not_mem_nil, or_false]
  tauto

theorem pairFactors_cost (n : Nat) (q₁ q₂ x y z : ℝ) {val : Var → Value ℝ} (hx : val ⟨0, n⟩ = ⟨0, [⟨[], [x]⟩]⟩)
    (hy : val ⟨0, n + 1⟩ = ⟨0, [⟨[], [y]⟩]⟩) (hz : val ⟨1, n + 2⟩ = ⟨0, [⟨[], [z]⟩]⟩) :
    HasCost orderingFactorClasses (pairFactors n q₁ q₂) val ((x + z - q₁) ^ 2 + (y + z - q₂) ^ 2) := by
  refine ⟨fun f => match whitenedAt orderingFactorClasses val f with | .ok w => w | .error _ => [], ?_, ?_⟩
  · intro f hf
    simp only [pairFactors, List.mem_cons, List.not_mem_nil, or_false] at hf
    rcases hf with rfl | rfl <;> simp only [orderingPair_whitened]
  · simp only [pairFactors, List.map_cons, List.map_nil, orderingPair_whitened, hx, hy, hz]
    simp [sqNorm, Value.flatten]

/-- The values `x`, `y` and `z` of the three variables. -/
noncomputable def threeValues (n : Nat) (x y z : ℝ) (v : Var) : Value ℝ :=
  ⟨0, [⟨[], [if v = ⟨0, n⟩ then x else if v = ⟨0, n + 1⟩ then y else z]⟩]⟩

theorem threeValues_isValue (n : Nat) (x y z : ℝ) (v : Var) : IsValueOf (orderingClasses v.ty) (threeValues n x y z v) := by
  simp [IsValueOf, orderingClasses, VarClass.euclidean, threeValues, WellShaped]

/-- The pair factors determine what they see, with `σ = 1`. -/
theorem pairFactors_determine (n : Nat) (q₁ q₂ : ℝ) :
    DeterminesSeen orderingFactorClasses orderingClasses (pairFactors n q₁ q₂) (orderingVariables n) 1 := by
  intro val val' w w' hv hw
  obtain ⟨⟨x, hx⟩, x', hx'⟩ := (hv ⟨0, n⟩ (by simp [orderingVariables])).imp ordering_value ordering_value
  obtain ⟨⟨y, hy⟩, y', hy'⟩ := (hv ⟨0, n + 1⟩ (by simp [orderingVariables])).imp ordering_value ordering_value
  obtain ⟨⟨z, hz⟩, z', hz'⟩ := (hv ⟨1, n + 2⟩ (by simp [orderingVariables])).imp ordering_value ordering_value
  have w3 := hw (orderingPair ⟨0, n⟩ ⟨1, n + 2⟩ q₁) (by simp [pairFactors])
  have w4 := hw (orderingPair ⟨0, n + 1⟩ ⟨1, n + 2⟩ q₂) (by simp [pairFactors])
  rw [orderingPair_whitened, orderingPair_whitened, hx, hx', hz, hz'] at w3
  rw [orderingPair_whitened, orderingPair_whitened, hy, hy', hz, hz'] at w4
  obtain ⟨p, hp⟩ : ∃ p, p = x - x' + (z - z') := ⟨_, rfl⟩
  obtain ⟨q, hq⟩ : ∃ q, q = y - y' + (z - z') := ⟨_, rfl⟩
  have n1 : threeValues n (x - (2 * p - q) / 3) (y - (2 * q - p) / 3) (z - (p + q) / 3) ⟨0, n⟩ = ⟨0, [⟨[], [x - (2 * p - q) / 3]⟩]⟩ := by
    simp [threeValues]
  have n2 : threeValues n (x - (2 * p - q) / 3) (y - (2 * q - p) / 3) (z - (p + q) / 3) ⟨0, n + 1⟩ =
      ⟨0, [⟨[], [y - (2 * q - p) / 3]⟩]⟩ := by simp [threeValues]
  have n3 : threeValues n (x - (2 * p - q) / 3) (y - (2 * q - p) / 3) (z - (p + q) / 3) ⟨1, n + 2⟩ = ⟨0, [⟨[], [z - (p + q) / 3]⟩]⟩ := by
    simp [threeValues]
  refine ⟨_, fun v _ => threeValues_isValue n (x - (2 * p - q) / 3) (y - (2 * q - p) / 3) (z - (p + q) / 3) v, fun f hf => ?_, ?_⟩
  · simp only [pairFactors, List.mem_cons, List.not_mem_nil, or_false] at hf
    rcases hf with rfl | rfl
    · rw [← Except.ok.inj w3.2, orderingPair_whitened, n1, n3]
      simp [Value.flatten, hp, hq]; ring
    · rw [← Except.ok.inj w4.2, orderingPair_whitened, n2, n3]
      simp [Value.flatten, hp, hq]; ring
  · simp only [pairFactors, orderingVariables, sqDist, List.map_cons, List.map_nil, hx, hy, hz, n1, n2, n3,
      ← Except.ok.inj w3.1, ← Except.ok.inj w3.2, ← Except.ok.inj w4.1, ← Except.ok.inj w4.2]
    simp [sqNorm, Value.flatten]
    have e1 : x + z - (x' + z') = p := by rw [hp]; ring
    have e2 : y + z - (y' + z') = q := by rw [hq]; ring
    rw [e1, e2]
    nlinarith [sq_nonneg (p + q)]

/-- They do not determine the variables. -/
theorem pairFactors_undetermined (n : Nat) (q₁ q₂ : ℝ) {σ : ℝ} (hσ : 0 < σ) :
    ¬ Determines orderingFactorClasses orderingClasses (pairFactors n q₁ q₂) (orderingVariables n) σ := by
  intro h
  have hw : ∀ t : ℝ, ∀ f ∈ pairFactors n q₁ q₂, whitenedAt orderingFactorClasses (threeValues n t t (-t)) f =
      .ok (if f.vars = [⟨0, n⟩, ⟨1, n + 2⟩] then [-q₁] else [-q₂]) := by
    intro t f hf
    simp only [pairFactors, List.mem_cons, List.not_mem_nil, or_false] at hf
    rcases hf with rfl | rfl
    · rw [orderingPair_whitened, if_pos (by rfl)]; simp [threeValues, Value.flatten]
    · rw [orderingPair_whitened, if_neg (by simp [orderingPair])]; simp [threeValues, Value.flatten]
  have := h (threeValues n 1 1 (-1)) (threeValues n 0 0 (-0)) _ _
    (fun v _ => ⟨threeValues_isValue n _ _ _ v, threeValues_isValue n _ _ _ v⟩) fun f hf => ⟨hw 1 f hf, hw 0 f hf⟩
  simp [sqDist, orderingVariables, threeValues, Value.flatten, sqNorm, pairFactors, orderingPair] at this
  linarith

/-- **C115, an example.** The pair factors measure `x + z` and `y + z` only, so `x`, `y` and `z` are not determined. Gauss-Newton and
CHOLMOD shift the initial values `x`, `y`, `z` onto the line of the optima along the shortest way, up to a relative error of `10⁻¹⁰`. -/
theorem C115_pairs (n : Nat) (q₁ q₂ x y z : ℝ) (stale : Pattern → ScipyCoo ℝ → ℝ → List ℝ → Py (List ℝ)) (addr : Nat) :
    ∃ g, Graph.make orderingClasses (pairFactors n q₁ q₂) = .ok g ∧
      ∀ CE gE, Lifts CE gE orderingClasses (g.ops orderingFactorClasses orderingClasses) →
      ∀ vars a, Holds orderingClasses (pairFactors n q₁ q₂) vars (threeValues n x y z) a →
      ∀ sE s, LiftsGN sE s → s.linear = (fun A b l _ => (cholmodSolve stale .empty addr A b l).1) →
      ∃ (o : Assign ℝ) (log : List (Msg Ext)) (x' y' z' : ℝ), o.layout = a.layout ∧
        Holds orderingClasses (pairFactors n q₁ q₂) vars (threeValues n x' y' z') o ∧
        (∀ fuel : Nat, max 1 s.maxIterations ≤ fuel → sE.solve CE gE fuel (a.map fin) = .ok (some (o.map fin, log))) ∧
        let p := x + z - q₁
        let q := y + z - q₂
        (x' - (x - (2 * p - q) / 3)) ^ 2 + (y' - (y - (2 * q - p) / 3)) ^ 2 + (z' - (z - (p + q) / 3)) ^ 2 ≤
          1 / 10 ^ 10 * (p ^ 2 + q ^ 2) := by
  have hmem : ∀ v, v ∈ orderingVariables n ↔ ∃ f ∈ pairFactors n q₁ q₂, v ∈ f.vars := by
    intro v
    simp [orderingVariables, pairFactors, orderingPair]
    tauto
  have hwf : ∀ f ∈ pairFactors n q₁ q₂, FactorWF orderingFactorClasses orderingClasses f := fun f hf =>
    orderingFactors_wf n 0 0 q₁ q₂ f (pairFactors_subset n q₁ q₂ f hf)
  have solve := fun (vars : List Var) (hn : vars.Nodup) (hv : ∀ v, v ∈ vars ↔ ∃ f ∈ pairFactors n q₁ q₂, v ∈ f.vars)
      (hD : DeterminesSeen orderingFactorClasses orderingClasses (pairFactors n q₁ q₂) vars 1) =>
    C115_solve ordering_good (pairFactors n q₁ q₂) (by simp [pairFactors]) hwf (fun f _ v _ => by rw [ordering_paramDim]; omega)
      (fun f hf => orderingFactors_gaussian n 0 0 q₁ q₂ f (pairFactors_subset n q₁ q₂ f hf))
      (fun f hf => orderingFactors_affine n 0 0 q₁ q₂ f (pairFactors_subset n q₁ q₂ f hf)) vars hn hv (fun v _ => rfl) 1 one_pos hD
      stale addr
  obtain ⟨g, hg, -⟩ := solve (orderingVariables n) (by simp [orderingVariables]) hmem (pairFactors_determine n q₁ q₂)
  refine ⟨g, hg, fun CE gE hl vars a ha sE s hsE hlin => ?_⟩
  have hperm : (orderingVariables n).Perm vars := (List.perm_ext_iff_of_nodup (by simp [orderingVariables]) ha.assignment.1).2
    fun v => by rw [hmem, ha.sameVars]
  have hD : DeterminesSeen orderingFactorClasses orderingClasses (pairFactors n q₁ q₂) vars 1 := by
    intro val val' w w' hv hw
    obtain ⟨u, u1, u2, u3⟩ := pairFactors_determine n q₁ q₂ val val' w w' (fun v hv' => hv v (hperm.mem_iff.1 hv')) hw
    exact ⟨u, fun v hv' => u1 v (hperm.mem_iff.2 hv'), u2, by rw [← sqDist_perm hperm]; exact u3⟩
  obtain ⟨g', hg', hsol⟩ := solve vars ha.assignment.1 ha.sameVars hD
  rw [hg] at hg'; cases hg'
  obtain ⟨o, log, val', c₀, c, o1, o2, o3, o4, o5, o6⟩ := (hsol CE gE hl _ a ha).1 sE s hsE hlin
  have hst := stores_of_holds ordering_good o2
  have m1 : (⟨0, n⟩ : Var) ∈ orderingVariables n := by simp [orderingVariables]
  have m2 : (⟨0, n + 1⟩ : Var) ∈ orderingVariables n := by simp [orderingVariables]
  have m3 : (⟨1, n + 2⟩ : Var) ∈ orderingVariables n := by simp [orderingVariables]
  obtain ⟨x', hx⟩ := ordering_value (hst.2 _ (hperm.mem_iff.1 m1))
  obtain ⟨y', hy⟩ := ordering_value (hst.2 _ (hperm.mem_iff.1 m2))
  obtain ⟨z', hz⟩ := ordering_value (hst.2 _ (hperm.mem_iff.1 m3))
  have hvals : ∀ v ∈ vars, val' v = threeValues n x' y' z' v := by
    intro v hv
    have := hperm.mem_iff.2 hv
    simp only [orderingVariables, List.mem_cons, List.not_mem_nil, or_false] at this
    rcases this with rfl | rfl | rfl
    · rw [hx]; simp [threeValues]
    · rw [hy]; simp [threeValues]
    · rw [hz]; simp [threeValues]
  refine ⟨o, log, x', y', z', o1, ⟨o2.assignment, o2.isGlobal, o2.sameVars, fun v hv => by rw [← hvals v hv]; exact o2.values v hv⟩, o5, ?_⟩
  intro p q
  have t1 : ∀ x y z : ℝ, threeValues n x y z ⟨0, n⟩ = ⟨0, [⟨[], [x]⟩]⟩ := fun x y z => by simp [threeValues]
  have t2 : ∀ x y z : ℝ, threeValues n x y z ⟨0, n + 1⟩ = ⟨0, [⟨[], [y]⟩]⟩ := fun x y z => by simp [threeValues]
  have t3 : ∀ x y z : ℝ, threeValues n x y z ⟨1, n + 2⟩ = ⟨0, [⟨[], [z]⟩]⟩ := fun x y z => by simp [threeValues]
  have hdist : ∀ {val val' : Var → Value ℝ} {x y z x' y' z' : ℝ}, val ⟨0, n⟩ = ⟨0, [⟨[], [x]⟩]⟩ → val ⟨0, n + 1⟩ = ⟨0, [⟨[], [y]⟩]⟩ →
      val ⟨1, n + 2⟩ = ⟨0, [⟨[], [z]⟩]⟩ → val' ⟨0, n⟩ = ⟨0, [⟨[], [x']⟩]⟩ → val' ⟨0, n + 1⟩ = ⟨0, [⟨[], [y']⟩]⟩ →
      val' ⟨1, n + 2⟩ = ⟨0, [⟨[], [z']⟩]⟩ → sqDist vars val val' = (x - x') ^ 2 + (y - y') ^ 2 + (z - z') ^ 2 := by
    intro val val' x y z x' y' z' h1 h2 h3 h4 h5 h6
    rw [← sqDist_perm hperm]
    simp only [sqDist, orderingVariables, List.map_cons, List.map_nil, h1, h2, h3, h4, h5, h6]
    simp [sqNorm, Value.flatten]
    ring
  -- the optimum that is closest to `x`, `y`, `z`
  obtain ⟨m, hm⟩ : ∃ m, m = threeValues n (x - (2 * p - q) / 3) (y - (2 * q - p) / 3) (z - (p + q) / 3) := ⟨_, rfl⟩
  have hcost : HasCost orderingFactorClasses (pairFactors n q₁ q₂) m 0 := by
    rw [hm]
    convert pairFactors_cost n q₁ q₂ _ _ _ (t1 _ _ _) (t2 _ _ _) (t3 _ _ _) using 1
    simp only [p, q]; ring
  have hclosest : IsClosestOptimum orderingFactorClasses orderingClasses (pairFactors n q₁ q₂) vars (threeValues n x y z) m 0 := by
    refine ⟨⟨fun v _ => by rw [hm]; exact threeValues_isValue n _ _ _ v, hcost, fun m' c' _ hc' => ?_⟩, fun m' c' hm' => ?_⟩
    · obtain ⟨w, -, rfl⟩ := hc'
      exact List.sum_nonneg fun t ht => by
        obtain ⟨f, -, rfl⟩ := List.mem_map.1 ht
        exact sqNorm_nonneg _
    · obtain ⟨hmv, hc', hle⟩ := hm'
      obtain ⟨a', e1⟩ := ordering_value (hmv _ (hperm.mem_iff.1 m1))
      obtain ⟨b', e2⟩ := ordering_value (hmv _ (hperm.mem_iff.1 m2))
      obtain ⟨d', e3⟩ := ordering_value (hmv _ (hperm.mem_iff.1 m3))
      have h0 := hle m 0 (fun v _ => by rw [hm]; exact threeValues_isValue n _ _ _ v) hcost
      rw [HasCost.unique hc' (pairFactors_cost n q₁ q₂ _ _ _ e1 e2 e3)] at h0
      have s1 : a' + d' - q₁ = 0 := by
        have : (a' + d' - q₁) ^ 2 = 0 := le_antisymm (by nlinarith [sq_nonneg (b' + d' - q₂)]) (sq_nonneg _)
        exact pow_eq_zero_iff two_ne_zero |>.1 this
      have s2 : b' + d' - q₂ = 0 := by
        have : (b' + d' - q₂) ^ 2 = 0 := le_antisymm (by nlinarith [sq_nonneg (a' + d' - q₁)]) (sq_nonneg _)
        exact pow_eq_zero_iff two_ne_zero |>.1 this
      rw [hm, hdist (t1 x y z) (t2 x y z) (t3 x y z) (t1 _ _ _) (t2 _ _ _) (t3 _ _ _),
        hdist (t1 x y z) (t2 x y z) (t3 x y z) e1 e2 e3]
      have ea : a' = q₁ - d' := by linarith
      have eb : b' = q₂ - d' := by linarith
      rw [ea, eb]
      simp only [p, q]
      nlinarith [sq_nonneg (3 * (z - d') - (x + z - q₁ + (y + z - q₂)))]
  obtain ⟨k1, k2⟩ := o6 m 0 hclosest
  rw [hm, hdist hx hy hz (t1 _ _ _) (t2 _ _ _) (t3 _ _ _)] at k2
  have hc₀ : c₀ = p ^ 2 + q ^ 2 := HasCost.unique o3 (pairFactors_cost n q₁ q₂ _ _ _ (t1 x y z) (t2 x y z) (t3 x y z))
  rw [hc₀] at k1
  have l6 : (1 / 100000 / (1 + 1 / 100000) : ℝ) ^ 2 ≤ 1 / 10 ^ 10 := by norm_num
  nlinarith [mul_le_mul_of_nonneg_right l6 (add_nonneg (sq_nonneg p) (sq_nonneg q))]

end Jaxfg.Props
