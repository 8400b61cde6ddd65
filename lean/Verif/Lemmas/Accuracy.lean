/- Lemmas for the accuracy of `solve` on linear problems. -/
import Verif.Spec.Accuracy
import Verif.Spec.LinearRate
import Verif.Lemmas.Affine
import Verif.Lemmas.Symmetry
import Verif.Props.GaussMarkov

namespace Jaxfg
open Spec
open Matrix hiding vec
variable {F : Nat → FactorClass} {C : Ty → VarClass ℝ} {fs : List Factor}

theorem sqDist_perm {vs ws : List Var} (h : vs.Perm ws) (val val' : Var → Value ℝ) : sqDist vs val val' = sqDist ws val val' :=
  (h.map _).sum_eq

theorem stores_exists {ws : List Var} (hn : ws.Nodup) {val : Var → Value ℝ} (hval : ∀ v ∈ ws, IsValueOf (C v.ty) (val v))
    (hlen : ∀ v ∈ ws, (val v).flatten.length = (C v.ty).paramDim) :
    Stores C ws val ⟨(grouped ws).flatMap fun v => (val v).flatten, Layout.make C ws false⟩ :=
  ⟨⟨hn, rfl, hlen, rfl⟩, hval⟩

theorem sqDist_storage {ws : List Var} {val val' : Var → Value ℝ} {a b : Assign ℝ} (ha : Stores C ws val a) (hb : Stores C ws val' b) :
    sqNorm (List.zipWith (· - ·) a.storage b.storage) = sqDist ws val val' := by
  rw [ha.1.storage, hb.1.storage, zipWith_flatMap (fun v hv => by rw [ha.1.len' v hv, hb.1.len' v hv]), Props.sqNorm_flatMap]
  exact ((grouped_perm ws).map _).sum_eq

theorem whitenJacobian_ignores {N : Noise} (h : NoiseGaussian N) (J : Arr ℝ) {r r' : List ℝ} (hl : r.length = r'.length) :
    N.whitenJacobian J r = N.whitenJacobian J r' := by
  cases N with
  | gaussian W => rfl
  | diagonal d => simp only [Noise.whitenJacobian, hl]
  | huber w δ => cases h

theorem determines_stiff (hC : GoodClasses C) (hfs : ∀ f ∈ fs, FactorWF F C f) (hne : fs ≠ [])
    (hgauss : ∀ f ∈ fs, NoiseGaussian f.noise) (haff : ∀ f ∈ fs, AffineFactor F C f)
    (hE : Props.UsesDefaultRetraction C (Graph.variablesOf fs)) {σ : ℝ}
    (hD : Determines F C fs (Graph.variablesOf fs) σ) {g : Graph} (hg : Graph.make C fs = .ok g) :
    AllJacobians C (g.ops F C) (Graph.variablesOf fs) (StiffAtLeast σ) := by
  have hA := affine_graph hC hfs hne hgauss haff hg
  obtain ⟨g', hg', hS⟩ := sane_graph (F := F) hC hfs hne
  rw [hg] at hg'; cases hg'
  obtain ⟨g', hg', hG⟩ := graph_ok (F := F) hfs hne
  rw [hg] at hg'; cases hg'
  have hs := variablesOf_spec fs
  have holds : ∀ a, IsAssignmentOf C (Graph.variablesOf fs) a → a.layout = g.layout →
      ∃ val, Holds C fs (Graph.variablesOf fs) val a := by
    intro a ha hl
    have hfl : a.layout.localFlag = false := by rw [hl, hG.layout]; rfl
    obtain ⟨f, hf⟩ := exists_rep ha
    rw [hfl] at hf
    refine ⟨fun v => unravel (C v.ty).default (f v), ha, hfl, hs.2, fun v hv => hf.getValue_ok hv⟩
  intro a a' c r A ha hl ha' hl' hc hJ
  obtain ⟨val, hv⟩ := holds a ha hl
  obtain ⟨val', hv'⟩ := holds a' ha' hl'
  obtain ⟨w, hw⟩ := hv.whitened hC hfs
  obtain ⟨w', hw'⟩ := hv'.whitened hC hfs
  have hcost := Props.cost_ok _ _ hC hne hfs hG hv (fun f hf => (hw f hf).1)
  have hcost' := Props.cost_ok _ _ hC hne hfs hG hv' (fun f hf => (hw' f hf).1)
  have hr : r = (evalOrder fs).flatMap w' := by
    have : g.computeCost F C a' = .ok (c, r) := hc
    rw [hcost'] at this
    exact (Prod.mk.inj (Except.ok.inj this)).2.symm
  have : ∀ f, ∃ R, f ∈ fs →
      ((F f.cls).jacobians f.self (f.vars.map val)).mapM (fun J => f.noise.whitenJacobian J (w f)) = .ok R := by
    intro f
    by_cases hf : f ∈ fs
    · obtain ⟨R, h1, _⟩ := whitenedJacobians_ok (hfs f hf) (hv.valuesFor hC hf) (hw f hf).2
      exact ⟨R, fun _ => h1⟩
    · exact ⟨[], fun h => absurd h hf⟩
  choose R hR using this
  have hR' : ∀ f ∈ fs, ((F f.cls).jacobians f.self (f.vars.map val)).mapM (fun J => f.noise.whitenJacobian J (w' f)) = .ok (R f) := by
    intro f hf
    rw [← hR f hf]
    congr 1
    funext J
    exact whitenJacobian_ignores (hgauss f hf) J ((hw' f hf).2.trans (hw f hf).2.symm)
  obtain ⟨A₁, j1, -, -, -, -, j2⟩ := jacobian_ok hC hfs hne hG hv (fun f hf => (hw f hf).2) hR
  obtain ⟨A₂, k1, k0, k3, -, -, k2⟩ := jacobian_ok hC hfs hne hG hv (fun f hf => (hw' f hf).2) hR'
  have hAA : A = A₂ := by
    have e : g.computeWhitenedResidualJacobian F C a r = .ok A := hJ
    rw [hr, k1] at e
    exact (Except.ok.inj e).symm
  subst hAA
  obtain ⟨-, hdim⟩ := hS.jacobian _ _ _ _ _ ha hl ha' hl' hc hJ
  have hdim : A.shape.2 = g.localLayout.dim := hdim
  intro x
  obtain ⟨d, hd⟩ : ∃ d, d = List.ofFn x := ⟨_, rfl⟩
  have hdl : d.length = g.localLayout.dim := by rw [hd, List.length_ofFn, hdim]
  have hdv : Spec.vec d A.shape.2 = x := by
    funext i
    rw [hd, vec_eq (by simp)]
    simp
  obtain ⟨b, b1, b2, b3⟩ := Props.holds_retract hC hG hv hl hdl
  obtain ⟨w'', hw''⟩ := b3.whitened hC hfs
  have hcost'' := Props.cost_ok _ _ hC hne hfs hG b3 (fun f hf => (hw'' f hf).1)
  obtain ⟨y, y1, y2, y3⟩ := hA a _ _ A₁ d b _ _ ha hl hcost j1 hdl b1 hcost''
  have y1' : A.matmul d = .ok y := by rw [k2 d hdl, ← j2 d hdl, y1]
  obtain ⟨-, m1, m2⟩ := matmul_vec k0 y1'
  rw [hdv] at m2
  rw [← m2, ← sqNorm_eq m1]
  have hstore := stores_of_holds hC hv
  have hstore' := stores_of_holds hC b3
  have hmain := hD _ _ w'' w (fun v hv => ⟨hstore'.2 v hv, hstore.2 v hv⟩) (fun f hf => ⟨(hw'' f hf).1, (hw f hf).1⟩)
  rw [← sqDist_storage hstore' hstore] at hmain
  obtain ⟨e1, e2, -, e4⟩ := Props.retract_entries hS hE ha hl hdl b1
  have s1 : List.zipWith (· - ·) b.storage a.storage = d := by
    apply List.ext_getElem
    · simp [e1, e2]
    · intro i h1 h2
      have := e4 i
      rw [getD_lt _ (by omega), getD_lt _ (by omega), getD_lt _ h2] at this
      rw [List.getElem_zipWith, this]; ring
  have s2 : (fs.map fun f => sqNorm (List.zipWith (· - ·) (w'' f) (w f))).sum = sqNorm y := by
    have hperm : (evalOrder fs).Perm fs := by unfold evalOrder; exact groupedBy_perm kind fs
    rw [← (hperm.map _).sum_eq, ← Props.sqNorm_flatMap, ← zipWith_flatMap]
    · congr 1
      have hz : ((evalOrder fs).flatMap w).length = y.length := by
        have h1 := hcost
        have hl1 : ((evalOrder fs).flatMap w).length = g.residualDim := by
          rw [hG.residualDim]
          exact length_flatMap_blocks fun f hf => (hw f (hperm.mem_iff.1 hf)).2
        rw [hl1, m1, k3]
      apply List.ext_getElem
      · rw [List.length_zipWith, y2, min_self, hz]
      · intro i h1 h2
        have := y3 i
        rw [getD_lt _ (by omega), getD_lt _ h2, getD_lt _ (by omega)] at this
        rw [List.getElem_zipWith, this]; ring
    · intro f hf
      have hf := hperm.mem_iff.1 hf
      rw [(hw'' f hf).2, (hw f hf).2]
  rw [s1, s2] at hmain
  rw [← hdv, ← sqNorm_eq (hdl.trans hdim.symm)]
  exact hmain

/-- In linear problems, the cost grows by at least `σ` times the squared distance from the optimum. -/
theorem optimum_growth {g : GraphOps ℝ} {ws : List Var} (hg : SaneGraph C g ws) (haff : AffineGraph C g ws)
    (hE : Props.UsesDefaultRetraction C ws) {σ : ℝ} (hS : AllJacobians C g ws (StiffAtLeast σ)) {e b : Assign ℝ}
    (he : IsAssignmentOf C ws e) (hle : e.layout = g.layout) (hb : IsAssignmentOf C ws b) (hlb : b.layout = g.layout) {c c' : ℝ}
    {r r' : List ℝ} {A : Coo ℝ} (hc' : g.computeCost e = .ok (c', r')) (hc : g.computeCost b = .ok (c, r)) (hA : g.jacobian e r' = .ok A)
    (hrl : r'.length = A.shape.1) (htot : ∀ u, IsAssignmentOf C ws u → u.layout = g.layout → ∃ k ρ, g.computeCost u = .ok (k, ρ))
    (hmin : ∀ u k ρ, IsAssignmentOf C ws u → u.layout = g.layout → g.computeCost u = .ok (k, ρ) → c' ≤ k) :
    σ * sqNorm (List.zipWith (· - ·) b.storage e.storage) ≤ c - c' := by
  obtain ⟨hwf, hdim⟩ := hg.jacobian _ _ _ _ _ he hle he hle hc' hA
  obtain ⟨d, hd, hr⟩ := Props.retract_reaches hg hE he hle hb hlb
  obtain ⟨e1, e2, -, e4⟩ := Props.retract_entries hg hE he hle hd hr
  have s1 : List.zipWith (· - ·) b.storage e.storage = d := by
    apply List.ext_getElem
    · simp [e1, e2]
    · intro i h1 h2
      have := e4 i
      rw [getD_lt _ (by omega), getD_lt _ (by omega), getD_lt _ h2] at this
      rw [List.getElem_zipWith, this]; ring
  have hcd := affine_cost hg haff he hle hc' hA hrl hd hr hc
  obtain ⟨M, hM⟩ : ∃ M, M = cooMatrix A A.shape.1 A.shape.2 := ⟨_, rfl⟩
  obtain ⟨ρ, hρ⟩ : ∃ ρ, ρ = Spec.vec r' A.shape.1 := ⟨_, rfl⟩
  obtain ⟨x, hx⟩ : ∃ x, x = Spec.vec d A.shape.2 := ⟨_, rfl⟩
  have hc0 : c' = ρ ⬝ᵥ ρ := by rw [hg.cost _ _ _ hc', sqNorm_eq hrl, hρ]
  rw [← hM, ← hρ, ← hx] at hcd
  have hexp : ∀ t : ℝ, modelCost M ρ (t • x) = c' + 2 * t * ((M *ᵥ x) ⬝ᵥ ρ) + t ^ 2 * ((M *ᵥ x) ⬝ᵥ (M *ᵥ x)) := by
    intro t
    unfold modelCost
    rw [mulVec_smul]
    simp only [add_dotProduct, dotProduct_add, smul_dotProduct, dotProduct_smul, smul_eq_mul]
    rw [hc0, dotProduct_comm ρ (M *ᵥ x)]; ring
  have hline : ∀ t : ℝ, c' ≤ modelCost M ρ (t • x) := by
    intro t
    have htl : (d.map (t * ·)).length = g.localLayout.dim := by rw [List.length_map, hd]
    have hδ : IsAssignmentOf C ws ⟨d.map (t * ·), g.localLayout⟩ :=
      ⟨hg.nodup, by simp only [hg.localLayout, make_localFlag], htl⟩
    have hfl : e.layout.localFlag = false := by rw [hle, hg.layout]; rfl
    obtain ⟨h1, h2⟩ := Props.retract_adds C hg.classes ws e _ he hfl hδ (by simp only [hg.localLayout, make_localFlag]) hE
    have hu : IsAssignmentOf C ws ⟨List.zipWith (· + ·) e.storage (d.map (t * ·)), e.layout⟩ := by
      refine ⟨hg.nodup, he.2.1, ?_⟩
      show (List.zipWith (· + ·) e.storage (d.map (t * ·))).length = e.layout.dim
      rw [← he.2.2, List.length_zipWith, List.length_map, ← e1, min_self]
    obtain ⟨k, ρ', hk⟩ := htot _ hu hle
    have h3 := affine_cost hg haff he hle hc' hA hrl htl h1 hk
    have h4 : Spec.vec (d.map (t * ·)) A.shape.2 = t • x := by
      rw [hx]
      funext i
      rw [vec_eq (by rw [List.length_map, hd, hdim]), Pi.smul_apply, vec_eq (by rw [hd, hdim])]
      simp
    rw [← hM, ← hρ, h4] at h3
    rw [← h3]
    exact hmin _ _ _ hu hle hk
  have hq : 0 ≤ (M *ᵥ x) ⬝ᵥ (M *ᵥ x) := Finset.sum_nonneg fun i _ => mul_self_nonneg _
  have hp : 0 ≤ (M *ᵥ x) ⬝ᵥ ρ := by
    by_contra hn
    push Not at hn
    obtain ⟨p, hpe⟩ : ∃ p, p = (M *ᵥ x) ⬝ᵥ ρ := ⟨_, rfl⟩
    obtain ⟨q, hqe⟩ : ∃ q, q = (M *ᵥ x) ⬝ᵥ (M *ᵥ x) := ⟨_, rfl⟩
    have h1 := hline (-p / (q + 1))
    rw [hexp, ← hpe, ← hqe] at h1
    rw [← hpe] at hn
    rw [← hqe] at hq
    have hq1 : 0 < q + 1 := by linarith
    have h2 : 2 * (-p / (q + 1)) * p + (-p / (q + 1)) ^ 2 * q = -(p ^ 2 * (q + 2)) / (q + 1) ^ 2 := by
      field_simp; ring
    have h3 : -(p ^ 2 * (q + 2)) / (q + 1) ^ 2 < 0 := by
      apply div_neg_of_neg_of_pos
      · nlinarith [sq_pos_of_neg hn]
      · positivity
    linarith
  have h1 := hexp 1
  rw [one_smul, ← hcd] at h1
  have h2 := hS _ _ _ _ _ he hle he hle hc' hA x
  rw [← hM, hx, ← sqNorm_eq (hd.trans hdim.symm), ← hx] at h2
  rw [s1]
  linarith

/-- Every linear problem has an optimum. -/
theorem optimum_exists {g : GraphOps ℝ} {ws : List Var} (hT : TotalGraph C g ws) (haff : AffineGraph C g ws)
    (hE : Props.UsesDefaultRetraction C ws) {a : Assign ℝ}
    (ha : IsAssignmentOf C ws a) (hl : a.layout = g.layout) :
    ∃ b c r, IsAssignmentOf C ws b ∧ b.layout = g.layout ∧ g.computeCost b = .ok (c, r) ∧
      ∀ u k ρ, IsAssignmentOf C ws u → u.layout = g.layout → g.computeCost u = .ok (k, ρ) → c ≤ k := by
  have hg := hT.sane
  obtain ⟨c, r, hc⟩ := hT.cost a ha hl
  obtain ⟨A, hA, hAl⟩ := hT.jacobian a a c r ha hl ha hl hc
  obtain ⟨hwf, hdim⟩ := hg.jacobian _ _ _ _ _ ha hl ha hl hc hA
  obtain ⟨M, hM⟩ : ∃ M, M = cooMatrix A A.shape.1 A.shape.2 := ⟨_, rfl⟩
  obtain ⟨ρ, hρ⟩ : ∃ ρ, ρ = Spec.vec r A.shape.1 := ⟨_, rfl⟩
  obtain ⟨x, hx⟩ : ∃ x, (Mᵀ * M) *ᵥ x = descent M ρ := normal_solution M (-ρ)
  obtain ⟨d, hd⟩ : ∃ d, d = List.ofFn x := ⟨_, rfl⟩
  have hdl : d.length = g.localLayout.dim := by rw [hd, List.length_ofFn, hdim]
  have hdv : Spec.vec d A.shape.2 = x := by
    funext i
    rw [hd, vec_eq (by simp)]
    simp
  have hδ : IsAssignmentOf C ws ⟨d, g.localLayout⟩ := ⟨hg.nodup, by simp only [hg.localLayout, make_localFlag], hdl⟩
  have hfl : a.layout.localFlag = false := by rw [hl, hg.layout]; rfl
  obtain ⟨h1, h2⟩ := Props.retract_adds C hg.classes ws a _ ha hfl hδ (by simp only [hg.localLayout, make_localFlag]) hE
  have h2 : a.storage.length = d.length := h2
  have hu : IsAssignmentOf C ws ⟨List.zipWith (· + ·) a.storage d, a.layout⟩ := by
    refine ⟨hg.nodup, ha.2.1, ?_⟩
    show (List.zipWith (· + ·) a.storage d).length = a.layout.dim
    rw [← ha.2.2, List.length_zipWith, ← h2, min_self]
  obtain ⟨k, ρ', hk⟩ := hT.cost _ hu hl
  refine ⟨_, k, ρ', hu, hl, hk, fun u k' ρ'' hu' hul hk' => ?_⟩
  obtain ⟨z, hz, hr⟩ := Props.retract_reaches hg hE ha hl hu' hul
  rw [affine_cost hg haff ha hl hc hA hAl.symm hdl h1 hk, affine_cost hg haff ha hl hc hA hAl.symm hz hr hk', ← hM, ← hρ, hdv]
  exact normal_minimizes hx _

theorem HasCost.unique {val : Var → Value ℝ} {c c' : ℝ} (h : HasCost F fs val c) (h' : HasCost F fs val c') : c = c' := by
  obtain ⟨w, h1, rfl⟩ := h
  obtain ⟨w', h2, rfl⟩ := h'
  congr 1
  apply List.map_congr_left
  intro f hf
  have := h1 f hf
  rw [h2 f hf] at this
  rw [Except.ok.inj this]

theorem hasCost_of_holds (hC : GoodClasses C) (hfs : ∀ f ∈ fs, FactorWF F C f) (hne : fs ≠ []) {g : Graph} (hG : GraphOf F C fs g)
    {vars : List Var} {val : Var → Value ℝ} {a : Assign ℝ} (h : Holds C fs vars val a) :
    ∃ c r, g.computeCost F C a = .ok (c, r) ∧ HasCost F fs val c := by
  obtain ⟨w, hw⟩ := h.whitened hC hfs
  exact ⟨_, _, Props.cost_ok _ _ hC hne hfs hG h fun f hf => (hw f hf).1, w, fun f hf => (hw f hf).1, rfl⟩

/-- From what the solver does with the graph to what it does with values. -/
theorem solves_within (hC : GoodClasses C) (hfs : ∀ f ∈ fs, FactorWF F C f) (hne : fs ≠ [])
    (hpos : ∀ f ∈ fs, ∀ v ∈ f.vars, 0 < (C v.ty).paramDim)
    (hgauss : ∀ f ∈ fs, NoiseGaussian f.noise) (haff : ∀ f ∈ fs, AffineFactor F C f)
    (hE : Props.UsesDefaultRetraction C (Graph.variablesOf fs)) {σ θ : ℝ}
    (hD : Determines F C fs (Graph.variablesOf fs) σ) {g : Graph} (hg : Graph.make C fs = .ok g) {vars : List Var} {val : Var → Value ℝ}
    {a : Assign ℝ} (ha : Holds C fs vars val a) {N : Int}
    {solve : Nat → Assign Ext → Py (Option (Assign Ext × List (Msg Ext)))} (hret : Returns C solve N vars a)
    (hrun : ∀ fuel out log b₀ c₀ r₀, solve fuel (a.map Ext.fin) = .ok (some (out, log)) → a.updateStorageLayout C g.layout = .ok b₀ →
      IsAssignmentOf C (Graph.variablesOf fs) b₀ → b₀.layout = g.layout → g.computeCost F C b₀ = .ok (c₀, r₀) →
      ∃ (b : Assign ℝ) (c : ℝ) (r : List ℝ), IsAssignmentOf C (Graph.variablesOf fs) b ∧ b.layout = g.layout ∧
        (b.updateStorageLayout C a.layout).map (Assign.map Ext.fin) = .ok out ∧ g.computeCost F C b = .ok (c, r) ∧
        ∀ e c' r', IsAssignmentOf C (Graph.variablesOf fs) e → e.layout = g.layout → g.computeCost F C e = .ok (c', r') →
          c - c' ≤ θ * (c₀ - c')) :
    SolvesWithin F C fs vars σ θ val a N solve := by
  obtain ⟨g', hg', hS⟩ := sane_graph (F := F) hC hfs hne
  rw [hg] at hg'; cases hg'
  obtain ⟨g', hg', hG⟩ := graph_ok (F := F) hfs hne
  rw [hg] at hg'; cases hg'
  have hs := variablesOf_spec fs
  have hv : ∀ v, v ∈ vars ↔ v ∈ Graph.variablesOf fs := fun v => by rw [ha.sameVars, hs.2]
  have hp : ∀ v ∈ vars, 0 < (C v.ty).paramDim := fun v hv => by
    obtain ⟨f, hf, hv⟩ := (ha.sameVars v).1 hv; exact hpos f hf v hv
  have hperm : vars.Perm (Graph.variablesOf fs) := (List.perm_ext_iff_of_nodup ha.assignment.1 hs.1).2 hv
  obtain ⟨o, log, ho, hol, hsolve⟩ := hret
  obtain ⟨b₀, u1, u2, u3⟩ := (stores_of_holds hC ha).update hs.1 hv hp
  rw [← hG.layout] at u1 u2
  obtain ⟨c₀, r₀, k1, k2⟩ := hasCost_of_holds hC hfs hne hG (u3.holds hs.2)
  obtain ⟨b, c, r, b1, b2, b3, b4, b5⟩ := hrun _ _ _ b₀ c₀ r₀ (hsolve (max 1 N).toNat (by omega)) u1 u3.1.isAssignment u2 k1
  -- the values that are returned
  obtain ⟨f, hf⟩ := exists_rep b1
  have hfl : b.layout.localFlag = false := by rw [b2, hG.layout]; rfl
  rw [hfl] at hf
  obtain ⟨val', hval'⟩ : ∃ val' : Var → Value ℝ, val' = fun v => unravel (C v.ty).default (f v) := ⟨_, rfl⟩
  have hb : Holds C fs (Graph.variablesOf fs) val' b := ⟨b1, hfl, hs.2, fun v hv => by rw [hval']; exact hf.getValue_ok hv⟩
  have hbs := stores_of_holds hC hb
  have hal : a.layout = Layout.make C vars false := by rw [ha.assignment.2.1, ha.isGlobal]
  obtain ⟨o', v1, v2, v3⟩ := hbs.update ha.assignment.1 (fun v => (hv v).symm) (fun v hv' => hp v ((hv v).2 hv'))
  rw [← hal] at v1
  rw [v1] at b3
  have hoo : o' = o := assign_map_fin (Except.ok.inj b3)
  subst hoo
  obtain ⟨c2, r2, l1, l2⟩ := hasCost_of_holds hC hfs hne hG hb
  rw [b4] at l1; cases l1
  have conv : ∀ m c', (∀ v ∈ vars, IsValueOf (C v.ty) (m v)) → HasCost F fs m c' →
      ∃ e r', Stores C (Graph.variablesOf fs) m e ∧ e.layout = g.layout ∧ g.computeCost F C e = .ok (c', r') := by
    intro m c' hm hc'
    have hm' : ∀ v ∈ Graph.variablesOf fs, IsValueOf (C v.ty) (m v) := fun v hv' => hm v ((hv v).2 hv')
    have hst := stores_exists (C := C) hs.1 hm' (fun v hv => by
      obtain ⟨-, h2, h3⟩ := hm' v hv
      rw [flatten_length h3, h2]
      exact (flatten_length (hC v.ty).1).symm)
    obtain ⟨c'', r', q1, q2⟩ := hasCost_of_holds hC hfs hne hG (hst.holds hs.2)
    rw [HasCost.unique q2 hc'] at q1
    exact ⟨_, r', hst, by rw [hG.layout], q1⟩
  refine ⟨o', log, val', c₀, c, hol, v3.holds ha.sameVars, k2, l2, hsolve, ?_, ?_⟩
  · intro m c' hm hc'
    obtain ⟨e, r', e1, e2, e3⟩ := conv m c' hm hc'
    exact b5 e c' r' e1.1.isAssignment e2 e3
  · rintro m c' ⟨hm, hc', hmin⟩
    obtain ⟨e, r', e1, e2, e3⟩ := conv m c' hm hc'
    rw [sqDist_perm hperm, ← sqDist_storage hbs e1]
    obtain ⟨g', hg', hT⟩ := total_graph (F := F) hC hfs hne
    rw [hg] at hg'; cases hg'
    obtain ⟨A, hA, hAl⟩ := hT.jacobian e e c' r' e1.1.isAssignment e2 e1.1.isAssignment e2 e3
    refine optimum_growth hS (affine_graph hC hfs hne hgauss haff hg) hE (determines_stiff hC hfs hne hgauss haff hE hD hg)
      e1.1.isAssignment e2 b1 b2 e3 b4 hA hAl.symm (fun u hu hul => hT.cost u hu hul) ?_
    intro u k ρ hu hul hk
    have hfl : u.layout.localFlag = false := by rw [hul]; show g.layout.localFlag = false; rw [hG.layout]; rfl
    obtain ⟨f, hf⟩ := exists_rep hu
    rw [hfl] at hf
    have hh : Holds C fs (Graph.variablesOf fs) (fun v => unravel (C v.ty).default (f v)) u :=
      ⟨hu, hfl, hs.2, fun v hv => hf.getValue_ok hv⟩
    obtain ⟨c'', r'', q1, q2⟩ := hasCost_of_holds hC hfs hne hG hh
    have hk : g.computeCost F C u = .ok (k, ρ) := hk
    rw [hk] at q1; cases q1
    exact hmin _ _ (fun v hv' => (stores_of_holds hC hh).2 v ((hv v).1 hv')) q2

end Jaxfg
