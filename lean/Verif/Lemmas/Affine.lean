/- Linear least-squares graphs. -/
import Verif.Lemmas.SolverRuns
import Verif.Lemmas.ExampleDeriv

namespace Jaxfg
open Ext (fin)
open Spec Matrix

/-- Solutions of the normal equations minimize the linearized cost. -/
theorem normal_minimizes {m n : Nat} {M : Matrix (Fin m) (Fin n) ℝ} {r : Fin m → ℝ} {x : Fin n → ℝ}
    (h : (Mᵀ * M) *ᵥ x = descent M r) (y : Fin n → ℝ) : modelCost M r x ≤ modelCost M r y := by
  rw [modelCost_expand, modelCost_expand, ← h]
  have e : ∀ u v : Fin n → ℝ, u ⬝ᵥ (Mᵀ * M) *ᵥ v = (M *ᵥ u) ⬝ᵥ (M *ᵥ v) := by
    intro u v
    rw [← mulVec_mulVec, dotProduct_mulVec, vecMul_transpose]
  rw [e, e]
  have : 0 ≤ (M *ᵥ y - M *ᵥ x) ⬝ᵥ (M *ᵥ y - M *ᵥ x) := Finset.sum_nonneg fun i _ => mul_self_nonneg _
  simp only [sub_dotProduct, dotProduct_sub, dotProduct_comm (M *ᵥ x) (M *ᵥ y)] at this
  linarith

theorem affine_graph {F : Nat → FactorClass} {C : Ty → VarClass ℝ} (hC : GoodClasses C) {fs : List Factor}
    (hfs : ∀ f ∈ fs, FactorWF F C f) (hne : fs ≠ []) (hgauss : ∀ f ∈ fs, NoiseGaussian f.noise)
    (haff : ∀ f ∈ fs, AffineFactor F C f) {g : Graph} (hg : Graph.make C fs = .ok g) :
    AffineGraph C (g.ops F C) (Graph.variablesOf fs) := by
  obtain ⟨g', hg', hG⟩ := graph_ok (F := F) hfs hne
  rw [hg] at hg'; cases hg'
  have hs := variablesOf_spec fs
  intro a c r A d b c' r' ha hl hc hA hd hb hc'
  have hl : a.layout = g.layout := hl
  have hfl : a.layout.localFlag = false := by rw [hl, hG.layout]; rfl
  obtain ⟨q, hq⟩ := exists_rep ha
  rw [hfl] at hq
  have h : Holds C fs (Graph.variablesOf fs) (fun v => unravel (C v.ty).default (q v)) a :=
    ⟨ha, hfl, hs.2, fun v hv => hq.getValue_ok hv⟩
  obtain ⟨w, hw⟩ := h.whitened hC hfs
  have hcost := Props.cost_ok _ _ hC hne hfs hG h fun f hf => (hw f hf).1
  have hr : r = (evalOrder fs).flatMap w := by
    have e : g.computeCost F C a = .ok (c, r) := hc
    rw [hcost] at e
    exact (Prod.mk.inj (Except.ok.inj e)).2.symm
  obtain ⟨g', hg', hall⟩ := Props.C20_jacobian_product F C hC fs hne hfs
  rw [hg] at hg'; cases hg'
  obtain ⟨A', R, hA', hsh, hR, hprod⟩ := hall _ _ a h w fun f hf => (hw f hf).2
  have hAA : A = A' := by
    have e : g.computeWhitenedResidualJacobian F C a r = .ok A := hA
    rw [hr, hA'] at e
    exact (Except.ok.inj e).symm
  subst hAA
  have hb : a.manifoldRetract C ⟨d, g.localLayout⟩ = .ok b := hb
  have hd : d.length = g.localLayout.dim := hd
  obtain ⟨u, hu, hud⟩ := hprod d hd
  obtain ⟨b', hb1, hb2, hb3⟩ := Props.holds_retract hC hG h hl hd
  rw [hb] at hb1; cases hb1
  obtain ⟨w', hw'⟩ := hb3.whitened hC hfs
  have hcost' := Props.cost_ok _ _ hC hne hfs hG hb3 fun f hf => (hw' f hf).1
  have hr' : r' = (evalOrder fs).flatMap w' := by
    have e : g.computeCost F C b = .ok (c', r') := hc'
    rw [hcost'] at e
    exact (Prod.mk.inj (Except.ok.inj e)).2.symm
  have hfac : ∀ f ∈ fs, Spec.vec (w' f) (rdim f) = Spec.vec (u f) (rdim f) + Spec.vec (w f) (rdim f) := by
    intro f hf
    have hδ : List.Forall₂ (fun v (x : List ℝ) => x.length = (C v.ty).localDim) f.vars
        (f.vars.map (block C ⟨d, g.localLayout⟩)) := by
      rw [List.forall₂_map_right_iff, List.forall₂_same]
      intro v hv
      have hδ : IsAssignmentOf C (Graph.variablesOf fs) ⟨d, g.localLayout⟩ := by
        refine ⟨hs.1, ?_, hd⟩
        simp only [hG.localLayout, make_localFlag]
      obtain ⟨q, hq⟩ := exists_rep hδ
      have hm := mem_variablesOf hf hv
      rw [hq.block_eq hm, hq.len v hm]
      simp [hG.localLayout, make_localFlag, dimOf]
    have h1 := haff f hf _ _ (h.valuesFor hC hf) hδ
    have h2 := congrArg (fun v => noiseMat f.noise (rdim f) (rdim f) *ᵥ v) h1
    simp only [mulVec_add] at h2
    rw [← Props.applyBlocks_whitened (hfs f hf) (hgauss f hf) (hw f hf).2 (block C ⟨d, g.localLayout⟩) f.vars _ (R f)
      ((hfs f hf).jacobians _ (h.valuesFor hC hf)) (hR f hf).1, ← (hud f hf).2] at h2
    obtain ⟨w1, e1, e2, e3⟩ := whiten_gaussian (hfs f hf).noise (hgauss f hf) ((hfs f hf).residual _ (hb3.valuesFor hC hf))
    obtain ⟨w2, e4, e5, e6⟩ := whiten_gaussian (hfs f hf).noise (hgauss f hf) ((hfs f hf).residual _ (h.valuesFor hC hf))
    have t1 := (hw' f hf).1
    unfold whitenedAt at t1
    rw [e1] at t1
    have t2 := (hw f hf).1
    unfold whitenedAt at t2
    rw [e4] at t2
    rw [← Except.ok.inj t1, ← Except.ok.inj t2, e3, e6, add_comm, ← h2]
    congr 3
    generalize f.vars = vs
    induction vs with
    | nil => rfl
    | cons v vs ih => simp only [List.map_cons, List.zip_cons_cons, List.zipWith_cons_cons, ih]
  have hlen : ∀ z : Factor → List ℝ, (∀ f ∈ fs, (z f).length = rdim f) → ((evalOrder fs).flatMap z).length = g.residualDim := by
    intro z hz
    rw [hG.residualDim]
    exact length_flatMap_blocks fun f hf => hz f (mem_groupedBy.1 hf)
  have hlw := hlen w fun f hf => (hw f hf).2
  have hlw' := hlen w' fun f hf => (hw' f hf).2
  have hlu := hlen u fun f hf => (hud f hf).1
  refine ⟨_, hu, by rw [hr, hr', hlw, hlw'], ?_⟩
  rw [hr, hr']
  have : ∀ fl : List Factor, (∀ f ∈ fl, f ∈ fs) → fl.flatMap w' = List.zipWith (· + ·) (fl.flatMap u) (fl.flatMap w) := by
    intro fl
    induction fl with
    | nil => intro _; rfl
    | cons f fl ih =>
      intro hm
      have hf := hm f (by simp)
      rw [List.flatMap_cons, List.flatMap_cons, List.flatMap_cons, List.zipWith_append (by rw [(hud f hf).1, (hw f hf).2]),
        ih fun x hx => hm x (by simp [hx])]
      congr 1
      apply List.ext_getElem
      · simp [(hw' f hf).2, (hud f hf).1, (hw f hf).2]
      · intro i h1 h2
        have hi : i < rdim f := by rw [← (hw' f hf).2]; exact h1
        have := congrFun (hfac f hf) ⟨i, hi⟩
        simp only [Pi.add_apply] at this
        rw [vec_eq (hw' f hf).2, vec_eq (hud f hf).1, vec_eq (hw f hf).2] at this
        rw [List.getElem_zipWith]
        exact this
  intro i
  rw [this (evalOrder fs) fun f hf => mem_groupedBy.1 hf]
  by_cases hi : i < g.residualDim
  · rw [getD_lt _ (by simp [hlu, hlw, hi]), getD_lt _ (by rw [hlu]; exact hi), getD_lt _ (by rw [hlw]; exact hi), List.getElem_zipWith]
  · rw [List.getD_eq_default _ _ (by simp [hlu, hlw]; omega), List.getD_eq_default _ _ (by rw [hlu]; omega),
      List.getD_eq_default _ _ (by rw [hlw]; omega), add_zero]

/-- Cost of a retraction in a linear problem. -/
theorem affine_cost {C : Ty → VarClass ℝ} {g : GraphOps ℝ} {ws : List Var} (hg : SaneGraph C g ws) (haff : AffineGraph C g ws)
    {a : Assign ℝ} (ha : IsAssignmentOf C ws a) (hl : a.layout = g.layout) {c : ℝ} {r : List ℝ} (hc : g.computeCost a = .ok (c, r))
    {A : Coo ℝ} (hA : g.jacobian a r = .ok A) (hr : r.length = A.shape.1) {d : List ℝ} (hd : d.length = g.localLayout.dim)
    {b : Assign ℝ} (hb : a.manifoldRetract C ⟨d, g.localLayout⟩ = .ok b) {c' : ℝ} {r' : List ℝ} (hc' : g.computeCost b = .ok (c', r')) :
    c' = modelCost (cooMatrix A A.shape.1 A.shape.2) (Spec.vec r A.shape.1) (Spec.vec d A.shape.2) := by
  obtain ⟨y, h1, h2, h3⟩ := haff a c r A d b c' r' ha hl hc hA hd hb hc'
  obtain ⟨hwf, -⟩ := hg.jacobian _ _ _ _ _ ha hl ha hl hc hA
  obtain ⟨-, h4, h5⟩ := matmul_vec hwf h1
  rw [hg.cost _ _ _ hc', sqNorm_eq (h2.trans hr)]
  unfold modelCost
  rw [← h5]
  have : Spec.vec r' A.shape.1 = Spec.vec y A.shape.1 + Spec.vec r A.shape.1 := by
    funext i; exact h3 i
  rw [this]

end Jaxfg
