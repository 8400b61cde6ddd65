/- Graphs on one variable all of whose whitened Jacobians are multiples of the identity, and the step that the solvers take. -/
import Verif.Props.Marginal
import Verif.Lemmas.Huber
import Verif.Lemmas.SimpleScript
import Verif.Model.HuberTest
import Verif.Lemmas.Progress
import Verif.Props.Solver

namespace Jaxfg
open Spec
open Matrix hiding vec
open Props

/-- The step with CHOLMOD when the whitened Jacobians are `-c_f` times the identity: the average of the whitened residuals with
the weights `c_f`. -/
theorem single_step {F : Nat → FactorClass} {C : Ty → VarClass ℝ} (hC : GoodClasses C) {v : Var} {fs : List Factor} (hne : fs ≠ [])
    (hfs : ∀ f ∈ fs, FactorWF F C f) (hv : ∀ f ∈ fs, f.vars = [v]) {n : Nat} (hn : (C v.ty).localDim = n) (hd : ∀ f ∈ fs, rdim f = n)
    {vars : List Var} {val : Var → Value ℝ} {a : Assign ℝ} (h : Holds C fs vars val a) {w : Factor → List ℝ}
    (hw : ∀ f ∈ fs, whitenedAt F val f = .ok (w f)) {R : Factor → List (Arr ℝ)}
    (hR : ∀ f ∈ fs, ((F f.cls).jacobians f.self (f.vars.map val)).mapM (fun J => f.noise.whitenJacobian J (w f)) = .ok (R f))
    {c : Factor → ℝ} (hc : ∀ f ∈ fs, arrMat ((R f).getD 0 ⟨[], []⟩) n n = -(c f • (1 : Matrix (Fin n) (Fin n) ℝ)))
    {g : Graph} (hg : Graph.make C fs = .ok g) (stale : Pattern → ScipyCoo ℝ → ℝ → List ℝ → Py (List ℝ)) (cache : CholmodCache)
    (addr : Nat) (hcache : ∀ p, cache.get? addr = some p →
      p = ((g.localLayout.dim, g.residualDim), (g.jacobianCoords.map Prod.swap).toFinset)) :
    ∃ r A ATr delta, g.computeCost F C a = .ok ((fs.map fun f => sqNorm (w f)).sum, r) ∧
      g.computeWhitenedResidualJacobian F C a r = .ok A ∧ A.T.matmul r = .ok ATr ∧ ATr.length = n ∧
      (cholmodSolve stale cache addr A (ATr.map fun x => -x) 0).1 = .ok delta ∧ delta.length = n ∧
      ((fs.map fun f => c f ^ 2).sum + 1 / 100000) • vec delta n = (fs.map fun f => c f • vec (w f) n).sum := by
  obtain ⟨g', hg', hG⟩ := graph_ok (F := F) hfs hne
  obtain rfl : g' = g := Except.ok.inj (hg'.symm.trans hg)
  obtain ⟨f₀, hf₀⟩ := List.exists_mem_of_ne_nil _ hne
  have hvs : Graph.variablesOf fs = [v] := by
    obtain ⟨h1, h2⟩ := variablesOf_spec fs
    have hmem : ∀ w, w ∈ Graph.variablesOf fs ↔ w ∈ [v] := by
      intro w
      rw [h2 w, List.mem_singleton]
      constructor
      · rintro ⟨f, hf, hw⟩
        rw [hv f hf] at hw
        simpa using hw
      · rintro rfl
        exact ⟨f₀, hf₀, by rw [hv f₀ hf₀]; simp⟩
    exact List.perm_singleton.1 ((List.perm_ext_iff_of_nodup h1 (by simp)).2 hmem)
  have hlay : g'.localLayout = Layout.make C [v] true := by rw [hG.localLayout, hvs]
  have hgrp : grouped [v] = [v] := by simp [grouped, firstTypes]
  have hdim : g'.localLayout.dim = n := by
    rw [hlay, make_dim C (by simp), hgrp, ← hn]
    simp [total, dimOf]
  have hget : g'.localLayout.indexFromVar.get? v = some 0 := by
    rw [hlay]
    exact make_index C (by simp) true (as := []) (bs := []) hgrp
  have hpos : posIn g'.localLayout v = 0 := by unfold posIn; rw [hget]; rfl
  have hwl : ∀ f ∈ fs, (w f).length = rdim f := by
    obtain ⟨w', hw'⟩ := Holds.whitened hC hfs h
    intro f hf
    have := Except.ok.inj ((hw' f hf).1.symm.trans (hw f hf))
    rw [← this]
    exact (hw' f hf).2
  have hcost := cost_ok F C hC hne hfs hG h hw
  have hres := residual_ok hC hfs hne hG h hw
  obtain ⟨A, hJ, hA, hshape, hcoords, -, hmul⟩ := jacobian_ok hC hfs hne hG h hwl hR
  have hs2 : A.shape.2 = n := by rw [hshape]; exact hdim
  -- one factor
  have hprod : ∀ f ∈ fs, ∀ x : List ℝ, x.length = n →
      vec (facProd C (posIn g'.localLayout) R x f) n = -(c f • vec x n) := by
    intro f hf x hx
    have := facProd_single (C := C) (R := R) (hv f hf) hpos (hx.trans hn.symm)
    rw [hd f hf, hn] at this
    rw [this, hc f hf, neg_mulVec, smul_mulVec, one_mulVec]
  have hH : (cooMatrix A A.shape.1 n)ᵀ * cooMatrix A A.shape.1 n =
      (fs.map fun f => c f ^ 2 • (1 : Matrix (Fin n) (Fin n) ℝ)).sum := by
    refine information_sum (C := C) (l := g'.localLayout) (R := R) hA hs2 (fun x hx => hmul x (hx.trans hdim.symm)) ?_
    intro f hf z x hz hx
    have hl := fun x => (length_facProd (C := C) (lpos := posIn g'.localLayout) (R := R) (x := x) (f := f)).trans (hd f hf)
    rw [vdot_eq (hl z) (hl x), hprod f hf z hz, hprod f hf x hx, smul_mulVec, one_mulVec]
    simp only [dotProduct_neg, neg_dotProduct, dotProduct_smul, smul_dotProduct, smul_eq_mul]
    ring
  have hsum : ∀ l : List Factor, (l.map fun f => c f ^ 2 • (1 : Matrix (Fin n) (Fin n) ℝ)).sum =
      (l.map fun f => c f ^ 2).sum • 1 := by
    intro l
    induction l with
    | nil => simp
    | cons f l ih => rw [List.map_cons, List.map_cons, List.sum_cons, List.sum_cons, ih, add_smul]
  rw [hsum] at hH
  obtain ⟨ATr, hATr, hlen, hATr2⟩ := matmul_ok (cooWF_T hA) (x := (evalOrder fs).flatMap w) (by rw [hres.2]; simp [Coo.T, hshape])
  have hlen' : ATr.length = A.shape.2 := hlen
  obtain ⟨-, delta, hdelta, hdl, heq, -⟩ := C35_cholmod stale cache addr A hA (ATr.map fun x => -x) (by simpa using hlen') 0 le_rfl
    (fun p h => by
      rw [hcache p h, ← hcoords, hshape]
      congr 2
      exact List.zip_swap _ _)
  refine ⟨_, A, ATr, delta, hcost, hJ, hATr, hlen'.trans hs2, hdelta, hdl.trans hs2, ?_⟩
  -- the right-hand side
  have hperm : (evalOrder fs).Perm fs := by unfold evalOrder; exact groupedBy_perm kind fs
  have hrhs : ∀ i, vec ATr n i = -(fs.map fun f => c f * vec (w f) n i).sum := by
    intro i
    have hz := hmul (ofVec (Pi.single i (1 : ℝ))) ((length_ofVec _).trans hdim.symm)
    obtain ⟨-, lz, ez⟩ := matmul_vec hA hz
    have hrl : ((evalOrder fs).flatMap w).length = A.shape.1 := by rw [hres.2, hshape]
    have e1 := vdot_eq lz hrl
    rw [ez, vdot_flatMap (fun f hf => by rw [length_facProd, hwl f (hperm.mem_iff.1 hf)])] at e1
    have e2 : ((evalOrder fs).map fun f => vdot (facProd C (posIn g'.localLayout) R (ofVec (Pi.single i (1 : ℝ))) f) (w f)).sum =
        (fs.map fun f => -(c f * vec (w f) n i)).sum := by
      rw [(hperm.map _).sum_eq]
      congr 1
      apply List.map_congr_left
      intro f hf
      rw [vdot_eq (n := n) (length_facProd.trans (hd f hf)) ((hwl f hf).trans (hd f hf)),
        hprod f hf _ (length_ofVec _), vec_ofVec]
      simp
    rw [e2] at e1
    have e3 : ∀ l : List Factor, -(l.map fun f => c f * vec (w f) n i).sum = (l.map fun f => -(c f * vec (w f) n i)).sum := by
      intro l
      induction l with
      | nil => simp
      | cons f l ih => rw [List.map_cons, List.map_cons, List.sum_cons, List.sum_cons, ← ih, neg_add]
    rw [e3, e1]
    subst hs2
    rw [vec_ofVec]
    have : vec ATr A.shape.2 = (cooMatrix A A.shape.1 A.shape.2)ᵀ *ᵥ vec ((evalOrder fs).flatMap w) A.shape.1 := by
      rw [← cooMatrix_T]
      exact hATr2
    rw [this, mulVec_single_one]
    rfl
  have hb : vec (ATr.map fun x => -x) n = -vec ATr n := by
    funext i
    rw [vec_eq (by simpa using hlen'.trans hs2), Pi.neg_apply, vec_eq (hlen'.trans hs2), List.getElem_map]
  subst hs2
  rw [hH, hb, ← add_smul, smul_mulVec, one_mulVec, zero_add] at heq
  rw [heq]
  funext i
  rw [Pi.neg_apply, hrhs, neg_neg]
  generalize fs = l
  induction l with
  | nil => simp
  | cons f l ih => simp [ih]

/-! ### The problem of the test -/

namespace Outlier

/-- The noise model of the measurements. -/
def unit : Noise := .diagonal ⟨[3], [1, 1, 1]⟩

noncomputable def wrap : Option ℝ → Noise
  | none => unit
  | some d => .huber unit ⟨[], [d]⟩

/-- A measurement at `(x, y)`. -/
noncomputable def prior (v : Var) (x y : ℝ) (N : Noise) : Factor := ⟨1, [v], N, [⟨[4], [1, 0, x, y]⟩]⟩

theorem factors_eq (v : Var) (n : Nat) (x y : ℝ) (delta : Option ℝ) :
    outlierFactors v n x y delta = List.replicate n (prior v 0 0 unit) ++ [prior v x y (wrap delta)] := by
  have h1 : Noise.diagonalFromCovariance ⟨[3], List.replicate 3 1⟩ = unit := by
    simp [Noise.diagonalFromCovariance, unit, List.replicate]
  have h2 : ∀ x y : ℝ, (se2Value x y 0) = ⟨LieGroup.se2.treedef, [⟨[4], [1, 0, x, y]⟩]⟩ := by
    intro x y
    simp [se2Value, LieGroup.value, se2FromXyTheta]
    rfl
  have h3 : priorCls LieGroup.se2.treedef = 1 := by simp [priorCls, LieGroup.se2, LieGroup.se3]
  unfold outlierFactors
  rw [h1]
  simp only [h2, PriorFactor.make, h3]
  cases delta <;> rfl

theorem mem_factors {v : Var} {n : Nat} {x y : ℝ} {delta : Option ℝ} {f : Factor} (h : f ∈ outlierFactors v n x y delta) :
    ∃ x y delta', f = prior v x y (wrap delta') ∧ (delta' = none ∨ delta' = delta) := by
  rw [factors_eq] at h
  rcases List.mem_append.1 h with h | h
  · exact ⟨0, 0, none, List.eq_of_mem_replicate h, .inl rfl⟩
  · exact ⟨x, y, delta, List.mem_singleton.1 h, .inr rfl⟩

/-- The weight of the outlier in the gradient. -/
noncomputable def phi : Option ℝ → ℝ → ℝ
  | none, _ => 1
  | some d, U => slope d U

def Ok (delta : Option ℝ) : Prop := ∀ d, delta = some d → 0 < d

theorem noise_wf {delta : Option ℝ} (h : Ok delta) : NoiseWF (wrap delta) 3 3 := by
  have hn : NoiseWF unit 3 3 := ⟨⟨rfl, rfl⟩, rfl⟩
  cases delta with
  | none => exact hn
  | some d => exact ⟨hn, d, rfl, h d rfl⟩

theorem prior_ok {v : Var} (hv : v.ty = se2Ty) {x y : ℝ} {delta : Option ℝ} (h : Ok delta) :
    FactorWF g2oFactors g2oClasses (prior v x y (wrap delta)) ∧ rdim (prior v x y (wrap delta)) = 3 := by
  constructor
  · exact prior_wf .se2 rfl rfl (T := [1, 0, x, y]) rfl rfl (noise_wf h) (by rw [hv]; rfl)
  · cases delta <;> rfl

theorem log_flat (x y : ℝ) : LieGroup.se2Log [1, 0, x, y] = [x, y, 0] := by
  have : (⟨1, 0⟩ : ℂ) = 1 := rfl
  simp [LieGroup.se2Log, LieGroup.arctan2, LieGroup.halfOverTan, this]

/-- The residual of a measurement. -/
theorem residual_flat (v : Var) (x y p q : ℝ) (N : Noise) :
    (g2oFactors (prior v x y N).cls).residual (prior v x y N).self ((prior v x y N).vars.map fun _ => LieGroup.se2.value [1, 0, p, q]) =
      [x - p, y - q, 0] := by
  have : (g2oFactors (prior v x y N).cls).residual (prior v x y N).self ((prior v x y N).vars.map fun _ => LieGroup.se2.value [1, 0, p, q]) =
      LieGroup.se2Log (LieGroup.se2Mul (LieGroup.se2Inv [1, 0, p, q]) [1, 0, x, y]) := rfl
  rw [this]
  have e : LieGroup.se2Mul (LieGroup.se2Inv [1, 0, p, q]) [1, 0, x, y] = [1, 0, x - p, y - q] := by
    simp [LieGroup.se2Mul, LieGroup.se2Inv]
    constructor <;> ring
  rw [e, log_flat]

theorem unit_whiten (a b c : ℝ) : unit.whiten [a, b, c] = .ok [a, b, c] := by
  have h : unit.whiten [a, b, c] = .ok [1 * a, 1 * b, 1 * c] := rfl
  rw [h]; simp

theorem unit_jacobian (a b c : ℝ) : unit.whitenJacobian (negEye 3) [a, b, c] = .ok (negEye 3) := by
  rw [Simple.negEye_eq]
  have h : unit.whitenJacobian ⟨[3, 3], [-1, 0, 0, 0, -1, 0, 0, 0, -1]⟩ [a, b, c] =
    .ok ⟨[3, 3], [1 * -1, 1 * 0, 1 * 0, 1 * 0, 1 * -1, 1 * 0, 1 * 0, 1 * 0, 1 * -1]⟩ := rfl
  rw [h]; simp

/-- The factor by which a measurement at this distance is scaled. -/
noncomputable def scale : Option ℝ → ℝ → ℝ
  | none, _ => 1
  | some d, U => huberWeight d U

theorem wrap_whiten (delta : Option ℝ) (a b : ℝ) :
    (wrap delta).whiten [a, b, 0] = .ok ([a, b, 0].map (· * scale delta (norm2 [a, b, 0]))) := by
  cases delta with
  | none => simp only [wrap, scale, unit_whiten]; simp
  | some d => exact huber_whiten (unit_whiten _ _ _)

theorem wrap_jacobian (delta : Option ℝ) (l : List ℝ) (hl : l.length = 3) :
    (wrap delta).whitenJacobian (negEye 3) l = .ok ⟨[3, 3], (negEye 3).data.map (· * scale delta (norm2 l))⟩ := by
  match l, hl with
  | [a, b, c], _ =>
    cases delta with
    | none => simp only [wrap, scale, unit_jacobian]; simp; rfl
    | some d => exact huber_whitenJacobian (unit_jacobian _ _ _)

theorem scale_mul {delta : Option ℝ} (h : Ok delta) (U : ℝ) : scale delta (scale delta U * U) * scale delta U = phi delta U := by
  cases delta with
  | none => simp [scale, phi]
  | some d => rw [mul_comm]; exact huberWeight_mul (h d rfl)

theorem scale_sq {delta : Option ℝ} (h : Ok delta) (U : ℝ) : scale delta (scale delta U * U) ^ 2 = scale delta U := by
  cases delta with
  | none => simp [scale]
  | some d => exact huberWeight_twice (h d rfl)

theorem scale_nonneg {delta : Option ℝ} (h : Ok delta) (U : ℝ) : 0 ≤ scale delta U := by
  cases delta with
  | none => exact zero_le_one
  | some d => exact (huberWeight_pos (h d rfl)).le

/-- The threshold of a noise model. -/
def threshold : Noise → Option ℝ
  | .huber _ δ => some (δ.data.getD 0 0)
  | _ => none

theorem threshold_wrap (delta : Option ℝ) : threshold (wrap delta) = delta := by cases delta <;> rfl

noncomputable def valAt (p q : ℝ) : Var → Value ℝ := fun _ => LieGroup.se2.value [1, 0, p, q]

noncomputable def wOf (p q : ℝ) (f : Factor) : List ℝ := (whitenedAt g2oFactors (valAt p q) f).toOption.getD []
noncomputable def cOf (p q : ℝ) (f : Factor) : ℝ := scale (threshold f.noise) (norm2 (wOf p q f))
noncomputable def ROf (p q : ℝ) (f : Factor) : List (Arr ℝ) := [⟨[3, 3], (negEye 3).data.map (· * cOf p q f)⟩]

theorem whitened_prior (v : Var) (x y p q : ℝ) (delta : Option ℝ) :
    whitenedAt g2oFactors (valAt p q) (prior v x y (wrap delta)) =
      .ok ([x - p, y - q, 0].map (· * scale delta (norm2 [x - p, y - q, 0]))) := by
  unfold whitenedAt valAt
  rw [residual_flat]
  exact wrap_whiten _ _ _

theorem wOf_prior (v : Var) (x y p q : ℝ) (delta : Option ℝ) :
    wOf p q (prior v x y (wrap delta)) = [x - p, y - q, 0].map (· * scale delta (norm2 [x - p, y - q, 0])) := by
  rw [wOf, whitened_prior]; rfl

theorem cOf_prior (v : Var) (x y p q : ℝ) {delta : Option ℝ} (h : Ok delta) :
    cOf p q (prior v x y (wrap delta)) = scale delta (scale delta (norm2 [x - p, y - q, 0]) * norm2 [x - p, y - q, 0]) := by
  rw [cOf, wOf_prior, norm2_map_mul _ (scale_nonneg h _)]
  show scale (threshold (wrap delta)) _ = _
  rw [threshold_wrap]

theorem ROf_mat (p q : ℝ) (f : Factor) : arrMat ((ROf p q f).getD 0 ⟨[], []⟩) 3 3 = -(cOf p q f • (1 : Matrix (Fin 3) (Fin 3) ℝ)) := by
  have e : (ROf p q f).getD 0 ⟨[], []⟩ = ⟨[3, 3], [-cOf p q f, 0, 0, 0, -cOf p q f, 0, 0, 0, -cOf p q f]⟩ := by
    simp [ROf, Simple.negEye_eq]
  rw [e]
  ext i j
  fin_cases i <;> fin_cases j <;> simp [arrMat]

/-- The pose variable and the assignments. -/
def var (next : Nat) : Var := ⟨se2Ty, next⟩
noncomputable def lay (next : Nat) (loc : Bool) : Layout := Layout.make g2oClasses [var next] loc
noncomputable def at_ (next : Nat) (p q : ℝ) : Assign ℝ := ⟨[1, 0, p, q], lay next false⟩

theorem holds (next n : Nat) (x y : ℝ) (delta : Option ℝ) (p q : ℝ) :
    Holds g2oClasses (outlierFactors (var next) n x y delta) [var next] (valAt p q) (at_ next p q) := by
  refine ⟨⟨by simp, rfl, rfl⟩, rfl, fun v => ?_, fun v hv => ?_⟩
  · rw [List.mem_singleton]
    constructor
    · rintro rfl
      refine ⟨prior (var next) x y (wrap delta), by rw [factors_eq]; simp, by simp [prior]⟩
    · rintro ⟨f, hf, hv⟩
      obtain ⟨x, y, d, rfl, -⟩ := mem_factors hf
      simpa [prior] using hv
  · obtain rfl := List.mem_singleton.1 hv
    have e : (at_ next p q).layout.indexFromVar.get (var next) = .ok 0 :=
      PyDict.get_ok_of (make_index g2oClasses (by simp) false (as := []) (bs := []) (by simp [grouped, firstTypes]))
    unfold Assign.getValue
    rw [e]
    rfl

theorem retract_eq (next : Nat) (p q a b c : ℝ) : (at_ next p q).manifoldRetract g2oClasses ⟨[a, b, c], lay next true⟩ =
    .ok ⟨LieGroup.se2Mul [1, 0, p, q] (LieGroup.se2Exp [a, b, c]), lay next false⟩ := rfl

theorem retract_flat (next : Nat) (p q a b : ℝ) : (at_ next p q).manifoldRetract g2oClasses ⟨[a, b, 0], lay next true⟩ =
    .ok (at_ next (p + a) (q + b)) := by
  rw [retract_eq]
  have : LieGroup.se2Exp [a, b, 0] = [1, 0, a, b] := by simp [LieGroup.se2Exp, LieGroup.sinOver, LieGroup.cosOver]
  rw [this, at_]
  simp [LieGroup.se2Mul, add_comm]

theorem update_eq (next : Nat) (p q : ℝ) : (at_ next p q).updateStorageLayout g2oClasses (lay next false) = .ok (at_ next p q) := by
  have : (lay next false).eq (lay next false) = true := layoutEq_refl g2oClasses (by simp)
  simp only [Assign.updateStorageLayout, at_, this]
  rfl

theorem error_eq (next : Nat) (p q : ℝ) : outlierError next (at_ next p q) = .ok (norm2 [p, q, 0]) := by
  have h1 := (holds next 0 0 0 none p q).values (var next) (by simp)
  have h2 : (at_ next p q).getStackedValue g2oClasses se2Ty = .ok [LieGroup.se2.value [1, 0, p, q]] := rfl
  unfold outlierError
  have h1' : (at_ next p q).getValue g2oClasses ⟨se2Ty, next⟩ = .ok (LieGroup.se2.value [1, 0, p, q]) := h1
  rw [h1', h2]
  have hv : (LieGroup.se2.value [1, 0, p, q]).flatten = [1, 0, p, q] := by simp [LieGroup.value, Value.flatten]
  simp only [py_bind_ok, pyGet, hv]
  have : LieGroup.se2.log [1, 0, p, q] = [p, q, 0] := log_flat p q
  rw [this]
  simp [pyAssert, LieGroup.value, Value.flatten]

/-! ### The position as a multiple of the outlier -/

/-- The distance of `(u x, u y)` from the origin. -/
theorem norm_flat (x y u : ℝ) (hu : 0 ≤ u) : norm2 [u * x, u * y, 0] = u * norm2 [x, y, 0] := by
  rw [← norm2_map_mul _ hu]
  simp [mul_comm]

theorem slope_antitone {d U V : ℝ} (hd : 0 < d) (hUV : U ≤ V) : slope d V ≤ slope d U := by
  unfold slope
  by_cases hV : V < d
  · rw [if_pos hV, if_pos (lt_of_le_of_lt hUV hV)]
  · have hV' := not_lt.1 hV
    have hVp : 0 < V := lt_of_lt_of_le hd hV'
    rw [if_neg hV]
    by_cases hU : U < d
    · rw [if_pos hU]
      exact Real.rpow_le_one (by positivity) ((div_le_one hVp).2 hV') (by norm_num)
    · have hU' := not_lt.1 hU
      rw [if_neg hU]
      exact Real.rpow_le_rpow (by positivity) (div_le_div_of_nonneg_left hd.le (lt_of_lt_of_le hd hU') hUV) (by norm_num)

theorem phi_antitone {delta : Option ℝ} (h : Ok delta) {U V : ℝ} (hUV : U ≤ V) : phi delta V ≤ phi delta U := by
  cases delta with
  | none => exact le_rfl
  | some d => exact slope_antitone (h d rfl) hUV

theorem phi_le_scale {delta : Option ℝ} (h : Ok delta) (U : ℝ) : phi delta U ≤ scale delta U := by
  rw [← scale_mul h]
  have h1 := scale_nonneg h U
  have h2 : scale delta (scale delta U * U) ≤ 1 := by
    cases delta with
    | none => exact le_rfl
    | some d => exact huberWeight_le_one (h d rfl)
  nlinarith

theorem phi_nonneg {delta : Option ℝ} (h : Ok delta) (U : ℝ) : 0 ≤ phi delta U := by
  rw [← scale_mul h]
  exact mul_nonneg (scale_nonneg h _) (scale_nonneg h _)

/-- One step: the position grows, and stays where the gradient pulls towards the outlier. -/
theorem recurrence {delta : Option ℝ} (h : Ok delta) {t u d m : ℝ} (ht : 0 ≤ t) (hm : 0 ≤ m) (hu0 : 0 ≤ u) (hu1 : u ≤ 1)
    (hu : m * u ≤ phi delta ((1 - u) * t) * (1 - u))
    (hd : (m + scale delta ((1 - u) * t) + 1 / 100000) * d = phi delta ((1 - u) * t) * (1 - u) - m * u) :
    0 ≤ d ∧ u + d ≤ 1 ∧ m * (u + d) ≤ phi delta ((1 - (u + d)) * t) * (1 - (u + d)) := by
  have hs := scale_nonneg h ((1 - u) * t)
  have hp := phi_le_scale h ((1 - u) * t)
  have hpos : 0 < m + scale delta ((1 - u) * t) + 1 / 100000 := by positivity
  have hd0 : 0 ≤ d := by
    by_contra hneg
    have : (m + scale delta ((1 - u) * t) + 1 / 100000) * d < 0 := mul_neg_of_pos_of_neg hpos (not_le.1 hneg)
    linarith
  have hd1 : u + d ≤ 1 := by
    have h1 : phi delta ((1 - u) * t) * (1 - u) ≤ scale delta ((1 - u) * t) * (1 - u) := mul_le_mul_of_nonneg_right hp (by linarith)
    have h2 := mul_nonneg hm hu0
    have h3 : 0 ≤ m * (1 - u) := mul_nonneg hm (by linarith)
    have h4 : (m + scale delta ((1 - u) * t) + 1 / 100000) * d ≤ (m + scale delta ((1 - u) * t) + 1 / 100000) * (1 - u) := by nlinarith
    have := le_of_mul_le_mul_left h4 hpos
    linarith
  refine ⟨hd0, hd1, ?_⟩
  have h1 : phi delta ((1 - u) * t) ≤ phi delta ((1 - (u + d)) * t) := phi_antitone h (by nlinarith)
  have h2 : phi delta ((1 - u) * t) * (1 - (u + d)) ≤ phi delta ((1 - (u + d)) * t) * (1 - (u + d)) :=
    mul_le_mul_of_nonneg_right h1 (by linarith)
  have h3 : phi delta ((1 - u) * t) * d ≤ scale delta ((1 - u) * t) * d := mul_le_mul_of_nonneg_right hp hd0
  nlinarith

/-- The step from `(u x, u y)`. -/
theorem linear_step {next n : Nat} {x y : ℝ} {delta : Option ℝ} (h : Ok delta) {u : ℝ} (hu1 : u ≤ 1)
    {g : Graph} (hg : Graph.make g2oClasses (outlierFactors (var next) n x y delta) = .ok g)
    (stale : Pattern → ScipyCoo ℝ → ℝ → List ℝ → Py (List ℝ)) (cache : CholmodCache)
    (addr : Nat) (hcache : ∀ p, cache.get? addr = some p →
      p = ((g.localLayout.dim, g.residualDim), (g.jacobianCoords.map Prod.swap).toFinset)) :
    ∃ r A ATr d, g.computeCost g2oFactors g2oClasses (at_ next (u * x) (u * y)) =
        .ok (n * (u * norm2 [x, y, 0]) ^ 2 + (scale delta ((1 - u) * norm2 [x, y, 0]) * ((1 - u) * norm2 [x, y, 0])) ^ 2, r) ∧
      g.computeWhitenedResidualJacobian g2oFactors g2oClasses (at_ next (u * x) (u * y)) r = .ok A ∧ A.T.matmul r = .ok ATr ∧
      ATr.length = 3 ∧ (cholmodSolve stale cache addr A (ATr.map fun x => -x) 0).1 = .ok [d * x, d * y, 0] ∧
      (n + scale delta ((1 - u) * norm2 [x, y, 0]) + 1 / 100000) * d = phi delta ((1 - u) * norm2 [x, y, 0]) * (1 - u) - n * u := by
  have hC : GoodClasses g2oClasses := lie_goodClasses g2oClasses_eq
  have hnone : Ok none := fun d h => by cases h
  have hok : ∀ f ∈ outlierFactors (var next) n x y delta, ∃ x y d, f = prior (var next) x y (wrap d) ∧ Ok d := by
    intro f hf
    obtain ⟨x', y', d, rfl, hd⟩ := mem_factors hf
    refine ⟨x', y', d, rfl, ?_⟩
    rcases hd with rfl | rfl
    · exact hnone
    · exact h
  obtain ⟨r, A, ATr, D, h1, h2, h3, h4, h5, h6, h7⟩ := single_step (F := g2oFactors) hC (v := var next) (n := 3)
    (fs := outlierFactors (var next) n x y delta)
    (by rw [factors_eq]; simp) (fun f hf => by obtain ⟨x, y, d, rfl, hd⟩ := hok f hf; exact (prior_ok rfl hd).1)
    (fun f hf => by obtain ⟨x, y, d, rfl, hd⟩ := hok f hf; rfl) rfl
    (fun f hf => by obtain ⟨x, y, d, rfl, hd⟩ := hok f hf; exact (prior_ok rfl hd).2)
    (holds next n x y delta (u * x) (u * y)) (w := wOf (u * x) (u * y))
    (fun f hf => by
      obtain ⟨x, y, d, rfl, hd⟩ := hok f hf
      rw [wOf_prior, whitened_prior])
    (R := ROf (u * x) (u * y))
    (fun f hf => by
      obtain ⟨x', y', d, rfl, hd⟩ := hok f hf
      have e : (g2oFactors (prior (var next) x' y' (wrap d)).cls).jacobians (prior (var next) x' y' (wrap d)).self
        ((prior (var next) x' y' (wrap d)).vars.map (valAt (u * x) (u * y))) = [negEye 3] := rfl
      rw [e]
      have e2 : (prior (var next) x' y' (wrap d)).noise = wrap d := rfl
      have e3 := wrap_jacobian d (wOf (u * x) (u * y) (prior (var next) x' y' (wrap d))) (by rw [wOf_prior]; rfl)
      rw [List.mapM_cons, e2, e3]
      simp only [py_bind_ok, List.mapM_nil]
      rw [ROf, cOf, e2, threshold_wrap]
      rfl)
    (c := cOf (u * x) (u * y)) (fun f hf => ROf_mat _ _ _) hg stale cache addr hcache
  obtain ⟨t, ht⟩ : ∃ t, t = norm2 [x, y, 0] := ⟨_, rfl⟩
  have eO : [x - u * x, y - u * y, 0] = [(1 - u) * x, (1 - u) * y, 0] := by
    simp only [List.cons.injEq, and_true]
    constructor <;> ring
  have nO : norm2 [x - u * x, y - u * y, 0] = (1 - u) * t := by rw [eO, norm_flat _ _ _ (by linarith), ht]
  have sq2 : sqNorm [x, y, 0] = t ^ 2 := by
    rw [ht, norm2, Real.sq_sqrt (by simp; positivity), sqNorm]
  have wP : wOf (u * x) (u * y) (prior (var next) 0 0 unit) = [-(u * x), -(u * y), 0] := by
    have := wOf_prior (var next) 0 0 (u * x) (u * y) none
    rw [show wrap none = unit from rfl] at this
    rw [this]; simp [scale]
  have cP : cOf (u * x) (u * y) (prior (var next) 0 0 unit) = 1 := by
    have := cOf_prior (var next) 0 0 (u * x) (u * y) hnone
    rw [show wrap none = unit from rfl] at this
    rw [this]; rfl
  have wO : wOf (u * x) (u * y) (prior (var next) x y (wrap delta)) = [x, y, 0].map (· * ((1 - u) * scale delta ((1 - u) * t))) := by
    rw [wOf_prior, nO, eO]
    simp only [List.map_cons, List.map_nil, zero_mul, List.cons.injEq, and_true]
    constructor <;> ring
  have cO : cOf (u * x) (u * y) (prior (var next) x y (wrap delta)) = scale delta (scale delta ((1 - u) * t) * ((1 - u) * t)) := by
    rw [cOf_prior _ _ _ _ _ h, nO]
  rw [factors_eq] at h1 h7
  simp only [List.map_append, List.map_replicate, List.map_cons, List.map_nil, List.sum_append, List.sum_replicate, List.sum_cons,
    List.sum_nil, add_zero, cP, cO, wP, wO, one_pow, scale_sq h, nsmul_eq_mul, mul_one, one_smul] at h1 h7
  rw [← ht]
  have hpos : 0 < n + scale delta ((1 - u) * t) + 1 / 100000 := by
    have := scale_nonneg h ((1 - u) * t)
    positivity
  obtain ⟨d, hd⟩ : ∃ d, d = (phi delta ((1 - u) * t) * (1 - u) - n * u) / (n + scale delta ((1 - u) * t) + 1 / 100000) := ⟨_, rfl⟩
  have hd' : (n + scale delta ((1 - u) * t) + 1 / 100000) * d = phi delta ((1 - u) * t) * (1 - u) - n * u := by
    rw [hd, mul_div_cancel₀ _ hpos.ne']
  refine ⟨r, A, ATr, d, ?_, h2, h3, h4, ?_, hd'⟩
  · rw [h1]
    congr 2
    have : sqNorm [-(u * x), -(u * y), 0] = (u * t) ^ 2 := by
      rw [mul_pow, ← sq2]
      simp [sqNorm]; ring
    rw [this]
    have : sqNorm [x * ((1 - u) * scale delta ((1 - u) * t)), y * ((1 - u) * scale delta ((1 - u) * t)),
        0 * ((1 - u) * scale delta ((1 - u) * t))] = ((1 - u) * scale delta ((1 - u) * t)) ^ 2 * t ^ 2 := by
      rw [← sq2]
      simp [sqNorm]; ring
    rw [this]
    ring
  · rw [h5]
    congr 1
    have hm := scale_mul h ((1 - u) * t)
    match D, h6, h7 with
    | [d0, d1, d2], _, h7 =>
      have e0 : (n + scale delta ((1 - u) * t) + 1 / 100000) * d0 = n * -(u * x) +
        scale delta (scale delta ((1 - u) * t) * ((1 - u) * t)) * (x * ((1 - u) * scale delta ((1 - u) * t))) := by
        have := congrFun h7 0
        simpa [vec] using this
      have e1 : (n + scale delta ((1 - u) * t) + 1 / 100000) * d1 = n * -(u * y) +
        scale delta (scale delta ((1 - u) * t) * ((1 - u) * t)) * (y * ((1 - u) * scale delta ((1 - u) * t))) := by
        have := congrFun h7 1
        simpa [vec] using this
      have e2 : (n + scale delta ((1 - u) * t) + 1 / 100000) * d2 = n * 0 +
        scale delta (scale delta ((1 - u) * t) * ((1 - u) * t)) * (0 * ((1 - u) * scale delta ((1 - u) * t))) := by
        have := congrFun h7 2
        simpa [vec] using this
      have k0 : d0 = d * x := mul_left_cancel₀ hpos.ne' (by rw [e0]; linear_combination (1 - u) * x * hm - x * hd')
      have k1 : d1 = d * y := mul_left_cancel₀ hpos.ne' (by rw [e1]; linear_combination (1 - u) * y * hm - y * hd')
      have k2 : d2 = 0 := mul_left_cancel₀ hpos.ne' (by rw [e2]; ring)
      rw [k0, k1, k2]

theorem problem_ok (next n : Nat) (x y : ℝ) {delta : Option ℝ} (h : Ok delta) :
    ∃ g, outlierProblem next n x y delta = .ok (g, at_ next 0 0) ∧ Graph.make g2oClasses (outlierFactors (var next) n x y delta) = .ok g ∧
      g.layout = lay next false ∧ g.localLayout = lay next true := by
  have hnone : Ok none := fun d h => by cases h
  obtain ⟨g, hg, hG⟩ := graph_ok (F := g2oFactors) (C := g2oClasses) (fs := outlierFactors (var next) n x y delta) (fun f hf => by
    obtain ⟨x', y', d, rfl, hd⟩ := mem_factors hf
    refine (prior_ok rfl ?_).1
    rcases hd with rfl | rfl
    · exact hnone
    · exact h) (by rw [factors_eq]; simp)
  have hvs : Graph.variablesOf (outlierFactors (var next) n x y delta) = [var next] := by
    obtain ⟨h1, h2⟩ := variablesOf_spec (outlierFactors (var next) n x y delta)
    refine List.perm_singleton.1 ((List.perm_ext_iff_of_nodup h1 (by simp)).2 fun v => ?_)
    rw [h2, ← (holds next n x y delta 0 0).sameVars]
  refine ⟨g, ?_, hg, by rw [hG.layout, hvs]; rfl, by rw [hG.localLayout, hvs]; rfl⟩
  have hd : Assign.makeFromDefaults g2oClasses [var next] = .ok (at_ next 0 0) := rfl
  have hv : pyGet [(⟨se2Ty, next⟩ : Var)] 0 = .ok (var next) := rfl
  unfold outlierProblem
  simp only [hv, py_bind_ok, hg]
  rw [show Assign.makeFromDefaults g2oClasses [⟨se2Ty, next⟩] = .ok (at_ next 0 0) from hd]
  rfl

/-- What holds of the position during the iterations. -/
def Good (n : Nat) (t : ℝ) (delta : Option ℝ) (k : Nat) (u : ℝ) : Prop :=
  0 ≤ u ∧ u ≤ 1 ∧ n * u ≤ phi delta ((1 - u) * t) * (1 - u) ∧ (k = 0 → u = 0) ∧
    (0 < k → phi delta t ≤ (n + scale delta t + 1 / 100000) * u)

theorem good_step {n : Nat} {t : ℝ} (ht : 0 ≤ t) {delta : Option ℝ} (h : Ok delta) {k : Nat} {u d : ℝ} (hu : Good n t delta k u)
    (hd : (n + scale delta ((1 - u) * t) + 1 / 100000) * d = phi delta ((1 - u) * t) * (1 - u) - n * u) :
    Good n t delta (k + 1) (u + d) := by
  obtain ⟨h0, h1, h2, h3, h4⟩ := hu
  obtain ⟨k0, k1, k2⟩ := recurrence h ht (Nat.cast_nonneg n) h0 h1 h2 hd
  refine ⟨by linarith, k1, k2, fun h => by omega, fun _ => ?_⟩
  rcases Nat.eq_zero_or_pos k with hk | hk
  · obtain rfl := h3 hk
    simp only [sub_zero, one_mul, mul_one, mul_zero] at hd
    rw [zero_add, hd]
  · have hs := scale_nonneg h t
    refine (h4 hk).trans (mul_le_mul_of_nonneg_left (by linarith) (by positivity))

/-- Gauss-Newton with CHOLMOD on the problem. -/
theorem gn_solve {next n : Nat} {x y : ℝ} {delta : Option ℝ} (h : Ok delta) {g : Graph}
    (hg : Graph.make g2oClasses (outlierFactors (var next) n x y delta) = .ok g) (hl1 : g.layout = lay next false)
    (hl2 : g.localLayout = lay next true) {stale : Pattern → ScipyCoo ℝ → ℝ → List ℝ → Py (List ℝ)} {cache : Nat → CholmodCache}
    {addr : Nat} (hcache : ∀ i p, (cache i).get? addr = some p →
      p = ((g.localLayout.dim, g.residualDim), (g.jacobianCoords.map Prod.swap).toFinset))
    {CE : Ty → VarClass Ext} {gE : GraphOps Ext} (hL : Lifts CE gE g2oClasses (g.ops g2oFactors g2oClasses))
    {sE : GaussNewton Ext} {s : GaussNewton ℝ} (hs : LiftsGN sE s)
    (hlin : s.linear = fun A b l i => (cholmodSolve stale (cache i) addr A b l).1) :
    ∃ u k log, Good n (norm2 [x, y, 0]) delta k u ∧ 0 < k ∧ ∀ fuel : Nat, max 1 s.maxIterations ≤ fuel →
      sE.solve CE gE fuel ((at_ next 0 0).map Ext.fin) = .ok (some ((at_ next (u * x) (u * y)).map Ext.fin, log)) := by
  obtain ⟨t, ht⟩ : ∃ t, t = norm2 [x, y, 0] := ⟨_, rfl⟩
  have ht0 : 0 ≤ t := by rw [ht]; exact Real.sqrt_nonneg _
  rw [← ht]
  obtain ⟨P, hP⟩ : ∃ P : State Ext → Prop, P = fun st => ∃ (k : Nat) (u c : ℝ) (r : List ℝ) (d : Bool), Good n t delta k u ∧
    g.computeCost g2oFactors g2oClasses (at_ next (u * x) (u * y)) = .ok (c, r) ∧
    st = State.map Ext.fin ⟨k, at_ next (u * x) (u * y), c, r, d⟩ := ⟨_, rfl⟩
  have hstep : ∀ st, P st → ∃ st' log, sE.step CE gE st = .ok (st', log) ∧ P st' := by
    intro st hst
    rw [hP] at hst
    obtain ⟨k, u, c, r, dn, hu, hc, rfl⟩ := hst
    obtain ⟨r', A, ATr, d, e1, e2, e3, e4, e5, e6⟩ := linear_step h hu.2.1 hg stale (cache k) addr (hcache k)
    rw [hc] at e1
    obtain ⟨-, rfl⟩ := Prod.mk.inj (Except.ok.inj e1)
    rw [← ht] at e6
    have hu' := good_step ht0 h hu e6
    obtain ⟨r'', -, -, -, e7, -⟩ := linear_step h hu'.2.1 hg stale (cache k) addr (hcache k)
    have hret : (at_ next (u * x) (u * y)).manifoldRetract g2oClasses ⟨[d * x, d * y, 0], (g.ops g2oFactors g2oClasses).localLayout⟩ =
        .ok (at_ next ((u + d) * x) ((u + d) * y)) := by
      show (at_ next (u * x) (u * y)).manifoldRetract g2oClasses ⟨[d * x, d * y, 0], g.localLayout⟩ = _
      rw [hl2, retract_flat, add_mul, add_mul]
    have hconv : ∃ conv, convergedTest g2oClasses s.toCriteria ⟨k, at_ next (u * x) (u * y), c, r, dn⟩
        (n * ((u + d) * norm2 [x, y, 0]) ^ 2 + (scale delta ((1 - (u + d)) * norm2 [x, y, 0]) * ((1 - (u + d)) * norm2 [x, y, 0])) ^ 2)
        [d * x, d * y, 0] g.localLayout (ATr.map fun x => -x) = .ok conv := by
      match ATr, e4 with
      | [a, b, c'], _ =>
        unfold convergedTest gradientTest
        rw [hl2]
        simp only [List.map_cons, List.map_nil, retract_eq, py_bind_ok]
        exact ⟨_, rfl⟩
    obtain ⟨conv, hconv⟩ := hconv
    refine ⟨_, _, (gnStep_fin hL hs).2 ⟨A, ATr, [d * x, d * y, 0], _, _, r'', conv, e2, e3, ?_, hret, e7, hconv, rfl, rfl⟩, ?_⟩
    · rw [hlin]; exact e5
    · rw [hP]
      exact ⟨k + 1, u + d, _, r'', _, hu', e7, rfl⟩
  -- the start
  have hin : ∀ p q, ((at_ next p q).map Ext.fin).updateStorageLayout CE (lay next false) = .ok ((at_ next p q).map Ext.fin) := by
    intro p q
    rw [hL.updateStorageLayout, update_eq]; rfl
  have hgood0 : Good n t delta 0 0 := by
    refine ⟨le_rfl, zero_le_one, ?_, fun _ => rfl, fun h => absurd h (lt_irrefl _)⟩
    have := phi_nonneg h ((1 - 0) * t)
    simpa using this
  have hinit : ∃ st, initState gE ((at_ next 0 0).map Ext.fin) = .ok st ∧ P st := by
    obtain ⟨r₀, -, -, -, e0, -⟩ := linear_step h hgood0.2.1 hg stale (cache 0) addr (hcache 0)
    have e0' := e0
    rw [zero_mul, zero_mul] at e0'
    refine ⟨_, (initState_fin hL).2 ⟨_, r₀, e0', rfl⟩, ?_⟩
    rw [hP]
    refine ⟨0, 0, _, r₀, false, hgood0, e0, ?_⟩
    rw [zero_mul x, zero_mul y]
  obtain ⟨st₀, hst, hP₀⟩ := hinit
  have hlayE : gE.layout = lay next false := hL.layout.trans hl1
  have hout : ∀ st, P st → ∃ u, Good n t delta st.iterations u ∧
      st.assignments.updateStorageLayout CE ((at_ next 0 0).map Ext.fin).layout = .ok ((at_ next (u * x) (u * y)).map Ext.fin) := by
    intro st hst
    rw [hP] at hst
    obtain ⟨k, u, c, r, d, hu, -, rfl⟩ := hst
    exact ⟨u, hu, hin _ _⟩
  have hm : sE.maxIterations = s.maxIterations := congrArg Criteria.maxIterations hs.criteria
  have hend := C38_gauss_newton CE gE sE ((at_ next 0 0).map Ext.fin)
  rw [hm] at hend
  rcases hend with ⟨e, he⟩ | ⟨b', st, k, st', log, o, log', h1, h2, h3, hk, -, -, h4, h5⟩
  · exfalso
    have he := he (max 1 s.maxIterations).toNat (by omega)
    obtain ⟨r, hr, hr1⟩ := whileLoop_progress (done := fun s => (id s : State Ext).done) hstep (max 1 s.maxIterations).toNat st₀ hP₀
    unfold GaussNewton.solve baseSolve at he
    rw [hlayE, hin] at he
    simp only [py_bind_ok, hst, hr] at he
    cases r with
    | none => cases he
    | some p =>
      obtain ⟨u, -, ho⟩ := hout _ (hr1 p.1 p.2 rfl)
      simp only [id, ho, py_bind_ok] at he
      cases he
  · rw [hlayE, hin] at h1; cases h1
    rw [hst] at h2; cases h2
    have hP' : P st' := h3.invariant (P := P) (fun s s' l hs hst => by
      obtain ⟨s2, l2, e1, e2⟩ := hstep s hs
      rw [hst] at e1; cases e1; exact e2) hP₀
    obtain ⟨u, hu, ho⟩ := hout _ hP'
    have hit := (gn_counted sE).runs h3
    have h4' : st'.assignments.updateStorageLayout CE ((at_ next 0 0).map Ext.fin).layout = .ok o := h4
    rw [ho] at h4'; cases h4'
    refine ⟨u, st'.iterations, log', hu, ?_, h5⟩
    have : st'.iterations = st₀.iterations + k := hit
    omega

end Outlier

end Jaxfg
