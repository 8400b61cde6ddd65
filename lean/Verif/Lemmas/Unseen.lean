/- Directions of motion that no measurement sees: whitened Jacobians, and problems whose solvers do not move along them. -/
import Verif.Spec.Unseen
import Verif.Lemmas.Anchored
import Verif.Lemmas.Symmetry
import Verif.Lemmas.CgSolve

namespace Jaxfg
open Spec
open Matrix hiding vec
open Ext (fin)

/-- A noise model multiplies all Jacobians of one factor from the left by one matrix. -/
theorem whitenJacobian_linear {N : Noise} {n : Nat} (hN : NoiseWF N n n) {r : List ℝ} (hr : r.length = n) :
    ∃ W : Matrix (Fin n) (Fin n) ℝ, ∀ (m : Nat) (J : Arr ℝ), IsMat J n m →
      ∃ R, N.whitenJacobian J r = .ok R ∧ IsMat R n m ∧ arrMat R n m = W * arrMat J n m := by
  induction N with
  | gaussian W => exact ⟨arrMat W n n, fun m J hJ => whitenJacobian_gaussian hN trivial hJ hr⟩
  | diagonal d => exact ⟨noiseMat (.diagonal d) n n, fun m J hJ => whitenJacobian_gaussian hN trivial hJ hr⟩
  | huber w δ ih =>
    obtain ⟨hw, d, rfl, hd⟩ := hN
    obtain ⟨W, h2⟩ := ih hw
    refine ⟨huberWeight d (norm2 r) • W, fun m J hJ => ?_⟩
    obtain ⟨R, h3, h4, h5⟩ := h2 m J hJ
    refine ⟨_, huber_whitenJacobian h3, ⟨h4.1, by simpa using h4.2⟩, ?_⟩
    rw [smul_mul, ← h5]
    funext i j
    simp only [Matrix.smul_apply, smul_eq_mul, arrMat, List.getD_eq_getElem?_getD, List.getElem?_map]
    cases R.data[i.val * m + j.val]? <;> simp [mul_comm]

section
variable {F : Nat → FactorClass} {C : Ty → VarClass ℝ} {fs : List Factor} {g : Graph} {u : Var → List ℝ}

/-- What is zero before whitening is zero afterwards. -/
theorem whitened_blocks_zero {f : Factor} (hf : FactorWF F C f) {vals : List (Value ℝ)} (hv : ValuesFor C f.vars vals) {r : List ℝ}
    (hr : r.length = rdim f) {R : List (Arr ℝ)}
    (hR : ((F f.cls).jacobians f.self vals).mapM (fun J => f.noise.whitenJacobian J r) = .ok R)
    (h0 : applyBlocks C (rdim f) f.vars ((F f.cls).jacobians f.self vals) u = 0) : applyBlocks C (rdim f) f.vars R u = 0 := by
  obtain ⟨W, hW⟩ := whitenJacobian_linear hf.noise hr
  have hJ := hf.jacobians vals hv
  have key : ∀ {vs : List Var} {Js R : List (Arr ℝ)}, List.Forall₂ (fun v J => IsMat J (rdim f) (C v.ty).localDim) vs Js →
      Js.mapM (fun J => f.noise.whitenJacobian J r) = .ok R →
      applyBlocks C (rdim f) vs R u = W *ᵥ applyBlocks C (rdim f) vs Js u := by
    intro vs Js R h
    induction h generalizing R with
    | nil =>
      intro h
      cases h
      simp [applyBlocks]
    | @cons v J vs Js h1 h2 ih =>
      intro h
      obtain ⟨R0, k1, -, k3⟩ := hW _ J h1
      simp only [List.mapM_cons, k1, py_bind_ok, py_bind_eq_ok, py_pure] at h
      obtain ⟨Rs, h3, h4⟩ := h
      cases h4
      have := ih h3
      unfold applyBlocks at this ⊢
      simp only [List.zip_cons_cons, List.map_cons, List.sum_cons, mulVec_add]
      rw [this, k3, ← mulVec_mulVec]
  rw [key hJ hR, h0, mulVec_zero]

/-- The Jacobians of a measurement map the directions it does not see to zero. -/
theorem Spec.Unseen.blocks (h : Unseen F C fs u) {f : Factor} (hf : f ∈ fs) {vals : List (Value ℝ)} (hv : ValuesFor C f.vars vals)
    (hJ : JacobiansCorrect F C f vals) : applyBlocks C (rdim f) f.vars ((F f.cls).jacobians f.self vals) u = 0 := by
  have hd := hJ (f.vars.map u) (by
    rw [List.forall₂_map_right_iff, List.forall₂_same]
    exact fun v hv => h.length f hf v hv)
  have hc : (fun t : ℝ => vec ((F f.cls).residual f.self (movedValues C f.vars vals (f.vars.map u) t)) (rdim f)) =
      fun _ => vec ((F f.cls).residual f.self vals) (rdim f) := by
    funext t
    rw [h.residual f hf vals hv]
  rw [hc] at hd
  have := hd.unique (hasDerivAt_const (0 : ℝ) (vec ((F f.cls).residual f.self vals) (rdim f)))
  rw [← this]
  unfold applyBlocks
  generalize (F f.cls).jacobians f.self vals = Js
  generalize f.vars = vs
  induction vs generalizing Js with
  | nil => rfl
  | cons v vs ih =>
    cases Js with
    | nil => rfl
    | cons J Js =>
      simp only [List.zip_cons_cons, List.map_cons, List.sum_cons]
      rw [ih Js]

/-- A direction as a vector of local coordinates, in the order of the graph. -/
def stacked (fs : List Factor) (u : Var → List ℝ) : List ℝ := (grouped (Graph.variablesOf fs)).flatMap u

theorem stacked_rep (hg : GraphOf F C fs g) (hlen : ∀ f ∈ fs, ∀ v ∈ f.vars, (u v).length = (C v.ty).localDim) :
    Rep C (Graph.variablesOf fs) true u ⟨stacked fs u, g.localLayout⟩ := by
  have hs := variablesOf_spec fs
  refine ⟨hs.1, hg.localLayout, fun v hv => ?_, rfl⟩
  obtain ⟨f, hf, hv⟩ := (hs.2 v).1 hv
  simpa [dimOf] using hlen f hf v hv

/-- The Jacobian of a graph maps a direction to zero if those of all factors do. -/
theorem jacobian_stacked (hC : GoodClasses C) (hfs : ∀ f ∈ fs, FactorWF F C f) (hne : fs ≠ []) (hg : GraphOf F C fs g)
    {vars : List Var} {val : Var → Value ℝ} {a : Assign ℝ} (h : Holds C fs vars val a) {w : Factor → List ℝ}
    (hw : ∀ f ∈ fs, (w f).length = rdim f) {A : Coo ℝ}
    (hA : g.computeWhitenedResidualJacobian F C a ((evalOrder fs).flatMap w) = .ok A)
    (hlen : ∀ f ∈ fs, ∀ v ∈ f.vars, (u v).length = (C v.ty).localDim)
    (h0 : ∀ f ∈ fs, applyBlocks C (rdim f) f.vars ((F f.cls).jacobians f.self (f.vars.map val)) u = 0) :
    cooMatrix A A.shape.1 A.shape.2 *ᵥ vec (stacked fs u) A.shape.2 = 0 := by
  obtain ⟨R, hR⟩ : ∃ R : Factor → List (Arr ℝ), ∀ f ∈ fs,
      ((F f.cls).jacobians f.self (f.vars.map val)).mapM (fun J => f.noise.whitenJacobian J (w f)) = .ok (R f) ∧
        (R f).length = f.vars.length := by
    have : ∀ f : Factor, ∃ R', f ∈ fs →
        ((F f.cls).jacobians f.self (f.vars.map val)).mapM (fun J => f.noise.whitenJacobian J (w f)) = .ok R' ∧
          R'.length = f.vars.length :=
      fun f => by
        by_cases hf : f ∈ fs
        · obtain ⟨R', e1, e2⟩ := whitenedJacobians_ok (hfs f hf) (h.valuesFor hC hf) (hw f hf)
          exact ⟨R', fun _ => ⟨e1, e2.length_eq.symm⟩⟩
        · exact ⟨[], fun h => absurd h hf⟩
    choose R hR using this
    exact ⟨R, hR⟩
  obtain ⟨A0, hJ, hwf, hshape, -, -, hmul⟩ := jacobian_ok hC hfs hne hg h hw fun f hf => (hR f hf).1
  obtain rfl : A0 = A := Except.ok.inj (hJ.symm.trans hA)
  have hrep := stacked_rep hg hlen
  have hxl : (stacked fs u).length = g.localLayout.dim := hrep.storage_length'
  obtain ⟨-, m1, m2⟩ := matmul_vec hwf (hmul _ hxl)
  have hperm : (evalOrder fs).Perm fs := by unfold evalOrder; exact groupedBy_perm kind fs
  rw [← m2, vec_eq_zero_iff m1, List.eq_replicate_iff]
  refine ⟨m1, fun y hy => ?_⟩
  obtain ⟨f, hf, hy⟩ := List.mem_flatMap.1 hy
  have hf := hperm.mem_iff.1 hf
  have e1 : vec (facProd C (posIn g.localLayout) R (stacked fs u) f) (rdim f) = 0 := by
    have : vec (facProd C (posIn g.localLayout) R (stacked fs u) f) (rdim f) =
        applyBlocks C (rdim f) f.vars (R f) (block C ⟨stacked fs u, g.localLayout⟩) := by
      rw [hg.localLayout]
      exact Props.vec_facProd hf (hR f hf).2
    rw [this, ← whitened_blocks_zero (hfs f hf) (h.valuesFor hC hf) (hw f hf) (hR f hf).1 (h0 f hf)]
    unfold applyBlocks
    congr 1
    apply List.map_congr_left
    intro p hp
    have : p.1 ∈ f.vars := (List.of_mem_zip hp).1
    rw [hrep.block_eq (mem_variablesOf hf this)]
  rw [vec_eq_zero_iff length_facProd, List.eq_replicate_iff] at e1
  exact e1.2 y hy

/-! ### Inner products -/

theorem vdot_add {n : Nat} {x a b : List ℝ} (hx : x.length = n) (ha : a.length = n) (hb : b.length = n) :
    vdot x (List.zipWith (· + ·) a b) = vdot x a + vdot x b := by
  rw [vdot_eq hx (by simp [ha, hb]), vdot_eq hx ha, vdot_eq hx hb, ← dotProduct_add]
  congr 1
  funext i
  rw [vec_zipWith ha hb]; rfl

theorem vdot_sub {n : Nat} {x a b : List ℝ} (hx : x.length = n) (ha : a.length = n) (hb : b.length = n) :
    vdot x (List.zipWith (· - ·) a b) = vdot x a - vdot x b := by
  rw [vdot_eq hx (by simp [ha, hb]), vdot_eq hx ha, vdot_eq hx hb, ← dotProduct_sub]
  congr 1
  funext i
  rw [vec_zipWith ha hb]; rfl

theorem vdot_mapMul {n : Nat} {x a : List ℝ} (hx : x.length = n) (ha : a.length = n) (c : ℝ) :
    vdot x (a.map fun y => c * y) = c * vdot x a := by
  rw [vdot_eq hx (by simp [ha]), vdot_eq hx ha, ← smul_eq_mul, ← dotProduct_smul]
  congr 1
  funext i
  rw [vec_map ha]; rfl

theorem vdot_neg {n : Nat} {x a : List ℝ} (hx : x.length = n) (ha : a.length = n) :
    vdot x (a.map fun y => -y) = -vdot x a := by
  have := vdot_mapMul hx ha (-1)
  simpa using this

/-! ### Solvers -/

/-- As `SymR` with the identity, and the inner product with `x` is `k`. -/
def KeepR (C : Ty → VarClass ℝ) (ws : List Var) (x : List ℝ) (k : ℝ) (a a' : Assign ℝ) : Prop :=
  SymR C ws (fun _ x => x) (fun _ _ => True) a a' ∧ vdot x a.storage = k

def KeepD (n : Nat) (x : List ℝ) (d d' : List ℝ) : Prop := SymD n d d' ∧ vdot x d = 0

def KeepJ (fs : List Factor) (n : Nat) (x : List ℝ) (A A' : Coo ℝ) : Prop :=
  SymJ fs id n A A' ∧ cooMatrix A A.shape.1 A.shape.2 *ᵥ vec x A.shape.2 = 0

/-- Solvers only move in directions orthogonal to `x`, if all Jacobians map `x` to zero. -/
theorem orthogonal_sim (hC : GoodClasses C) (hfs : ∀ f ∈ fs, FactorWF F C f) (hne : fs ≠ []) (hg : GraphOf F C fs g)
    (hE : Props.UsesDefaultRetraction C (Graph.variablesOf fs)) {L : LinSolver ℝ} (hL : SizedSolutions L) (hO : OrthogonalSolutions L)
    {x : List ℝ} (hxl : x.length = g.localLayout.dim)
    (h0 : ∀ val a w A, Holds C fs (Graph.variablesOf fs) val a → (∀ f ∈ fs, (w f).length = rdim f) →
      g.computeWhitenedResidualJacobian F C a ((evalOrder fs).flatMap w) = .ok A →
      cooMatrix A A.shape.1 A.shape.2 *ᵥ vec x A.shape.2 = 0) (k : ℝ) :
    Sim C C (g.ops F C) (g.ops F C) L L (KeepR C (Graph.variablesOf fs) x k) (SymQ fs id)
      (KeepD g.localLayout.dim x) (KeepJ fs g.localLayout.dim x) := by
  have hS : IsSymmetry F C fs id (fun _ x => x) (fun _ _ => True) := ⟨fun _ _ => rfl, fun _ _ => rfl, fun _ _ => rfl, fun _ _ => rfl,
    fun _ _ h _ => h, fun _ _ _ _ _ => rfl, fun _ _ _ _ => rfl, fun v x d h1 h2 h3 => ⟨trivial, rfl⟩⟩
  have hG' : GraphOf F C (fs.map id) g := by rw [List.map_id]; exact hg
  have sim := symmetry_sim (L := L) hC hfs hne hS hfs hg hG' hL
  have hs := variablesOf_spec fs
  constructor
  case cost =>
    rintro a a' c r ⟨h1, -⟩ hc
    exact sim.cost h1 hc
  case jac =>
    rintro a a' r r' A ⟨h1, -⟩ ⟨hQ, b, b', c, hb, hc⟩ hA
    obtain ⟨A', k1, k2⟩ := sim.jac h1 ⟨hQ, b, b', c, hb.1, hc⟩ hA
    obtain ⟨val, s1, -, -⟩ := h1
    obtain ⟨rfl, w, hw, rfl⟩ := hQ
    have hh : Holds C fs (Graph.variablesOf fs) val a := s1.holds hs.2
    exact ⟨A', k1, k2, h0 _ _ _ _ hh hw hA⟩
  case grad =>
    rintro A A' r r' z ⟨h1, h2⟩ hQ hz
    obtain ⟨z', k1, k2⟩ := sim.grad h1 hQ hz
    refine ⟨z', k1, k2, ?_⟩
    obtain ⟨-, hwf, hn, -⟩ := h1
    obtain ⟨m0, m1, m2⟩ := matmul_vec (Props.cooWF_T hwf) hz
    have m1' : z.length = A.shape.2 := m1
    have m2' : vec z A.shape.2 = (cooMatrix A A.shape.1 A.shape.2)ᵀ *ᵥ vec r A.shape.1 := by
      rw [← Props.cooMatrix_T]; exact m2
    rw [vdot_eq (hxl.trans hn.symm) m1', m2', dotProduct_mulVec, vecMul_transpose, h2, zero_dotProduct]
  case mul =>
    rintro A A' d d' y ⟨h1, -⟩ ⟨h2, -⟩ hy
    exact sim.mul h1 h2 hy
  case linear =>
    rintro A A' b b' l i y ⟨h1, h2⟩ ⟨h3, h4⟩ hy
    obtain ⟨y', k1, k2⟩ := sim.linear h1 h3 hy
    refine ⟨y', k1, k2, ?_⟩
    obtain ⟨-, hwf, hn, -⟩ := h1
    have hb : b.length = A.shape.2 := by rw [h3.2, hn]
    have hyl : y.length = A.shape.2 := hL _ _ _ _ _ hwf hb hy
    rw [vdot_eq (hxl.trans hn.symm) hb] at h4
    rw [vdot_eq (hxl.trans hn.symm) hyl]
    exact hO _ _ _ _ _ hwf hb hy _ h2 h4
  case retract =>
    rintro a a' d d' b ⟨h1, h2⟩ ⟨h3, h4⟩ hb
    obtain ⟨b', k1, k2⟩ := sim.retract h1 h3 hb
    refine ⟨b', k1, k2, ?_⟩
    obtain ⟨val, s1, -, -⟩ := h1
    have hd : d.length = g.localLayout.dim := h3.2
    obtain ⟨e1, e2⟩ := Props.retract_adds C hC (Graph.variablesOf fs) a ⟨d, g.localLayout⟩ s1.1.isAssignment s1.1.flag
      ⟨hs.1, by simp only [hg.localLayout, make_localFlag], hd⟩ (by simp only [hg.localLayout, make_localFlag]) hE
    have hb : a.manifoldRetract C ⟨d, g.localLayout⟩ = .ok b := hb
    rw [e1] at hb
    cases hb
    rw [vdot_add hxl (e2.trans hd) hd, h2, h4, add_zero]
  case size => rintro a a' ⟨h, -⟩; exact sim.size h
  case wf => rintro A A' ⟨h, -⟩; exact sim.wf h
  case qlen => exact sim.qlen
  case qneg => exact sim.qneg
  case qpred => exact sim.qpred
  case qsq => exact sim.qsq
  case dlen => rintro d d' ⟨h, -⟩; exact sim.dlen h
  case dneg => rintro d d' ⟨h, h'⟩; exact ⟨sim.dneg h, by rw [vdot_neg hxl h.2, h', neg_zero]⟩
  case dmul => rintro d d' c ⟨h, h'⟩; exact ⟨sim.dmul c h, by rw [vdot_mapMul hxl h.2, h', mul_zero]⟩
  case dadd => rintro d d' e e' ⟨h, h'⟩ ⟨i, i'⟩; exact ⟨sim.dadd h i, by rw [vdot_add hxl h.2 i.2, h', i', add_zero]⟩
  case dsub => rintro d d' e e' ⟨h, h'⟩ ⟨i, i'⟩; exact ⟨sim.dsub h i, by rw [vdot_sub hxl h.2 i.2, h', i', sub_zero]⟩
  case ddot => rintro d d' e e' ⟨h, -⟩ ⟨i, -⟩; exact sim.ddot h i

theorem unseen_sim (hC : GoodClasses C) (hfs : ∀ f ∈ fs, FactorWF F C f) (hne : fs ≠ []) (hg : GraphOf F C fs g)
    (hE : Props.UsesDefaultRetraction C (Graph.variablesOf fs)) {L : LinSolver ℝ} (hL : SizedSolutions L) (hO : OrthogonalSolutions L)
    (hlen : ∀ f ∈ fs, ∀ v ∈ f.vars, (u v).length = (C v.ty).localDim)
    (h0 : ∀ f ∈ fs, ∀ vals, ValuesFor C f.vars vals →
      applyBlocks C (rdim f) f.vars ((F f.cls).jacobians f.self vals) u = 0) (k : ℝ) :
    Sim C C (g.ops F C) (g.ops F C) L L (KeepR C (Graph.variablesOf fs) (stacked fs u) k) (SymQ fs id)
      (KeepD g.localLayout.dim (stacked fs u)) (KeepJ fs g.localLayout.dim (stacked fs u)) :=
  orthogonal_sim hC hfs hne hg hE hL hO (stacked_rep hg hlen).storage_length'
    (fun _ _ _ _ hh hw hA => jacobian_stacked hC hfs hne hg hh hw hA hlen fun f hf => h0 f hf _ (hh.valuesFor hC hf)) k

end

end Jaxfg
