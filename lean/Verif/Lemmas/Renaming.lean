/- Solving a problem with other names of variables and classes. -/
import Verif.Spec.Renaming
import Verif.Lemmas.OrderSim

namespace Jaxfg
open Matrix hiding vec
open Spec
open Ext (fin)

section
variable {F F' : Nat → FactorClass} {C C' : Ty → VarClass ℝ} {ρ : Var → Var} {φ : Factor → Factor} {fs fs' : List Factor}

theorem Stores.congr {ws : List Var} {val val' : Var → Value ℝ} {a : Assign ℝ} (h : Stores C ws val a) (hv : ∀ v ∈ ws, val' v = val v) :
    Stores C ws val' a :=
  ⟨h.1.congr fun v hw => by rw [hv v hw], fun v hw => by rw [hv v hw]; exact h.2 v hw⟩

/-- The product of a factor's Jacobians with a vector only depends on the blocks of the factor's variables, not on their names. -/
theorem facProd_renamed {vars ws : List Var} {e : Var → List ℝ} {x x' : List ℝ} {l l' : Layout} (h : Rep C vars true (fun v => e (ρ v)) ⟨x, l⟩)
    (h' : Rep C' ws true e ⟨x', l'⟩) {R R' : Factor → List (Arr ℝ)} {f f' : Factor} (hR : R f = R' f') (hd : rdim f' = rdim f)
    (hf : f'.vars = f.vars.map ρ) (hc : ∀ v ∈ f.vars, C' (ρ v).ty = C v.ty) (hv : ∀ v ∈ f.vars, v ∈ vars)
    (hw : ∀ v ∈ f'.vars, v ∈ ws) : facProd C (posIn l) R x f = facProd C' (posIn l') R' x' f' := by
  have read : ∀ {B : Ty → VarClass ℝ} {us : List Var} {e : Var → List ℝ} {z : List ℝ} {k : Layout} (_ : Rep B us true e ⟨z, k⟩) (v : Var),
      v ∈ us → ∀ c < (B v.ty).localDim, z.getD (posIn k v + c) 0 = (e v).getD c 0 := by
    intro B us e z k hr v hv c hc
    obtain ⟨i, h1, -, h3⟩ := hr.index hv
    simp only at h1 h3
    have : posIn k v = i := by rw [posIn, h1]; rfl
    rw [this, ← h3]
    unfold slice
    have hd : c < dimOf B true v.ty := hc
    simp only [List.getD_eq_getElem?_getD]
    rw [List.getElem?_take_of_lt hd, List.getElem?_drop]
  unfold facProd
  rw [hd, hf, List.length_map]
  apply List.map_congr_left
  intro r _
  apply Finset.sum_congr rfl
  intro i hi
  have hi : i < f.vars.length := Finset.mem_range.1 hi
  have e1 : f.vars.getD i ⟨0, 0⟩ = f.vars[i] := by rw [List.getD_eq_getElem?_getD, List.getElem?_eq_getElem hi]; rfl
  have e2 : (f.vars.map ρ).getD i ⟨0, 0⟩ = ρ f.vars[i] := by
    rw [List.getD_eq_getElem?_getD, List.getElem?_map, List.getElem?_eq_getElem hi]; rfl
  have hm : f.vars[i] ∈ f.vars := List.getElem_mem hi
  have hm' : ρ f.vars[i] ∈ f'.vars := by rw [hf]; exact List.mem_map_of_mem hm
  rw [e1, e2, hR]
  unfold blockProd
  rw [hc _ hm]
  apply Finset.sum_congr rfl
  intro c hcc
  have hcc : c < _ := Finset.mem_range.1 hcc
  rw [read h _ (hv _ hm) c hcc, read h' _ (hw _ hm') c (by rw [hc _ hm]; exact hcc)]

/-! ### The two problems -/

theorem Spec.Renamed.mem (h : Renamed F F' C C' ρ φ fs fs') {f : Factor} (hf : f ∈ fs) : φ f ∈ fs' := h.factors.mem_iff.1 (List.mem_map_of_mem hf)

theorem Spec.Renamed.exists_mem (h : Renamed F F' C C' ρ φ fs fs') {f' : Factor} (hf : f' ∈ fs') : ∃ f ∈ fs, φ f = f' :=
  List.mem_map.1 (h.factors.mem_iff.2 hf)

theorem Spec.Renamed.rdim (h : Renamed F F' C C' ρ φ fs fs') {f : Factor} (hf : f ∈ fs) : Spec.rdim (φ f) = Spec.rdim f := by
  unfold Spec.rdim; rw [h.noise f hf]

theorem Spec.Renamed.class (h : Renamed F F' C C' ρ φ fs fs') {v : Var} (hv : v ∈ Graph.variablesOf fs) : C' (ρ v).ty = C v.ty := by
  obtain ⟨f, hf, hv⟩ := ((variablesOf_spec fs).2 v).1 hv
  exact h.classes f hf v hv

theorem Spec.Renamed.injective (h : Renamed F F' C C' ρ φ fs fs') {v w : Var} (hv : v ∈ Graph.variablesOf fs) (hw : w ∈ Graph.variablesOf fs)
    (e : ρ v = ρ w) : v = w := by
  obtain ⟨f, hf, hv⟩ := ((variablesOf_spec fs).2 v).1 hv
  obtain ⟨k, hk, hw⟩ := ((variablesOf_spec fs).2 w).1 hw
  exact h.distinct f hf v hv k hk w hw e

theorem Spec.Renamed.variablesOf (h : Renamed F F' C C' ρ φ fs fs') : ((Graph.variablesOf fs).map ρ).Perm (Graph.variablesOf fs') := by
  refine (List.perm_ext_iff_of_nodup ((List.nodup_map_iff_inj_on (variablesOf_spec fs).1).2 fun v hv w hw e => h.injective hv hw e)
    (variablesOf_spec fs').1).2 fun u => ?_
  rw [List.mem_map, (variablesOf_spec fs').2]
  constructor
  · rintro ⟨v, hv, rfl⟩
    obtain ⟨f, hf, hv⟩ := ((variablesOf_spec fs).2 v).1 hv
    exact ⟨φ f, h.mem hf, by rw [h.vars f hf]; exact List.mem_map_of_mem hv⟩
  · rintro ⟨f', hf', hu⟩
    obtain ⟨f, hf, rfl⟩ := h.exists_mem hf'
    rw [h.vars f hf] at hu
    obtain ⟨v, hv, rfl⟩ := List.mem_map.1 hu
    exact ⟨v, ((variablesOf_spec fs).2 v).2 ⟨f, hf, hv⟩, rfl⟩

theorem Spec.Renamed.grouped (h : Renamed F F' C C' ρ φ fs fs') :
    ((Spec.grouped (Graph.variablesOf fs)).map ρ).Perm (Spec.grouped (Graph.variablesOf fs')) :=
  ((grouped_perm _).map ρ).trans (h.variablesOf.trans (grouped_perm _).symm)

theorem Spec.Renamed.evalOrder (h : Renamed F F' C C' ρ φ fs fs') : ((Spec.evalOrder fs).map φ).Perm (Spec.evalOrder fs') :=
  ((groupedBy_perm kind fs).map φ).trans (h.factors.trans (groupedBy_perm kind fs').symm)

/-- Assignments with the same values, each in the order of its graph. -/
def RenR (C C' : Ty → VarClass ℝ) (ρ : Var → Var) (fs fs' : List Factor) (a a' : Assign ℝ) : Prop :=
  ∃ val, Stores C (Graph.variablesOf fs) (fun v => val (ρ v)) a ∧ Stores C' (Graph.variablesOf fs') val a'

/-- Residual vectors with the same piece for every factor. -/
def RenQ (φ : Factor → Factor) (fs fs' : List Factor) : List ℝ → List ℝ → Prop := Blocks ((evalOrder fs).map φ) (evalOrder fs') rdim

/-- Tangent vectors with the same piece for every variable. -/
def RenD (C' : Ty → VarClass ℝ) (ρ : Var → Var) (fs fs' : List Factor) : List ℝ → List ℝ → Prop :=
  Blocks ((grouped (Graph.variablesOf fs)).map ρ) (grouped (Graph.variablesOf fs')) fun v => (C' v.ty).localDim

/-- Jacobians whose products with corresponding vectors correspond. -/
def RenJ (C' : Ty → VarClass ℝ) (ρ : Var → Var) (φ : Factor → Factor) (fs fs' : List Factor) {m n : Nat} (μ : Equiv.Perm (Fin m))
    (σ : Equiv.Perm (Fin n)) (A A' : Coo ℝ) : Prop :=
  Reordered μ σ A A' ∧
    ((∀ f ∈ fs, f.vars.Nodup) → (A.rows.zip A.cols).Nodup ∧ (A'.rows.zip A'.cols).Nodup) ∧
    ∀ d d' y, RenD C' ρ fs fs' d d' → A.matmul d = .ok y → ∃ y', A'.matmul d' = .ok y' ∧ RenQ φ fs fs' y y'

/-- The two representations of corresponding vectors. -/
theorem Spec.Renamed.reps (h : Renamed F F' C C' ρ φ fs fs') {e : Var → List ℝ}
    (he : ∀ v ∈ (Spec.grouped (Graph.variablesOf fs)).map ρ, (e v).length = (C' v.ty).localDim) :
    Rep C (Graph.variablesOf fs) true (fun v => e (ρ v)) ⟨((Spec.grouped (Graph.variablesOf fs)).map ρ).flatMap e, Layout.make C (Graph.variablesOf fs) true⟩ ∧
    Rep C' (Graph.variablesOf fs') true e ⟨(Spec.grouped (Graph.variablesOf fs')).flatMap e, Layout.make C' (Graph.variablesOf fs') true⟩ := by
  refine ⟨⟨(variablesOf_spec fs).1, rfl, fun v hv => ?_, ?_⟩, ⟨(variablesOf_spec fs').1, rfl, fun v hv => ?_, rfl⟩⟩
  · rw [he (ρ v) (List.mem_map_of_mem (mem_grouped.2 hv)), h.class hv]; rfl
  · show List.flatMap e _ = _
    rw [List.flatMap_map]
  · exact he v (h.grouped.mem_iff.2 (mem_grouped.2 hv))

/-- A vector of the right size has a counterpart. -/
theorem exists_renD (h : Renamed F F' C C' ρ φ fs fs') {d : List ℝ} (hd : d.length = (Layout.make C (Graph.variablesOf fs) true).dim) :
    ∃ d', RenD C' ρ fs fs' d d' := by
  classical
  obtain ⟨e, he⟩ := exists_rep (a := ⟨d, Layout.make C (Graph.variablesOf fs) true⟩) (C := C) (vars := Graph.variablesOf fs)
    ⟨(variablesOf_spec fs).1, rfl, hd⟩
  obtain ⟨κ, hκ⟩ : ∃ κ : Var → Var, ∀ v ∈ Graph.variablesOf fs, κ (ρ v) = v := by
    refine ⟨fun u => if hu : ∃ v ∈ Graph.variablesOf fs, ρ v = u then hu.choose else u, fun v hv => ?_⟩
    have hu : ∃ w ∈ Graph.variablesOf fs, ρ w = ρ v := ⟨v, hv, rfl⟩
    simp only [dif_pos hu]
    exact h.injective hu.choose_spec.1 hv hu.choose_spec.2
  refine ⟨(grouped (Graph.variablesOf fs')).flatMap fun u => e (κ u), fun u => e (κ u), fun u hu => ?_, ?_, rfl⟩
  · obtain ⟨v, hv, rfl⟩ := List.mem_map.1 hu
    have hv := mem_grouped.1 hv
    simp only [hκ v hv, he.len v hv, h.class hv]; rfl
  · rw [List.flatMap_map, show d = (grouped (Graph.variablesOf fs)).flatMap e from he.storage]
    exact List.flatMap_congr fun v hv => by rw [hκ v (mem_grouped.1 hv)]

variable {g g' : Graph} {L : LinSolver ℝ}

theorem renamed_sim (hC : GoodClasses C) (hC' : GoodClasses C') (hfs : ∀ f ∈ fs, FactorWF F C f) (hfs' : ∀ f ∈ fs', FactorWF F' C' f)
    (hne : fs ≠ []) (hp : Renamed F F' C C' ρ φ fs fs') (hg : GraphOf F C fs g) (hg' : GraphOf F' C' fs' g') (hnd : (∀ f ∈ fs, f.vars.Nodup) → g.jacobianCoords.Nodup ∧ g'.jacobianCoords.Nodup)
    (hL : OrderFree L ∨ OrderFreeDistinct L ∧ ∀ f ∈ fs, f.vars.Nodup) :
    ∃ (μ : Equiv.Perm (Fin g.residualDim)) (σ : Equiv.Perm (Fin g.localLayout.dim)),
      Sim C C' (g.ops F C) (g'.ops F' C') L L (RenR C C' ρ fs fs') (RenQ φ fs fs') (RenD C' ρ fs fs') (RenJ C' ρ φ fs fs' μ σ) := by
  have hs := variablesOf_spec fs
  have hs' := variablesOf_spec fs'
  have hpe := hp.evalOrder
  have hpv := hp.grouped
  have hne' : fs' ≠ [] := by
    obtain ⟨f, hf⟩ := List.exists_mem_of_ne_nil _ hne
    exact List.ne_nil_of_mem (hp.mem hf)
  have hm : total rdim ((evalOrder fs).map φ) = g.residualDim := by
    rw [hg.residualDim]
    unfold total
    rw [List.map_map]
    exact congrArg List.sum (List.map_congr_left fun f hf => hp.rdim (mem_groupedBy.1 hf))
  have hn : total (fun v : Var => (C' v.ty).localDim) ((grouped (Graph.variablesOf fs)).map ρ) = g.localLayout.dim := by
    rw [hg.localLayout, make_dim C hs.1]
    unfold total
    rw [List.map_map]
    exact congrArg List.sum (List.map_congr_left fun v hv => by
      simp only [Function.comp, hp.class (mem_grouped.1 hv)]; rfl)
  have hm' : g'.residualDim = g.residualDim := by rw [hg'.residualDim, ← hm]; exact (total_perm hpe).symm
  have hn' : g'.localLayout.dim = g.localLayout.dim := by
    rw [hg'.localLayout, make_dim C' hs'.1, ← hn]; exact (total_perm hpv).symm
  obtain ⟨μ, hμ⟩ := blocks_positions (dim := rdim) hpe hm
  obtain ⟨σ, hσ⟩ := blocks_positions (dim := fun v : Var => (C' v.ty).localDim) hpv hn
  have holds : ∀ {a a' val}, Stores C (Graph.variablesOf fs) (fun v => val (ρ v)) a → Stores C' (Graph.variablesOf fs') val a' →
      Holds C fs (Graph.variablesOf fs) (fun v => val (ρ v)) a ∧ Holds C' fs' (Graph.variablesOf fs') val a' :=
    fun h1 h2 => ⟨h1.holds hs.2, h2.holds hs'.2⟩
  -- vectors that are permuted copies have the same blocks
  have toD : ∀ {d d'}, Permuted σ d d' → RenD C' ρ fs fs' d d' := by
    intro d d' h
    obtain ⟨d2, h3⟩ := exists_renD hp (d := d) (by rw [h.len, hg.localLayout])
    rw [h.unique (hσ _ _ h3)]
    exact h3
  refine ⟨μ, σ, ?_⟩
  constructor
  case cost =>
    rintro a a' c r ⟨val, h1, h2⟩ hc
    obtain ⟨k1, k2⟩ := holds h1 h2
    obtain ⟨w, hw⟩ := k2.whitened hC' hfs'
    have e1 := Props.cost_ok _ _ hC hne hfs hg k1 (w := fun f => w (φ f)) fun f hf => by
      rw [← (hw (φ f) (hp.mem hf)).1]
      unfold whitenedAt
      have hv := k1.valuesFor hC hf
      rw [hp.noise f hf, hp.vars f hf, List.map_map, ← hp.residual f hf _ hv]
      rfl
    have e2 := Props.cost_ok _ _ hC' hne' hfs' hg' k2 fun f hf => (hw f hf).1
    have hc : g.computeCost F C a = .ok (c, r) := hc
    rw [e1] at hc
    cases hc
    refine ⟨(evalOrder fs').flatMap w, ?_, w, fun f hf => ?_, by rw [List.flatMap_map], rfl⟩
    · show g'.computeCost F' C' a' = _
      rw [e2, ← (hp.factors.map fun f => sqNorm (w f)).sum_eq, List.map_map]
      rfl
    · exact (hw f (mem_groupedBy.1 (hpe.mem_iff.1 hf))).2
  case jac =>
    rintro a a' r r' A ⟨val, h1, h2⟩ ⟨⟨w, hw, rfl, rfl⟩, -⟩ hA
    have hw' : ∀ f ∈ fs', (w f).length = rdim f := fun f hf => hw f (hpe.mem_iff.2 (mem_groupedBy.2 hf))
    obtain ⟨k1, k2⟩ := holds h1 h2
    obtain ⟨R, hR⟩ : ∃ R : Factor → List (Arr ℝ), ∀ f ∈ fs',
        ((F' f.cls).jacobians f.self (f.vars.map val)).mapM (fun J => f.noise.whitenJacobian J (w f)) = .ok (R f) := by
      have : ∀ f : Factor, ∃ R', f ∈ fs' →
          ((F' f.cls).jacobians f.self (f.vars.map val)).mapM (fun J => f.noise.whitenJacobian J (w f)) = .ok R' :=
        fun f => by
          by_cases hf : f ∈ fs'
          · obtain ⟨R', e1, e2⟩ := whitenedJacobians_ok (hfs' f hf) (k2.valuesFor hC' hf) (hw' f hf)
            exact ⟨R', fun _ => e1⟩
          · exact ⟨[], fun h => absurd h hf⟩
      choose R hR using this
      exact ⟨R, hR⟩
    obtain ⟨A0, e1, -, e3, e4, e5, -, e7⟩ := jacobian_explicit hC hfs hne hg k1 (ρ := fun f => w (φ f)) (R := fun f => R (φ f))
      (fun f hf => by rw [hw' _ (hp.mem hf), hp.rdim hf]) fun f hf => by
        rw [← hR (φ f) (hp.mem hf), hp.noise f hf, hp.vars f hf, List.map_map, ← hp.jacobians f hf _ (k1.valuesFor hC hf)]
        rfl
    obtain ⟨A1, f1, -, f3, f4, f5, -, f7⟩ := jacobian_explicit hC' hfs' hne' hg' k2 hw' hR
    have hA : g.computeWhitenedResidualJacobian F C a (((evalOrder fs).map φ).flatMap w) = .ok A := hA
    rw [List.flatMap_map] at hA
    obtain rfl : A0 = A := by rw [e1] at hA; exact Except.ok.inj hA
    have prod : ∀ d d' y, RenD C' ρ fs fs' d d' → A0.matmul d = .ok y → ∃ y', A1.matmul d' = .ok y' ∧ RenQ φ fs fs' y y' := by
      intro d d' y hd hy
      have l1 := (hσ _ _ hd).len
      have l2 := (hσ _ _ hd).len'
      obtain ⟨e, he1, rfl, rfl⟩ := hd
      obtain ⟨r1, r2⟩ := hp.reps he1
      rw [← hg.localLayout] at r1
      rw [← hg'.localLayout] at r2
      rw [e7 _ l1] at hy
      cases hy
      refine ⟨_, f7 _ (by rw [l2, hn']), facProd C' (posIn g'.localLayout) R _, fun f _ => length_facProd, ?_, rfl⟩
      show _ = List.flatMap _ (List.map φ (evalOrder fs))
      rw [List.flatMap_map (f := φ)]
      apply List.flatMap_congr
      intro f hf
      have hf : f ∈ fs := mem_groupedBy.1 hf
      exact facProd_renamed r1 r2 rfl (hp.rdim hf) (hp.vars f hf) (hp.classes f hf) (fun v hv => (hs.2 v).2 ⟨f, hf, hv⟩)
        fun v hv => (hs'.2 v).2 ⟨φ f, hp.mem hf, hv⟩
    refine ⟨A1, f1, ⟨e3, f3, e4, by rw [f4, hm', hn'], ?_⟩, fun h => by rw [e5, f5]; exact hnd h, prod⟩
    funext i j
    have hx : vec (ofVec (Pi.single (σ j) (1 : ℝ))) g.localLayout.dim = Pi.single (σ j) 1 := vec_ofVec _
    have hlx : (ofVec (Pi.single (σ j) (1 : ℝ))).length = g.localLayout.dim := length_ofVec _
    obtain ⟨y, hy1, hy2, hy3⟩ := matmul_ok e3 (x := ofVec (Pi.single (σ j) (1 : ℝ))) (by rw [hlx, e4])
    obtain ⟨x', hD⟩ := exists_renD hp (d := ofVec (Pi.single (σ j) (1 : ℝ))) (by rw [hlx, hg.localLayout])
    obtain ⟨y', hz1, hz2⟩ := prod _ _ _ hD hy1
    obtain ⟨q1, -, q3⟩ := matmul_vec f3 hz1
    have px := hσ _ _ hD
    have py := hμ _ _ hz2
    have ex' : vec x' g.localLayout.dim = Pi.single j 1 := by
      rw [px.entry, hx]
      funext k
      simp only [Function.comp, Pi.single_apply, σ.injective.eq_iff]
    rw [e4] at hy3
    rw [f4] at q3
    simp only at hy3 q3
    rw [hx, mulVec_single_one] at hy3
    have q3' : vec y' g.residualDim = cooMatrix A1 g.residualDim g.localLayout.dim *ᵥ vec x' g.localLayout.dim := by
      rw [hm', hn'] at q3; exact q3
    rw [ex', mulVec_single_one, py.entry, hy3] at q3'
    exact (congrFun q3' i).symm
  case grad =>
    rintro A A' r r' z ⟨h1, -⟩ hr hz
    obtain ⟨z', h3, h4⟩ := h1.T.matmul (hμ _ _ hr) hz
    exact ⟨z', h3, toD h4⟩
  case mul =>
    rintro A A' d d' y ⟨-, -, h3⟩ hd hy
    exact h3 _ _ _ hd hy
  case linear =>
    rintro A A' b b' l i x ⟨h1, h2, -⟩ hb hx
    rcases hL with hL | ⟨hL, hv⟩
    · obtain ⟨x', k1, k2⟩ := hL _ _ μ σ A A' b b' x l i h1 (hσ _ _ hb) hx
      exact ⟨x', k1, toD k2⟩
    · obtain ⟨x', k1, k2⟩ := hL _ _ μ σ A A' b b' x l i h1 (h2 hv).1 (h2 hv).2 (hσ _ _ hb) hx
      exact ⟨x', k1, toD k2⟩
  case retract =>
    rintro a a' d d' b ⟨val, h1, h2⟩ ⟨e, he, rfl, rfl⟩ hb
    obtain ⟨r1, r2⟩ := hp.reps he
    rw [← hg.localLayout] at r1
    rw [← hg'.localLayout] at r2
    obtain ⟨b1, k1, k2⟩ := h1.retract hC r1
    obtain ⟨b2, k3, k4⟩ := h2.retract hC' r2
    obtain rfl : b1 = b := Except.ok.inj (k1.symm.trans hb)
    exact ⟨b2, k3, _, k2.congr fun v hv => by simp only [hp.class hv], k4⟩
  case size =>
    rintro a a' ⟨val, h1, h2⟩
    have e1 : a.storage.Perm a'.storage := by
      rw [h1.1.storage, h2.1.storage, ← List.flatMap_map (f := ρ) (g := fun v => (val v).flatten)]
      exact hpv.flatMap_right _
    exact e1.length_eq.symm
  case wf => rintro A A' ⟨h, -⟩; exact ⟨h.wf, h.wf'⟩
  case qlen => exact fun h h2 e => by rw [← (h.perm hpe).length_eq, e, (h2.perm hpe).length_eq]
  case qneg => exact fun h => h.map _
  case qpred => exact fun h h2 => (h.zipWith hpe h2 _).sq hpe
  case qsq => exact fun h => h.sq hpe
  case dlen => exact fun h => (h.perm hpv).length_eq.symm
  case dneg => exact fun h => h.map _
  case dmul => exact fun c h => h.map _
  case dadd => exact fun h h2 => h.zipWith hpv h2 _
  case dsub => exact fun h h2 => h.zipWith hpv h2 _
  case ddot => exact fun h h2 => h.dot hpv h2

/-- Corresponding states pass the same tests. -/
theorem renamed_tests (hp : Renamed F F' C C' ρ φ fs fs') {Q D : List ℝ → List ℝ → Prop} {J : Coo ℝ → Coo ℝ → Prop} {g g' : GraphOps ℝ}
    (h : Sim C C' g g' L L (RenR C C' ρ fs fs') Q D J) (t : Criteria ℝ) :
    TestSim True C C' g g' (RenR C C' ρ fs fs') Q D t (InBounds t) := by
  have hpv := hp.grouped
  have hR : ∀ {a a'}, RenR C C' ρ fs fs' a a' → Blocks ((grouped (Graph.variablesOf fs)).map ρ) (grouped (Graph.variablesOf fs'))
      (fun v => (C' v.ty).paramDim) a.storage a'.storage :=
    fun ⟨val, h1, h2⟩ => ⟨fun v => (val v).flatten, fun v hv => h2.1.len' v (hpv.mem_iff.1 hv), by rw [h1.1.storage, List.flatMap_map], h2.1.storage⟩
  intro p p' c d d' z z' conv _ hs hd hz hc
  unfold convergedTest gradientTest at hc ⊢
  simp only [py_bind_eq_ok, py_return_eq_ok] at hc ⊢
  obtain ⟨b, ⟨m, h1, h2⟩, h3⟩ := hc
  obtain ⟨m', h4, h5⟩ := h.retract hs.assignments hz h1
  have hx := (hR hs.assignments).zipWith hpv (hR h5) (· - ·)
  have hpx := hx.perm hpv
  have hcost : costTest t p' c = costTest t p c := by unfold costTest; rw [hs.cost]
  have hpar : parameterTest t p' d' = parameterTest t p d := by
    unfold parameterTest
    rw [h.dnrm hd]
    unfold nrm
    rw [(hR hs.assignments).sq hpv]
  cases hl : List.zipWith (· - ·) p.assignments.storage m.storage with
  | nil => rw [hl] at h2; cases h2
  | cons x xs =>
    cases hl' : List.zipWith (· - ·) p'.assignments.storage m'.storage with
    | nil => rw [hl, hl'] at hpx; exact absurd hpx.length_eq (by simp)
    | cons y ys =>
      rw [hl] at h2
      cases h2
      rw [hl, hl'] at hpx
      have hmax : ys.foldl max y < t.gradientTolerance ↔ xs.foldl max x < t.gradientTolerance := by
        rw [foldl_max_lt, foldl_max_lt]
        exact ⟨fun k w hw => k w (hpx.mem_iff.1 hw), fun k w hw => k w (hpx.mem_iff.2 hw)⟩
      refine ⟨_, ⟨_, ⟨m', h4, by rw [hl']⟩, rfl⟩, fun _ => ?_⟩
      rw [← h3, hcost, hpar, hs.iterations]
      simp only [hmax]

theorem Spec.Renamed.paramDim_pos (h : Renamed F F' C C' ρ φ fs fs') (hpos : ∀ f ∈ fs, ∀ v ∈ f.vars, 0 < (C v.ty).paramDim) {u : Var}
    (hu : u ∈ Graph.variablesOf fs') : 0 < (C' u.ty).paramDim := by
  obtain ⟨v, hv, rfl⟩ := List.mem_map.1 (h.variablesOf.mem_iff.2 hu)
  rw [h.class hv]
  obtain ⟨f, hf, hv⟩ := ((variablesOf_spec fs).2 v).1 hv
  exact hpos f hf v hv

/-! ### Into and out of the orders of the graphs -/

theorem renamed_in (hC : GoodClasses C) (hC' : GoodClasses C') (hpos : ∀ f ∈ fs, ∀ v ∈ f.vars, 0 < (C v.ty).paramDim)
    (hp : Renamed F F' C C' ρ φ fs fs') (hg : GraphOf F C fs g) (hg' : GraphOf F' C' fs' g') {vars vars' : List Var} {val : Var → Value ℝ}
    {a a' : Assign ℝ} (ha : RenamedValues C C' ρ fs fs' vars vars' val a a') :
    ∃ b b', a.updateStorageLayout C g.layout = .ok b ∧ a'.updateStorageLayout C' g'.layout = .ok b' ∧ RenR C C' ρ fs fs' b b' := by
  have hs := variablesOf_spec fs
  have hs' := variablesOf_spec fs'
  obtain ⟨b, h1, -, h2⟩ := (stores_of_holds hC ha.left).update hs.1 (fun v => by rw [ha.left.sameVars, hs.2]) fun v hv => by
    obtain ⟨f, hf, hv⟩ := (ha.left.sameVars v).1 hv; exact hpos f hf v hv
  obtain ⟨b', h3, -, h4⟩ := (stores_of_holds hC' ha.right).update hs'.1 (fun v => by rw [ha.right.sameVars, hs'.2]) fun v hv => by
    exact hp.paramDim_pos hpos (((hs'.2 v).2 ((ha.right.sameVars v).1 hv)))
  exact ⟨b, b', by rw [hg.layout]; exact h1, by rw [hg'.layout]; exact h3, val, h2, h4⟩

theorem renamed_out (hpos : ∀ f ∈ fs, ∀ v ∈ f.vars, 0 < (C v.ty).paramDim) (hp : Renamed F F' C C' ρ φ fs fs') {vars vars' : List Var}
    {val : Var → Value ℝ} {a a' : Assign ℝ} (ha : RenamedValues C C' ρ fs fs' vars vars' val a a') {b b' : Assign ℝ}
    (hb : RenR C C' ρ fs fs' b b') :
    ∃ o o', b.updateStorageLayout C a.layout = .ok o ∧ b'.updateStorageLayout C' a'.layout = .ok o' ∧ o.layout = a.layout ∧
      o'.layout = a'.layout ∧ ∃ val', RenamedValues C C' ρ fs fs' vars vars' val' o o' := by
  have hs := variablesOf_spec fs
  have hs' := variablesOf_spec fs'
  obtain ⟨val', s1, s2⟩ := hb
  have l1 : a.layout = Layout.make C vars false := by have := ha.left.assignment.2.1; rwa [ha.left.isGlobal] at this
  have l2 : a'.layout = Layout.make C' vars' false := by have := ha.right.assignment.2.1; rwa [ha.right.isGlobal] at this
  obtain ⟨o, h1, h2, h3⟩ := s1.update ha.left.assignment.1 (fun v => by rw [ha.left.sameVars, hs.2]) fun v hv => by
    obtain ⟨f, hf, hv⟩ := (hs.2 v).1 hv; exact hpos f hf v hv
  obtain ⟨o', h4, h5, h6⟩ := s2.update ha.right.assignment.1 (fun v => by rw [ha.right.sameVars, hs'.2]) fun v hv => hp.paramDim_pos hpos hv
  exact ⟨o, o', by rw [l1]; exact h1, by rw [l2]; exact h4, by rw [l1, h2], by rw [l2, h5], val',
    h3.holds ha.left.sameVars, h6.holds ha.right.sameVars⟩

end

end Jaxfg
