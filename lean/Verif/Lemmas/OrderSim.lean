/- Solving a problem with its factors in another order. -/
import Verif.Lemmas.Symmetry
import Verif.Lemmas.Reorder

namespace Jaxfg
open Matrix hiding vec
open Spec
open Ext (fin)

/-! ### Vectors made of blocks -/

/-- `x` has the blocks `w v` in the order `vs`, and `x'` has them in the order `ws`. -/
def Blocks {ι : Type} (vs ws : List ι) (dim : ι → Nat) (x x' : List ℝ) : Prop :=
  ∃ w : ι → List ℝ, (∀ v ∈ vs, (w v).length = dim v) ∧ x = vs.flatMap w ∧ x' = ws.flatMap w

section
variable {ι : Type} {vs ws : List ι} {dim : ι → Nat} {x x' y y' : List ℝ}

theorem Blocks.perm (hp : vs.Perm ws) (h : Blocks vs ws dim x x') : x.Perm x' := by
  obtain ⟨w, -, rfl, rfl⟩ := h
  exact hp.flatMap_right w

theorem Blocks.length (h : Blocks vs ws dim x x') : x.length = total dim vs := by
  obtain ⟨w, h1, rfl, -⟩ := h
  exact length_flatMap_blocks h1

theorem Blocks.length' (hp : vs.Perm ws) (h : Blocks vs ws dim x x') : x'.length = total dim vs := by
  rw [← (h.perm hp).length_eq, h.length]

theorem Blocks.map (h : Blocks vs ws dim x x') (f : ℝ → ℝ) : Blocks vs ws dim (x.map f) (x'.map f) := by
  obtain ⟨w, h1, rfl, rfl⟩ := h
  exact ⟨fun v => (w v).map f, fun v hv => by rw [List.length_map, h1 v hv], by rw [List.map_flatMap], by rw [List.map_flatMap]⟩

theorem zipWith_flatMap {f : ℝ → ℝ → ℝ} {w u : ι → List ℝ} (h : ∀ v ∈ vs, (w v).length = (u v).length) :
    List.zipWith f (vs.flatMap w) (vs.flatMap u) = vs.flatMap fun v => List.zipWith f (w v) (u v) := by
  induction vs with
  | nil => rfl
  | cons v vs ih =>
    rw [List.flatMap_cons, List.flatMap_cons, List.flatMap_cons, List.zipWith_append (h v (by simp)), ih fun v' hv' => h v' (by simp [hv'])]

theorem Blocks.zipWith (hp : vs.Perm ws) (h : Blocks vs ws dim x x') (h2 : Blocks vs ws dim y y') (f : ℝ → ℝ → ℝ) :
    Blocks vs ws dim (List.zipWith f x y) (List.zipWith f x' y') := by
  obtain ⟨w, h1, rfl, rfl⟩ := h
  obtain ⟨u, h2, rfl, rfl⟩ := h2
  refine ⟨fun v => List.zipWith f (w v) (u v), fun v hv => by rw [List.length_zipWith, h1 v hv, h2 v hv, min_self], ?_, ?_⟩
  · exact zipWith_flatMap fun v hv => by rw [h1 v hv, h2 v hv]
  · exact zipWith_flatMap fun v hv => by rw [h1 v (hp.mem_iff.2 hv), h2 v (hp.mem_iff.2 hv)]

theorem Blocks.sq (hp : vs.Perm ws) (h : Blocks vs ws dim x x') : sqNorm x' = sqNorm x :=
  (((h.perm hp).map _).sum_eq).symm

theorem Blocks.dot (hp : vs.Perm ws) (h : Blocks vs ws dim x x') (h2 : Blocks vs ws dim y y') :
    (List.zipWith (· * ·) x' y').sum = (List.zipWith (· * ·) x y).sum :=
  ((h.zipWith hp h2 _).perm hp).sum_eq.symm

/-- A permuted list is the list read through a permutation of the positions. -/
theorem perm_positions {β : Type} {l l' : List β} (h : l.Perm l') {n : Nat} (hn : l.length = n) :
    ∃ σ : Equiv.Perm (Fin n), ∀ i : Fin n, l'[i.1]? = l[(σ i).1]? := by
  subst hn
  have h1 : List.Forall₂ (fun (i : Nat) b => l[i]? = some b) (List.range l.length) l := by
    rw [List.forall₂_iff_get]
    refine ⟨by simp, fun i h1 h2 => ?_⟩
    simp
  have h2 : Relation.Comp (List.Forall₂ fun (i : Nat) b => l[i]? = some b) List.Perm (List.range l.length) l' := ⟨l, h1, h⟩
  rw [List.forall₂_comp_perm_eq_perm_comp_forall₂] at h2
  obtain ⟨p, hp, hf⟩ := h2
  have hlen : p.length = l.length := by rw [← hp.length_eq, List.length_range]
  have hmem : ∀ i (hi : i < p.length), p[i] < l.length := fun i hi => List.mem_range.1 (hp.mem_iff.2 (List.getElem_mem hi))
  have hnd : p.Nodup := hp.nodup_iff.1 List.nodup_range
  let f : Fin l.length → Fin l.length := fun i => ⟨p[i.1]'(by rw [hlen]; exact i.2), hmem _ _⟩
  have hinj : Function.Injective f := by
    intro i j hij
    have : p[i.1]'(by rw [hlen]; exact i.2) = p[j.1]'(by rw [hlen]; exact j.2) := congrArg Fin.val hij
    exact Fin.ext ((hnd.getElem_inj_iff).1 this)
  refine ⟨Equiv.ofBijective f (Finite.injective_iff_bijective.1 hinj), fun i => ?_⟩
  have hf' := (List.forall₂_iff_get.1 hf)
  have hi : i.1 < p.length := by rw [hlen]; exact i.2
  have hi' : i.1 < l'.length := by rw [← hf'.1]; exact hi
  have := hf'.2 i.1 hi hi'
  simp only [List.get_eq_getElem] at this
  show l'[i.1]? = l[p[i.1]]?
  rw [this, List.getElem?_eq_getElem hi']

/-- Reordering blocks is a permutation of the entries that does not depend on their values. -/
theorem blocks_positions (hp : vs.Perm ws) {n : Nat} (hn : total dim vs = n) :
    ∃ σ : Equiv.Perm (Fin n), ∀ x x', Blocks vs ws dim x x' → Permuted σ x x' := by
  let P : List ι → List (ι × Nat) := fun l => l.flatMap fun v => (List.range (dim v)).map fun k => (v, k)
  have hP : (P vs).Perm (P ws) := hp.flatMap_right _
  have hlen : (P vs).length = n := by
    rw [← hn]; exact length_flatMap_blocks fun v _ => by simp
  obtain ⟨σ, hσ⟩ := perm_positions hP hlen
  refine ⟨σ, fun x x' h => ⟨by rw [h.length, hn], by rw [h.length' hp, hn], ?_⟩⟩
  obtain ⟨w, h1, rfl, rfl⟩ := h
  have key : ∀ l : List ι, (∀ v ∈ l, (w v).length = dim v) → l.flatMap w = (P l).map fun p => (w p.1).getD p.2 0 := by
    intro l hl
    simp only [P, List.map_flatMap, List.map_map]
    apply List.flatMap_congr
    intro v hv
    apply List.ext_getElem
    · simp [hl v hv]
    · intro i h1 h2
      simp [h1]
  rw [key vs h1, key ws fun v hv => h1 v (hp.mem_iff.2 hv)]
  funext i
  simp only [vec, Function.comp, List.getD_eq_getElem?_getD, List.getElem?_map]
  rw [hσ i]

end

/-! ### Jacobians -/

section
variable {F : Nat → FactorClass} {C : Ty → VarClass ℝ}

/-- The product of a factor's Jacobians with a vector only depends on the blocks of the factor's variables. -/
theorem facProd_blocks {vars ws : List Var} {e : Var → List ℝ} {x x' : List ℝ} {l l' : Layout} (h : Rep C vars true e ⟨x, l⟩)
    (h' : Rep C ws true e ⟨x', l'⟩) {R : Factor → List (Arr ℝ)} {f : Factor} (hv : ∀ v ∈ f.vars, v ∈ vars)
    (hw : ∀ v ∈ f.vars, v ∈ ws) : facProd C (posIn l) R x f = facProd C (posIn l') R x' f := by
  have read : ∀ {us : List Var} {z : List ℝ} {k : Layout} (_ : Rep C us true e ⟨z, k⟩) (v : Var), v ∈ us → ∀ c < (C v.ty).localDim,
      z.getD (posIn k v + c) 0 = (e v).getD c 0 := by
    intro us z k hr v hv c hc
    obtain ⟨i, h1, -, h3⟩ := hr.index hv
    simp only at h1 h3
    have : posIn k v = i := by rw [posIn, h1]; rfl
    rw [this, ← h3]
    unfold slice
    have hd : c < dimOf C true v.ty := hc
    simp only [List.getD_eq_getElem?_getD]
    rw [List.getElem?_take_of_lt hd, List.getElem?_drop]
  unfold facProd
  apply List.map_congr_left
  intro r _
  apply Finset.sum_congr rfl
  intro i hi
  have hi : i < f.vars.length := Finset.mem_range.1 hi
  have hm : f.vars.getD i ⟨0, 0⟩ ∈ f.vars := by
    rw [List.getD_eq_getElem?_getD, List.getElem?_eq_getElem hi]; exact List.getElem_mem hi
  unfold blockProd
  apply Finset.sum_congr rfl
  intro c hc
  have hc : c < _ := Finset.mem_range.1 hc
  rw [read h _ (hv _ hm) c hc, read h' _ (hw _ hm) c hc]

/-! ### The two problems -/

variable {fs fs' : List Factor}

/-- Assignments with the same values, each in the order of its graph. -/
def OrdR (C : Ty → VarClass ℝ) (fs fs' : List Factor) (a a' : Assign ℝ) : Prop :=
  ∃ val, Stores C (Graph.variablesOf fs) val a ∧ Stores C (Graph.variablesOf fs') val a'

/-- Residual vectors with the same piece for every factor. -/
def OrdQ (fs fs' : List Factor) : List ℝ → List ℝ → Prop := Blocks (evalOrder fs) (evalOrder fs') rdim

/-- Tangent vectors with the same piece for every variable. -/
def OrdD (C : Ty → VarClass ℝ) (fs fs' : List Factor) : List ℝ → List ℝ → Prop :=
  Blocks (grouped (Graph.variablesOf fs)) (grouped (Graph.variablesOf fs')) fun v => (C v.ty).localDim

/-- Jacobians whose products with corresponding vectors correspond. -/
def OrdJ (C : Ty → VarClass ℝ) (fs fs' : List Factor) {m n : Nat} (ρ : Equiv.Perm (Fin m)) (σ : Equiv.Perm (Fin n)) (A A' : Coo ℝ) : Prop :=
  Reordered ρ σ A A' ∧
    ((∀ f ∈ fs, f.vars.Nodup) → (A.rows.zip A.cols).Nodup ∧ (A'.rows.zip A'.cols).Nodup) ∧
    ∀ d d' y, OrdD C fs fs' d d' → A.matmul d = .ok y → ∃ y', A'.matmul d' = .ok y' ∧ OrdQ fs fs' y y'

theorem evalOrder_perm (h : fs.Perm fs') : (evalOrder fs).Perm (evalOrder fs') :=
  (groupedBy_perm kind fs).trans (h.trans (groupedBy_perm kind fs').symm)

theorem variablesOf_perm (h : fs.Perm fs') : (Graph.variablesOf fs).Perm (Graph.variablesOf fs') :=
  (List.perm_ext_iff_of_nodup (variablesOf_spec fs).1 (variablesOf_spec fs').1).2 fun v => by
    rw [(variablesOf_spec fs).2, (variablesOf_spec fs').2]
    exact ⟨fun ⟨f, hf, hv⟩ => ⟨f, h.mem_iff.1 hf, hv⟩, fun ⟨f, hf, hv⟩ => ⟨f, h.mem_iff.2 hf, hv⟩⟩

theorem grouped_variablesOf_perm (h : fs.Perm fs') : (grouped (Graph.variablesOf fs)).Perm (grouped (Graph.variablesOf fs')) :=
  (grouped_perm _).trans ((variablesOf_perm h).trans (grouped_perm _).symm)

/-- A vector of the right size has a counterpart. -/
theorem exists_ordD (hp : (Graph.variablesOf fs).Perm (Graph.variablesOf fs')) {d : List ℝ} (hd : d.length = (Layout.make C (Graph.variablesOf fs) true).dim) :
    ∃ e d', Rep C (Graph.variablesOf fs) true e ⟨d, Layout.make C (Graph.variablesOf fs) true⟩ ∧
      Rep C (Graph.variablesOf fs') true e ⟨d', Layout.make C (Graph.variablesOf fs') true⟩ ∧ OrdD C fs fs' d d' := by
  obtain ⟨e, he⟩ := exists_rep (a := ⟨d, Layout.make C (Graph.variablesOf fs) true⟩) (C := C) (vars := Graph.variablesOf fs)
    ⟨(variablesOf_spec fs).1, rfl, hd⟩
  refine ⟨e, (grouped (Graph.variablesOf fs')).flatMap e, he, ⟨(variablesOf_spec fs').1, rfl, fun v hv =>
    he.len v (hp.mem_iff.2 hv), rfl⟩, e, he.len', he.storage, rfl⟩

variable {g g' : Graph} {L : LinSolver ℝ}

theorem order_sim (hC : GoodClasses C) (hfs : ∀ f ∈ fs, FactorWF F C f) (hne : fs ≠ []) (hp : fs.Perm fs') (hg : GraphOf F C fs g)
    (hg' : GraphOf F C fs' g') (hnd : (∀ f ∈ fs, f.vars.Nodup) → g.jacobianCoords.Nodup ∧ g'.jacobianCoords.Nodup)
    (hL : OrderFree L ∨ OrderFreeDistinct L ∧ ∀ f ∈ fs, f.vars.Nodup) :
    ∃ (ρ : Equiv.Perm (Fin g.residualDim)) (σ : Equiv.Perm (Fin g.localLayout.dim)),
      Sim C C (g.ops F C) (g'.ops F C) L L (OrdR C fs fs') (OrdQ fs fs') (OrdD C fs fs') (OrdJ C fs fs' ρ σ) := by
  have hs := variablesOf_spec fs
  have hs' := variablesOf_spec fs'
  have hpe := evalOrder_perm hp
  have hpv := grouped_variablesOf_perm hp
  have hfs' : ∀ f ∈ fs', FactorWF F C f := fun f hf => hfs f (hp.mem_iff.2 hf)
  have hne' : fs' ≠ [] := fun h => hne (by rw [h] at hp; exact hp.eq_nil)
  have hm : total rdim (evalOrder fs) = g.residualDim := by rw [hg.residualDim]
  have hn : total (fun v : Var => (C v.ty).localDim) (grouped (Graph.variablesOf fs)) = g.localLayout.dim := by
    rw [hg.localLayout, make_dim C hs.1]; rfl
  have hm' : g'.residualDim = g.residualDim := by rw [hg'.residualDim, ← hm]; exact (total_perm hpe).symm
  have hn' : g'.localLayout.dim = g.localLayout.dim := by
    rw [hg'.localLayout, make_dim C hs'.1, ← hn]; exact (total_perm hpv).symm
  obtain ⟨ρ, hρ⟩ := blocks_positions (dim := rdim) hpe hm
  obtain ⟨σ, hσ⟩ := blocks_positions (dim := fun v : Var => (C v.ty).localDim) hpv hn
  have holds : ∀ {a a' val}, Stores C (Graph.variablesOf fs) val a → Stores C (Graph.variablesOf fs') val a' →
      Holds C fs (Graph.variablesOf fs) val a ∧ Holds C fs' (Graph.variablesOf fs') val a' :=
    fun h1 h2 => ⟨h1.holds hs.2, h2.holds hs'.2⟩
  -- vectors that are permuted copies have the same blocks
  have toD : ∀ {d d'}, Permuted σ d d' → OrdD C fs fs' d d' := by
    intro d d' h
    obtain ⟨e, d2, -, -, h3⟩ := exists_ordD (C := C) (variablesOf_perm hp) (d := d) (by rw [h.len, hg.localLayout])
    rw [h.unique (hσ _ _ h3)]
    exact h3
  refine ⟨ρ, σ, ?_⟩
  constructor
  case cost =>
    rintro a a' c r ⟨val, h1, h2⟩ hc
    obtain ⟨k1, k2⟩ := holds h1 h2
    obtain ⟨w, hw⟩ := k1.whitened hC hfs
    have e1 := Props.cost_ok _ _ hC hne hfs hg k1 fun f hf => (hw f hf).1
    have e2 := Props.cost_ok _ _ hC hne' hfs' hg' k2 fun f hf => (hw f (hp.mem_iff.2 hf)).1
    have hc : g.computeCost F C a = .ok (c, r) := hc
    rw [e1] at hc
    cases hc
    refine ⟨(evalOrder fs').flatMap w, ?_, w, fun f hf => (hw f (mem_groupedBy.1 hf)).2, rfl, rfl⟩
    show g'.computeCost F C a' = _
    rw [e2, (hp.map fun f => sqNorm (w f)).sum_eq]
  case jac =>
    rintro a a' r r' A ⟨val, h1, h2⟩ ⟨⟨w, hw, rfl, rfl⟩, -⟩ hA
    have hw : ∀ f ∈ fs, (w f).length = rdim f := fun f hf => hw f (mem_groupedBy.2 hf)
    obtain ⟨k1, k2⟩ := holds h1 h2
    obtain ⟨R, hR⟩ : ∃ R : Factor → List (Arr ℝ), ∀ f ∈ fs,
        ((F f.cls).jacobians f.self (f.vars.map val)).mapM (fun J => f.noise.whitenJacobian J (w f)) = .ok (R f) := by
      have : ∀ f : Factor, ∃ R', f ∈ fs →
          ((F f.cls).jacobians f.self (f.vars.map val)).mapM (fun J => f.noise.whitenJacobian J (w f)) = .ok R' :=
        fun f => by
          by_cases hf : f ∈ fs
          · obtain ⟨R', e1, e2⟩ := whitenedJacobians_ok (hfs f hf) (k1.valuesFor hC hf) (hw f hf)
            exact ⟨R', fun _ => e1⟩
          · exact ⟨[], fun h => absurd h hf⟩
      choose R hR using this
      exact ⟨R, hR⟩
    obtain ⟨A0, e1, -, e3, e4, e5, -, e7⟩ := jacobian_explicit hC hfs hne hg k1 hw hR
    obtain ⟨A1, f1, -, f3, f4, f5, -, f7⟩ := jacobian_explicit hC hfs' hne' hg' k2 (fun f hf => hw f (hp.mem_iff.2 hf))
      fun f hf => hR f (hp.mem_iff.2 hf)
    have hA : g.computeWhitenedResidualJacobian F C a _ = .ok A := hA
    obtain rfl : A0 = A := by rw [e1] at hA; exact Except.ok.inj hA
    have prod : ∀ d d' y, OrdD C fs fs' d d' → A0.matmul d = .ok y → ∃ y', A1.matmul d' = .ok y' ∧ OrdQ fs fs' y y' := by
      intro d d' y hd hy
      have l1 := (hσ _ _ hd).len
      have l2 := (hσ _ _ hd).len'
      obtain ⟨e, he1, rfl, rfl⟩ := hd
      have r1 : Rep C (Graph.variablesOf fs) true e ⟨_, g.localLayout⟩ := ⟨hs.1, hg.localLayout, fun v hv => he1 v (mem_grouped.2 hv), rfl⟩
      have r2 : Rep C (Graph.variablesOf fs') true e ⟨_, g'.localLayout⟩ :=
        ⟨hs'.1, hg'.localLayout, fun v hv => he1 v (hpv.mem_iff.2 (mem_grouped.2 hv)), rfl⟩
      rw [e7 _ l1] at hy
      cases hy
      refine ⟨_, f7 _ (by rw [l2, hn']), facProd C (posIn g.localLayout) R _, fun f _ => length_facProd, rfl, ?_⟩
      apply List.flatMap_congr
      intro f hf
      have hf : f ∈ fs' := mem_groupedBy.1 hf
      exact (facProd_blocks r1 r2 (fun v hv => (hs.2 v).2 ⟨f, hp.mem_iff.2 hf, hv⟩) fun v hv => (hs'.2 v).2 ⟨f, hf, hv⟩).symm
    refine ⟨A1, f1, ⟨e3, f3, e4, by rw [f4, hm', hn'], ?_⟩, fun h => by rw [e5, f5]; exact hnd h, prod⟩
    funext i j
    have hx : vec (ofVec (Pi.single (σ j) (1 : ℝ))) g.localLayout.dim = Pi.single (σ j) 1 := vec_ofVec _
    have hlx : (ofVec (Pi.single (σ j) (1 : ℝ))).length = g.localLayout.dim := length_ofVec _
    obtain ⟨y, hy1, hy2, hy3⟩ := matmul_ok e3 (x := ofVec (Pi.single (σ j) (1 : ℝ))) (by rw [hlx, e4])
    obtain ⟨-, x', -, -, hD⟩ := exists_ordD (C := C) (variablesOf_perm hp) (d := ofVec (Pi.single (σ j) (1 : ℝ))) (by rw [hlx, hg.localLayout])
    obtain ⟨y', hz1, hz2⟩ := prod _ _ _ hD hy1
    obtain ⟨q1, -, q3⟩ := matmul_vec f3 hz1
    have px := hσ _ _ hD
    have py := hρ _ _ hz2
    have ex' : vec x' g.localLayout.dim = Pi.single j 1 := by
      rw [px.entry, hx]
      funext k
      simp only [Function.comp, Pi.single_apply, σ.injective.eq_iff]
    rw [e4] at hy3
    rw [f4] at q3
    simp only at hy3 q3
    rw [hx, mulVec_single_one] at hy3
    have q3' : vec y' g.residualDim = cooMatrix A1 g.residualDim g.localLayout.dim *ᵥ vec x' g.localLayout.dim := by
      rw [hm', hn'] at q3; exact q3
    rw [ex', mulVec_single_one, py.entry, hy3] at q3'
    exact (congrFun q3' i).symm
  case grad =>
    rintro A A' r r' z ⟨h1, -⟩ hr hz
    obtain ⟨z', h3, h4⟩ := h1.T.matmul (hρ _ _ hr) hz
    exact ⟨z', h3, toD h4⟩
  case mul =>
    rintro A A' d d' y ⟨-, -, h3⟩ hd hy
    exact h3 _ _ _ hd hy
  case linear =>
    rintro A A' b b' l i x ⟨h1, h2, -⟩ hb hx
    rcases hL with hL | ⟨hL, hv⟩
    · obtain ⟨x', k1, k2⟩ := hL _ _ ρ σ A A' b b' x l i h1 (hσ _ _ hb) hx
      exact ⟨x', k1, toD k2⟩
    · obtain ⟨x', k1, k2⟩ := hL _ _ ρ σ A A' b b' x l i h1 (h2 hv).1 (h2 hv).2 (hσ _ _ hb) hx
      exact ⟨x', k1, toD k2⟩
  case retract =>
    rintro a a' d d' b ⟨val, h1, h2⟩ ⟨e, he, rfl, rfl⟩ hb
    have r1 : Rep C (Graph.variablesOf fs) true e ⟨_, g.localLayout⟩ := ⟨hs.1, hg.localLayout, fun v hv => he v (mem_grouped.2 hv), rfl⟩
    have r2 : Rep C (Graph.variablesOf fs') true e ⟨_, g'.localLayout⟩ :=
      ⟨hs'.1, hg'.localLayout, fun v hv => he v (hpv.mem_iff.2 (mem_grouped.2 hv)), rfl⟩
    obtain ⟨b1, k1, k2⟩ := h1.retract hC r1
    obtain ⟨b2, k3, k4⟩ := h2.retract hC r2
    obtain rfl : b1 = b := Except.ok.inj (k1.symm.trans hb)
    exact ⟨b2, k3, _, k2, k4⟩
  case size =>
    rintro a a' ⟨val, h1, h2⟩
    rw [h1.1.storage_length, h2.1.storage_length]
    exact (total_perm hpv).symm
  case wf => rintro A A' ⟨h, -⟩; exact ⟨h.wf, h.wf'⟩
  case qlen => exact fun h h2 e => by rw [← (h.perm hpe).length_eq, e, (h2.perm hpe).length_eq]
  case qneg => exact fun h => h.map _
  case qpred => exact fun h h2 => (h.zipWith hpe h2 _).sq hpe
  case qsq => exact fun h => h.sq hpe
  case dlen => exact fun h => (h.perm hpv).length_eq.symm
  case dneg => exact fun h => h.map _
  case dmul => exact fun c h => h.map _
  case dadd => exact fun h h2 => h.zipWith hpv h2 _
  case dsub => exact fun h h2 => h.zipWith hpv h2 _
  case ddot => exact fun h h2 => h.dot hpv h2

/-- Corresponding states pass the same tests. -/
theorem order_tests (hp : (Graph.variablesOf fs).Perm (Graph.variablesOf fs')) {Q D : List ℝ → List ℝ → Prop} {J : Coo ℝ → Coo ℝ → Prop} {g g' : GraphOps ℝ}
    (h : Sim C C g g' L L (OrdR C fs fs') Q D J) (t : Criteria ℝ) :
    TestSim True C C g g' (OrdR C fs fs') Q D t (InBounds t) := by
  have hpv := (grouped_perm _).trans (hp.trans (grouped_perm _).symm)
  have hR : ∀ {a a'}, OrdR C fs fs' a a' → Blocks (grouped (Graph.variablesOf fs)) (grouped (Graph.variablesOf fs'))
      (fun v => (C v.ty).paramDim) a.storage a'.storage :=
    fun ⟨val, h1, h2⟩ => ⟨fun v => (val v).flatten, fun v hv => h1.1.len' v hv, h1.1.storage, h2.1.storage⟩
  intro p p' c d d' z z' conv _ hs hd hz hc
  unfold convergedTest gradientTest at hc ⊢
  simp only [py_bind_eq_ok, py_return_eq_ok] at hc ⊢
  obtain ⟨b, ⟨m, h1, h2⟩, h3⟩ := hc
  obtain ⟨m', h4, h5⟩ := h.retract hs.assignments hz h1
  have hx := (hR hs.assignments).zipWith hpv (hR h5) (· - ·)
  have hpx := hx.perm hpv
  have hcost : costTest t p' c = costTest t p c := by unfold costTest; rw [hs.cost]
  have hpar : parameterTest t p' d' = parameterTest t p d := by
    unfold parameterTest
    rw [h.dnrm hd]
    unfold nrm
    rw [(hR hs.assignments).sq hpv]
  cases hl : List.zipWith (· - ·) p.assignments.storage m.storage with
  | nil => rw [hl] at h2; cases h2
  | cons x xs =>
    cases hl' : List.zipWith (· - ·) p'.assignments.storage m'.storage with
    | nil => rw [hl, hl'] at hpx; exact absurd hpx.length_eq (by simp)
    | cons y ys =>
      rw [hl] at h2
      cases h2
      rw [hl, hl'] at hpx
      have hmax : ys.foldl max y < t.gradientTolerance ↔ xs.foldl max x < t.gradientTolerance := by
        rw [foldl_max_lt, foldl_max_lt]
        exact ⟨fun k w hw => k w (hpx.mem_iff.1 hw), fun k w hw => k w (hpx.mem_iff.2 hw)⟩
      refine ⟨_, ⟨_, ⟨m', h4, by rw [hl']⟩, rfl⟩, fun _ => ?_⟩
      rw [← h3, hcost, hpar, hs.iterations]
      simp only [hmax]

/-! ### Into and out of the orders of the graphs -/

theorem sameValues_in (hC : GoodClasses C) (hpos : ∀ f ∈ fs, ∀ v ∈ f.vars, 0 < (C v.ty).paramDim) (hp : (Graph.variablesOf fs).Perm (Graph.variablesOf fs'))
    (hg : GraphOf F C fs g) (hg' : GraphOf F C fs' g') {vars vars' : List Var} {val : Var → Value ℝ} {a a' : Assign ℝ}
    (ha : SameValues C fs vars vars' val a a') :
    ∃ b b', a.updateStorageLayout C g.layout = .ok b ∧ a'.updateStorageLayout C g'.layout = .ok b' ∧ OrdR C fs fs' b b' := by
  have hs := variablesOf_spec fs
  have hs' := variablesOf_spec fs'
  have hmem : ∀ v, v ∈ Graph.variablesOf fs ↔ v ∈ Graph.variablesOf fs' := fun v => hp.mem_iff
  have s1 := stores_of_holds hC ha.left
  have s2 := stores_of_holds hC ha.right
  obtain ⟨b, h1, -, h2⟩ := s1.update hs.1 (fun v => by rw [ha.left.sameVars, hs.2]) fun v hv => by
    obtain ⟨f, hf, hv⟩ := (ha.left.sameVars v).1 hv; exact hpos f hf v hv
  obtain ⟨b', h3, -, h4⟩ := s2.update hs'.1 (fun v => by rw [ha.right.sameVars, ← hmem, hs.2]) fun v hv => by
    obtain ⟨f, hf, hv⟩ := (ha.right.sameVars v).1 hv; exact hpos f hf v hv
  exact ⟨b, b', by rw [hg.layout]; exact h1, by rw [hg'.layout]; exact h3, val, h2, h4⟩

theorem sameValues_out (hpos : ∀ f ∈ fs, ∀ v ∈ f.vars, 0 < (C v.ty).paramDim) (hp : (Graph.variablesOf fs).Perm (Graph.variablesOf fs')) {vars vars' : List Var}
    {val : Var → Value ℝ} {a a' : Assign ℝ} (ha : SameValues C fs vars vars' val a a') {b b' : Assign ℝ} (hb : OrdR C fs fs' b b') :
    ∃ o o', b.updateStorageLayout C a.layout = .ok o ∧ b'.updateStorageLayout C a'.layout = .ok o' ∧ o.layout = a.layout ∧
      o'.layout = a'.layout ∧ ∃ val', SameValues C fs vars vars' val' o o' := by
  have hs := variablesOf_spec fs
  have hmem : ∀ v, v ∈ Graph.variablesOf fs ↔ v ∈ Graph.variablesOf fs' := fun v => hp.mem_iff
  obtain ⟨val', s1, s2⟩ := hb
  have l1 : a.layout = Layout.make C vars false := by have := ha.left.assignment.2.1; rwa [ha.left.isGlobal] at this
  have l2 : a'.layout = Layout.make C vars' false := by have := ha.right.assignment.2.1; rwa [ha.right.isGlobal] at this
  have hps : ∀ v ∈ Graph.variablesOf fs, 0 < (C v.ty).paramDim := fun v hv => by
    obtain ⟨f, hf, hv⟩ := (hs.2 v).1 hv; exact hpos f hf v hv
  obtain ⟨o, h1, h2, h3⟩ := s1.update ha.left.assignment.1 (fun v => by rw [ha.left.sameVars, hs.2]) hps
  obtain ⟨o', h4, h5, h6⟩ := s2.update ha.right.assignment.1 (fun v => by rw [ha.right.sameVars, ← hmem, hs.2])
    fun v hv => hps v ((hmem v).2 hv)
  exact ⟨o, o', by rw [l1]; exact h1, by rw [l2]; exact h4, by rw [l1, h2], by rw [l2, h5], val',
    h3.holds ha.left.sameVars, h6.holds ha.right.sameVars⟩

end

end Jaxfg
