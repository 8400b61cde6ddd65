/- Lemmas on problems with independent parts. -/
import Verif.Spec.Parts
import Verif.Lemmas.OrderSim
import Verif.Lemmas.Budget
import Verif.Lemmas.CgSolve

namespace Jaxfg
open Matrix hiding vec
open Spec
open Ext (fin)

/-! ### Normal equations as a statement about inner products -/

theorem normal_iff {A : Coo ℝ} (hA : CooWF A) {r ATr x y : List ℝ} (hr : A.T.matmul r = .ok ATr) (hy : A.matmul x = .ok y) (β : ℝ) :
    ((cooMatrix A A.shape.1 A.shape.2)ᵀ * cooMatrix A A.shape.1 A.shape.2 + β • (1 : Matrix (Fin A.shape.2) (Fin A.shape.2) ℝ)) *ᵥ
        vec x A.shape.2 = vec (ATr.map fun x => -x) A.shape.2 ↔
      ∀ z u, A.matmul z = .ok u → vdot u y + vdot u r + β * vdot z x = 0 := by
  obtain ⟨lx, ly, ey⟩ := matmul_vec hA hy
  obtain ⟨lr, la, ea⟩ := matmul_vec (Props.cooWF_T hA) hr
  have lr : r.length = A.shape.1 := lr
  have la : ATr.length = A.shape.2 := la
  have ea : vec ATr A.shape.2 = (cooMatrix A A.shape.1 A.shape.2)ᵀ *ᵥ vec r A.shape.1 := by
    rw [← Props.cooMatrix_T]; exact ea
  have en : vec (ATr.map fun x => -x) A.shape.2 = - vec ATr A.shape.2 := by
    funext i
    rw [vec_eq (by simpa using la), Pi.neg_apply, vec_eq la, List.getElem_map]
  obtain ⟨M, hM⟩ : ∃ M, M = cooMatrix A A.shape.1 A.shape.2 := ⟨_, rfl⟩
  rw [← hM] at ea ey ⊢
  have key : ∀ z u, A.matmul z = .ok u → vdot u y + vdot u r + β * vdot z x =
      vec z A.shape.2 ⬝ᵥ ((Mᵀ * M + β • (1 : Matrix (Fin A.shape.2) (Fin A.shape.2) ℝ)) *ᵥ vec x A.shape.2 - vec (ATr.map fun x => -x) A.shape.2) := by
    intro z u hu
    obtain ⟨lz, lu, eu⟩ := matmul_vec hA hu
    rw [← hM] at eu
    rw [vdot_eq lu ly, vdot_eq lu lr, vdot_eq lz lx, en, ea, ey, eu, add_mulVec, sub_neg_eq_add, dotProduct_add, dotProduct_add,
      ← mulVec_mulVec, dotProduct_mulVec (vec z _) Mᵀ, dotProduct_mulVec (vec z _) Mᵀ, vecMul_transpose, smul_mulVec, one_mulVec,
      dotProduct_smul, smul_eq_mul]
    ring
  constructor
  · intro h z u hu
    rw [key z u hu, h, sub_self, dotProduct_zero]
  · intro h
    rw [← sub_eq_zero]
    funext i
    obtain ⟨u, hu, -⟩ := matmul_ok hA (x := ofVec (Pi.single i (1 : ℝ))) (length_ofVec _)
    have := key _ u hu
    rw [h _ u hu] at this
    have e : vec (ofVec (Pi.single i (1 : ℝ))) A.shape.2 = Pi.single i 1 := vec_ofVec _
    rw [e, single_one_dotProduct] at this
    exact this.symm

/-! ### Sums over blocks -/

theorem vdot_append {a b c d : List ℝ} (h : a.length = c.length) : vdot (a ++ b) (c ++ d) = vdot a c + vdot b d := by
  unfold vdot
  rw [List.zipWith_append h, List.sum_append]

theorem vdot_flatMap {ι : Type} {u w : ι → List ℝ} : ∀ {l : List ι}, (∀ i ∈ l, (u i).length = (w i).length) →
    vdot (l.flatMap u) (l.flatMap w) = (l.map fun i => vdot (u i) (w i)).sum := by
  intro l
  induction l with
  | nil => intro _; rfl
  | cons i l ih =>
    intro h
    rw [List.flatMap_cons, List.flatMap_cons, vdot_append (h i (by simp)), ih fun j hj => h j (by simp [hj])]
    rfl

theorem vdot_zero_left {a b : List ℝ} (h : ∀ x ∈ a, x = 0) : vdot a b = 0 := by
  unfold vdot
  induction a generalizing b with
  | nil => simp
  | cons x a ih =>
    cases b with
    | nil => simp
    | cons y b => simp [h x (by simp), ih fun z hz => h z (by simp [hz])]

theorem sum_filter_zero {ι : Type} (p : ι → Bool) (h : ι → ℝ) : ∀ (l : List ι), (∀ i ∈ l, p i = false → h i = 0) →
    (l.map h).sum = ((l.filter p).map h).sum := by
  intro l
  induction l with
  | nil => intro _; rfl
  | cons i l ih =>
    intro hz
    have := ih fun j hj => hz j (by simp [hj])
    cases hp : p i with
    | true => simp [hp, this]
    | false => simp [hp, this, hz i (by simp) hp]

/-- A sum over a list without repetitions of which the terms outside a second list vanish. -/
theorem sum_subset {ι : Type} [DecidableEq ι] {l k : List ι} (hl : l.Nodup) (hk : k.Nodup) (hs : ∀ i ∈ k, i ∈ l) {h : ι → ℝ}
    (hz : ∀ i ∈ l, i ∉ k → h i = 0) : (l.map h).sum = (k.map h).sum := by
  rw [sum_filter_zero (fun i => decide (i ∈ k)) h l fun i hi hd => hz i hi (by simpa using hd)]
  refine (List.Perm.map h ((List.perm_ext_iff_of_nodup (hl.filter _) hk).2 fun i => ?_)).sum_eq
  simp only [List.mem_filter, decide_eq_true_eq]
  exact ⟨fun h => h.2, fun h => ⟨hs i h, h⟩⟩

/-! ### A part of a problem -/

section
variable {F : Nat → FactorClass} {C : Ty → VarClass ℝ} {fs : List Factor} {p : Factor → Bool}

theorem part_vars (v : Var) (h : v ∈ Graph.variablesOf (fs.filter p)) : v ∈ Graph.variablesOf fs := by
  obtain ⟨f, hf, hv⟩ := ((variablesOf_spec _).2 v).1 h
  exact ((variablesOf_spec _).2 v).2 ⟨f, (List.mem_filter.1 hf).1, hv⟩

theorem facProd_zero {l : Layout} {R : Factor → List (Arr ℝ)} {x : List ℝ} {f : Factor} {e : Var → List ℝ} {vars : List Var}
    (h : Rep C vars true e ⟨x, l⟩) (hv : ∀ v ∈ f.vars, v ∈ vars) (hz : ∀ v ∈ f.vars, ∀ y ∈ e v, y = 0) :
    ∀ y ∈ facProd C (posIn l) R x f, y = 0 := by
  intro y hy
  unfold facProd at hy
  obtain ⟨r, -, rfl⟩ := List.mem_map.1 hy
  apply Finset.sum_eq_zero
  intro i hi
  have hi : i < f.vars.length := Finset.mem_range.1 hi
  have hm : f.vars.getD i ⟨0, 0⟩ ∈ f.vars := by
    rw [List.getD_eq_getElem?_getD, List.getElem?_eq_getElem hi]; exact List.getElem_mem hi
  unfold blockProd
  apply Finset.sum_eq_zero
  intro c hc
  have hc : c < _ := Finset.mem_range.1 hc
  generalize f.vars.getD i ⟨0, 0⟩ = v at hm hc ⊢
  have : x.getD (posIn l v + c) 0 = 0 := by
    obtain ⟨k, h1, -, h3⟩ := h.index (hv _ hm)
    simp only at h1 h3
    have e1 : posIn l v = k := by rw [posIn, h1]; rfl
    have hd : c < dimOf C true v.ty := hc
    have e2 : x.getD (k + c) 0 = (e v).getD c 0 := by
      rw [← h3]
      unfold slice
      simp only [List.getD_eq_getElem?_getD]
      rw [List.getElem?_take_of_lt hd, List.getElem?_drop]
    rw [e1, e2, List.getD_eq_getElem?_getD]
    cases hg : (e v)[c]? with
    | none => rfl
    | some y => exact hz _ hm _ (List.mem_of_getElem? hg)
  rw [this, mul_zero]

variable {g g' : Graph}

theorem part_step (hC : GoodClasses C) (hfs : ∀ f ∈ fs, FactorWF F C f) (hne : fs.filter p ≠ []) (hsep : Separate fs p)
    (hg : GraphOf F C fs g) (hg' : GraphOf F C (fs.filter p) g') {β : ℝ} (hβ : 0 < β) {L L' : LinSolver ℝ} (hL : ExactlyDamped L β)
    (hL' : ExactlyDamped L' β) {a a' : Assign ℝ} (ha : OrdR C fs (fs.filter p) a a') {c c' : ℝ} {r r' : List ℝ}
    (hc : g.computeCost F C a = .ok (c, r)) (hc' : g'.computeCost F C a' = .ok (c', r')) (i i' : Nat) :
    ∃ A A' z z' d d' b b' k k', g.computeWhitenedResidualJacobian F C a r = .ok A ∧ A.T.matmul r = .ok z ∧
      L A (z.map fun x => -x) 0 i = .ok d ∧ a.manifoldRetract C ⟨d, g.localLayout⟩ = .ok b ∧ g.computeCost F C b = .ok k ∧
      g'.computeWhitenedResidualJacobian F C a' r' = .ok A' ∧ A'.T.matmul r' = .ok z' ∧
      L' A' (z'.map fun x => -x) 0 i' = .ok d' ∧ a'.manifoldRetract C ⟨d', g'.localLayout⟩ = .ok b' ∧ g'.computeCost F C b' = .ok k' ∧
      OrdR C fs (fs.filter p) b b' := by
  have hs := variablesOf_spec fs
  have hs' := variablesOf_spec (fs.filter p)
  have hfs' : ∀ f ∈ fs.filter p, FactorWF F C f := fun f hf => hfs f (List.mem_filter.1 hf).1
  have hne0 : fs ≠ [] := fun h => hne (by rw [h]; rfl)
  obtain ⟨val, h1, h2⟩ := ha
  have k1 := h1.holds hs.2
  have k2 := h2.holds hs'.2
  obtain ⟨w, hw⟩ := k1.whitened hC hfs
  have e1 := Props.cost_ok _ _ hC hne0 hfs hg k1 fun f hf => (hw f hf).1
  have e2 := Props.cost_ok _ _ hC hne hfs' hg' k2 fun f hf => (hw f (List.mem_filter.1 hf).1).1
  rw [e1] at hc; cases hc
  rw [e2] at hc'; cases hc'
  have hlen : ∀ f ∈ fs, (w f).length = rdim f := fun f hf => (hw f hf).2
  obtain ⟨R, hR⟩ : ∃ R : Factor → List (Arr ℝ), ∀ f ∈ fs,
      ((F f.cls).jacobians f.self (f.vars.map val)).mapM (fun J => f.noise.whitenJacobian J (w f)) = .ok (R f) := by
    have : ∀ f : Factor, ∃ R', f ∈ fs →
        ((F f.cls).jacobians f.self (f.vars.map val)).mapM (fun J => f.noise.whitenJacobian J (w f)) = .ok R' :=
      fun f => by
        by_cases hf : f ∈ fs
        · obtain ⟨R', e1, e2⟩ := whitenedJacobians_ok (hfs f hf) (k1.valuesFor hC hf) (hlen f hf)
          exact ⟨R', fun _ => e1⟩
        · exact ⟨[], fun h => absurd h hf⟩
    choose R hR using this
    exact ⟨R, hR⟩
  obtain ⟨A, j1, jw, js, -, -, jm⟩ := jacobian_ok hC hfs hne0 hg k1 hlen hR
  obtain ⟨A', j1', jw', js', -, -, jm'⟩ := jacobian_ok hC hfs' hne hg' k2 (fun f hf => hlen f (List.mem_filter.1 hf).1)
    fun f hf => hR f (List.mem_filter.1 hf).1
  have lr : ((evalOrder fs).flatMap w).length = g.residualDim := by
    rw [hg.residualDim]; exact length_flatMap_blocks fun f hf => hlen f (mem_groupedBy.1 hf)
  have lr' : ((evalOrder (fs.filter p)).flatMap w).length = g'.residualDim := by
    rw [hg'.residualDim]; exact length_flatMap_blocks fun f hf => hlen f (List.mem_filter.1 (mem_groupedBy.1 hf)).1
  obtain ⟨z, z1, z2, -⟩ := matmul_ok (Props.cooWF_T jw) (x := (evalOrder fs).flatMap w) (by show _ = A.shape.1; rw [js, lr])
  obtain ⟨z', z1', z2', -⟩ := matmul_ok (Props.cooWF_T jw') (x := (evalOrder (fs.filter p)).flatMap w)
    (by show _ = A'.shape.1; rw [js', lr'])
  have z2 : z.length = A.shape.2 := z2
  have z2' : z'.length = A'.shape.2 := z2'
  obtain ⟨d, d1, d2, d3⟩ := hL A (z.map fun x => -x) i jw (by simpa using z2)
  obtain ⟨d', d1', d2', d3'⟩ := hL' A' (z'.map fun x => -x) i' jw' (by simpa using z2')
  have ls : A.shape.2 = g.localLayout.dim := by rw [js]
  have ls' : A'.shape.2 = g'.localLayout.dim := by rw [js']
  obtain ⟨e, he⟩ := exists_rep (a := ⟨d, Layout.make C (Graph.variablesOf fs) true⟩) (C := C) (vars := Graph.variablesOf fs)
    ⟨hs.1, rfl, by show d.length = _; rw [d2, ls, hg.localLayout]⟩
  have he : Rep C (Graph.variablesOf fs) true e ⟨d, g.localLayout⟩ := by rw [hg.localLayout]; exact he
  -- the step of the whole, restricted to the part
  obtain ⟨q, hq⟩ : ∃ q, q = (grouped (Graph.variablesOf (fs.filter p))).flatMap e := ⟨_, rfl⟩
  have he' : Rep C (Graph.variablesOf (fs.filter p)) true e ⟨q, g'.localLayout⟩ :=
    ⟨hs'.1, hg'.localLayout, fun v hv => he.len v (part_vars v hv), hq⟩
  have lq : q.length = A'.shape.2 := by rw [ls']; exact he'.storage_length'
  have hd := jm d (by rw [d2, ls])
  have hqm := jm' q (by rw [lq, ls'])
  have same : ∀ f ∈ fs.filter p, facProd C (posIn g.localLayout) R d f = facProd C (posIn g'.localLayout) R q f := fun f hf =>
    facProd_blocks he he' (fun v hv => (hs.2 v).2 ⟨f, (List.mem_filter.1 hf).1, hv⟩) fun v hv => (hs'.2 v).2 ⟨f, hf, hv⟩
  have hsol : ∀ t u, A'.matmul t = .ok u →
      vdot u ((evalOrder (fs.filter p)).flatMap (facProd C (posIn g'.localLayout) R q)) +
        vdot u ((evalOrder (fs.filter p)).flatMap w) + β * vdot t q = 0 := by
    intro t u hu
    obtain ⟨lt, -, -⟩ := matmul_vec jw' hu
    obtain ⟨e2, he2⟩ := exists_rep (a := ⟨t, Layout.make C (Graph.variablesOf (fs.filter p)) true⟩) (C := C)
      (vars := Graph.variablesOf (fs.filter p)) ⟨hs'.1, rfl, by show t.length = _; rw [lt, ls', hg'.localLayout]⟩
    -- extended by zero
    obtain ⟨e3, he3⟩ : ∃ e3 : Var → List ℝ, e3 = fun v =>
      if v ∈ Graph.variablesOf (fs.filter p) then e2 v else List.replicate (C v.ty).localDim 0 := ⟨_, rfl⟩
    have ein : ∀ v ∈ Graph.variablesOf (fs.filter p), e3 v = e2 v := fun v hv => by rw [he3]; exact if_pos hv
    have eout : ∀ v, v ∉ Graph.variablesOf (fs.filter p) → e3 v = List.replicate (C v.ty).localDim 0 :=
      fun v hv => by rw [he3]; exact if_neg hv
    have r1 : Rep C (Graph.variablesOf (fs.filter p)) true e3 ⟨t, g'.localLayout⟩ := by
      rw [hg'.localLayout]
      exact Rep.congr he2 fun v hv => (ein v hv).symm
    have r2 : Rep C (Graph.variablesOf fs) true e3 ⟨(grouped (Graph.variablesOf fs)).flatMap e3, g.localLayout⟩ := by
      refine ⟨hs.1, hg.localLayout, fun v hv => ?_, rfl⟩
      by_cases hm : v ∈ Graph.variablesOf (fs.filter p)
      · exact r1.len v hm
      · rw [eout v hm, List.length_replicate]; rfl
    have lT : ((grouped (Graph.variablesOf fs)).flatMap e3).length = g.localLayout.dim := r2.storage_length'
    have hmul := jm _ lT
    have hmul' := jm' t (by rw [lt, ls'])
    rw [hmul'] at hu
    cases hu
    have hall := (normal_iff jw z1 hd β).1 d3 _ _ hmul
    have zero : ∀ f ∈ fs, p f = false → ∀ y ∈ facProd C (posIn g.localLayout) R ((grouped (Graph.variablesOf fs)).flatMap e3) f, y = 0 := by
      intro f hf hpf
      refine facProd_zero r2 (fun v hv => (hs.2 v).2 ⟨f, hf, hv⟩) fun v hv y hy => ?_
      have hm : v ∉ Graph.variablesOf (fs.filter p) := by
        intro hm
        obtain ⟨f2, hf2, hv2⟩ := (hs'.2 v).1 hm
        exact hsep f2 (List.mem_filter.1 hf2).1 f hf (List.mem_filter.1 hf2).2 hpf v hv2 hv
      rw [eout v hm] at hy
      exact List.eq_of_mem_replicate hy
    have same2 : ∀ f ∈ fs.filter p, facProd C (posIn g.localLayout) R ((grouped (Graph.variablesOf fs)).flatMap e3) f =
        facProd C (posIn g'.localLayout) R t f := fun f hf =>
      facProd_blocks r2 r1 (fun v hv => (hs.2 v).2 ⟨f, (List.mem_filter.1 hf).1, hv⟩) fun v hv => (hs'.2 v).2 ⟨f, hf, hv⟩
    have move : ∀ {u u' : Factor → List ℝ}, (∀ f ∈ fs, (u f).length = rdim f) → (∀ f ∈ fs.filter p, u f = u' f) →
        vdot ((evalOrder fs).flatMap (facProd C (posIn g.localLayout) R ((grouped (Graph.variablesOf fs)).flatMap e3))) ((evalOrder fs).flatMap u) =
        vdot ((evalOrder (fs.filter p)).flatMap (facProd C (posIn g'.localLayout) R t)) ((evalOrder (fs.filter p)).flatMap u') := by
      intro u u' hu hu'
      have hmem : ∀ f ∈ evalOrder fs, f ∈ fs := fun f hf => mem_groupedBy.1 hf
      have hmem' : ∀ f ∈ evalOrder (fs.filter p), f ∈ fs.filter p := fun f hf => mem_groupedBy.1 hf
      rw [vdot_flatMap fun f hf => by rw [length_facProd, hu f (hmem f hf)],
        vdot_flatMap fun f hf => by rw [length_facProd, ← hu' f (hmem' f hf), hu f (List.mem_filter.1 (hmem' f hf)).1],
        evalOrder, evalOrder, ((groupedBy_perm kind fs).map _).sum_eq, ((groupedBy_perm kind (fs.filter p)).map _).sum_eq,
        sum_filter_zero p _ fs fun f hf hpf => vdot_zero_left (zero f hf hpf)]
      congr 1
      apply List.map_congr_left
      intro f hf
      rw [same2 f hf, hu' f hf]
    rw [move (fun f _ => length_facProd) same, move hlen fun _ _ => rfl] at hall
    have inner : vdot ((grouped (Graph.variablesOf fs)).flatMap e3) d = vdot t q := by
      have hd : d = (grouped (Graph.variablesOf fs)).flatMap e := he.storage
      have ht : t = (grouped (Graph.variablesOf (fs.filter p))).flatMap e3 := r1.storage
      rw [hd, ht, hq, vdot_flatMap fun v hv => by rw [r2.len' v hv, he.len' v hv], vdot_flatMap fun v hv => by rw [r1.len' v hv, he'.len' v hv]]
      refine sum_subset ((grouped_perm _).nodup_iff.2 hs.1) ((grouped_perm _).nodup_iff.2 hs'.1)
        (fun v hv => mem_grouped.2 (part_vars v (mem_grouped.1 hv))) fun v hv hm => vdot_zero_left fun y hy => ?_
      rw [eout v fun h => hm (mem_grouped.2 h)] at hy
      exact List.eq_of_mem_replicate hy
    rw [inner] at hall
    exact hall
  have dq : d' = q := by
    have hpd := normalMatrix_posDef (cooMatrix A' A'.shape.1 A'.shape.2) hβ
    have h3 := (normal_iff jw' z1' hqm β).2 hsol
    have h4 : normalMatrix (cooMatrix A' A'.shape.1 A'.shape.2) β *ᵥ vec d' A'.shape.2 =
      normalMatrix (cooMatrix A' A'.shape.1 A'.shape.2) β *ᵥ vec q A'.shape.2 := d3'.trans h3.symm
    exact ext_vec d2' lq ((Matrix.mulVec_injective_iff_isUnit.2 hpd.isUnit) h4)
  subst dq
  obtain ⟨b, b1, b2⟩ := h1.retract hC he
  obtain ⟨b', b1', b2'⟩ := h2.retract hC he'
  have m1 := b2.holds hs.2
  have m2 := b2'.holds hs'.2
  obtain ⟨w2, hw2⟩ := m1.whitened hC hfs
  exact ⟨A, A', z, z', d, d', b, b', _, _, j1, z1, d1, b1, Props.cost_ok _ _ hC hne0 hfs hg m1 fun f hf => (hw2 f hf).1, j1', z1', d1',
    b1', Props.cost_ok _ _ hC hne hfs' hg' m2 fun f hf => (hw2 f (List.mem_filter.1 hf).1).1, _, b2, b2'⟩

/-- One step in the program with infinities and NaNs. -/
theorem core_fin {CE : Ty → VarClass Ext} {gE : GraphOps Ext} {g : GraphOps ℝ} (h : Lifts CE gE C g) {LE : LinSolver Ext}
    {L : LinSolver ℝ} (hL : LiftsSolver LE L) {i : Nat} {a b : Assign ℝ} {c : ℝ} {r z d : List ℝ} {A : Coo ℝ} {k : ℝ × List ℝ}
    (h1 : g.jacobian a r = .ok A) (h2 : A.T.matmul r = .ok z) (h3 : L A (z.map fun x => -x) 0 i = .ok d)
    (h4 : a.manifoldRetract C ⟨d, g.localLayout⟩ = .ok b) (h5 : g.computeCost b = .ok k) :
    gnCore CE gE LE i (a.map fin, fin c, r.map fin) = .ok (b.map fin, fin k.1, k.2.map fin) := by
  have := fixedStep_core (C := CE) (g := gE) ⟨false, LE, false, 1⟩ (State.map fin ⟨i, a, c, r, false⟩)
  rw [(fixedStep_fin h (sE := ⟨false, LE, false, 1⟩) hL).2 ⟨A, z, d, b, k.1, k.2, h1, h2, h3, h4, h5, rfl, rfl⟩] at this
  exact this.symm

theorem part_loop (hC : GoodClasses C) (hfs : ∀ f ∈ fs, FactorWF F C f) (hne : fs.filter p ≠ []) (hsep : Separate fs p)
    (hg : GraphOf F C fs g) (hg' : GraphOf F C (fs.filter p) g') {β : ℝ} (hβ : 0 < β) {L L' : LinSolver ℝ} (hL : ExactlyDamped L β)
    (hL' : ExactlyDamped L' β) {CE : Ty → VarClass Ext} {gE gE' : GraphOps Ext} (hl : Lifts CE gE C (g.ops F C))
    (hl' : Lifts CE gE' C (g'.ops F C)) {LE LE' : LinSolver Ext} (hE : LiftsSolver LE L) (hE' : LiftsSolver LE' L') :
    ∀ (n i i' : Nat) {a a' : Assign ℝ} {k k' : ℝ × List ℝ}, OrdR C fs (fs.filter p) a a' → g.computeCost F C a = .ok k →
      g'.computeCost F C a' = .ok k' → ∃ b b' l l', coreLoop CE gE LE n i (a.map fin, fin k.1, k.2.map fin) = .ok (b.map fin, l) ∧
        coreLoop CE gE' LE' n i' (a'.map fin, fin k'.1, k'.2.map fin) = .ok (b'.map fin, l') ∧ OrdR C fs (fs.filter p) b b' := by
  intro n
  induction n with
  | zero => intro i i' a a' k k' ha hc hc'; exact ⟨a, a', _, _, rfl, rfl, ha⟩
  | succ n ih =>
    intro i i' a a' k k' ha hc hc'
    obtain ⟨A, A', z, z', d, d', b, b', q, q', h1, h2, h3, h4, h5, h1', h2', h3', h4', h5', h6⟩ :=
      part_step hC hfs hne hsep hg hg' hβ hL hL' ha hc hc' i i'
    obtain ⟨o, o', l, l', r1, r2, r3⟩ := ih (i + 1) (i' + 1) h6 h5 h5'
    refine ⟨o, o', l, l', ?_, ?_, r3⟩
    · unfold coreLoop
      rw [core_fin hl hE (g := g.ops F C) h1 h2 h3 h4 h5, py_bind_ok]; exact r1
    · unfold coreLoop
      rw [core_fin hl' hE' (g := g'.ops F C) h1' h2' h3' h4' h5', py_bind_ok]; exact r2

end

end Jaxfg
