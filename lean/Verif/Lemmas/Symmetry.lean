/- Solving a problem and its image under a symmetry. -/
import Verif.Lemmas.Simulation
import Verif.Spec.Symmetry

namespace Jaxfg
open Spec
open Ext (fin)

/-! ### Factor lists -/

theorem firstKeys_map {β κ : Type _} [DecidableEq κ] {key : β → κ} {φ : β → β} {xs : List β} (h : ∀ x ∈ xs, key (φ x) = key x) :
    firstKeys key (xs.map φ) = firstKeys key xs := by
  induction xs with
  | nil => rfl
  | cons x xs ih =>
    simp only [List.map_cons, firstKeys]
    rw [h x (by simp), ih fun y hy => h y (by simp [hy])]

theorem groups_map {β κ : Type _} [DecidableEq κ] {key : β → κ} {φ : β → β} {xs : List β} (h : ∀ x ∈ xs, key (φ x) = key x) :
    groups key (xs.map φ) = (groups key xs).map (List.map φ) := by
  unfold groups
  rw [firstKeys_map h, List.map_map]
  apply List.map_congr_left
  intro k _
  rw [Function.comp, List.filter_map]
  congr 1
  apply List.filter_congr
  intro x hx
  simp [h x hx]

theorem variablesOf_map {φ : Factor → Factor} {fs : List Factor} (h : ∀ f ∈ fs, (φ f).vars = f.vars) :
    Graph.variablesOf (fs.map φ) = Graph.variablesOf fs := by
  unfold Graph.variablesOf
  rw [List.foldl_map]
  congr 1
  generalize (PyDict.empty : PyDict Var Unit) = d
  induction fs generalizing d with
  | nil => rfl
  | cons f fs ih =>
    simp only [List.foldl_cons]
    rw [h f (by simp), ih fun f' hf' => h f' (by simp [hf'])]

section
variable {F : Nat → FactorClass} {C : Ty → VarClass ℝ} {fs : List Factor} {φ : Factor → Factor} {τ : Var → Value ℝ → Value ℝ}
  {V : Var → Value ℝ → Prop} {N : Factor → (Var → Value ℝ) → Prop}

theorem Spec.IsSymmetryAway.rdim_eq (h : IsSymmetryAway F C fs φ τ V N) {f : Factor} (hf : f ∈ fs) : rdim (φ f) = rdim f := by
  unfold rdim; rw [h.noise f hf]

theorem Spec.IsSymmetryAway.kind_eq (h : IsSymmetryAway F C fs φ τ V N) {f : Factor} (hf : f ∈ fs) : kind (φ f) = kind f := by
  unfold kind
  rw [h.cls f hf, h.vars f hf, h.noise f hf, List.map_append, List.map_append, h.shapes f hf]

theorem Spec.IsSymmetryAway.groups_eq (h : IsSymmetryAway F C fs φ τ V N) : groups kind (fs.map φ) = (groups kind fs).map (List.map φ) :=
  groups_map fun _ hf => h.kind_eq hf

theorem Spec.IsSymmetryAway.evalOrder_eq (h : IsSymmetryAway F C fs φ τ V N) : evalOrder (fs.map φ) = (evalOrder fs).map φ := by
  unfold evalOrder
  rw [groupedBy_eq, groupedBy_eq, h.groups_eq, List.map_flatten]

theorem groupValues_map {R R' : Factor → List (Arr ℝ)} {G : List Factor} (h1 : ∀ f ∈ G, R' (φ f) = R f)
    (h2 : ∀ f ∈ G, (φ f).vars = f.vars) : groupValues R' (G.map φ) = groupValues R G := by
  have hg : gVars (G.map φ) = gVars G := by
    cases G with
    | nil => rfl
    | cons f G => simp only [List.map_cons, gVars, h2 f (by simp)]
  unfold groupValues
  rw [hg]
  apply List.map_congr_left
  intro i _
  rw [List.flatMap_map]
  exact List.flatMap_congr fun f hf => by rw [h1 f hf]

theorem groupCoords_map {lpos : Var → Nat} {o : Nat} {G : List Factor} (h1 : ∀ f ∈ G, rdim (φ f) = rdim f)
    (h2 : ∀ f ∈ G, (φ f).vars = f.vars) : groupCoords C lpos o (G.map φ) = groupCoords C lpos o G := by
  have hg : gVars (G.map φ) = gVars G := by
    cases G with
    | nil => rfl
    | cons f G => simp only [List.map_cons, gVars, h2 f (by simp)]
  have hr : gRdim (G.map φ) = gRdim G := by
    cases G with
    | nil => rfl
    | cons f G => simp only [List.map_cons, gRdim, h1 f (by simp)]
  unfold groupCoords
  rw [hg, hr, List.length_map]
  apply List.map_congr_left
  intro i _
  have : (G.map φ).map (localIdx C lpos i) = G.map (localIdx C lpos i) := by
    rw [List.map_map]
    apply List.map_congr_left
    intro f hf
    simp only [Function.comp, localIdx, h2 f hf]
  rw [this]

theorem total_map {G : List Factor} (h1 : ∀ f ∈ G, rdim (φ f) = rdim f) : total rdim (G.map φ) = total rdim G := by
  induction G with
  | nil => rfl
  | cons f G ih => rw [List.map_cons, total_cons, total_cons, h1 f (by simp), ih fun f' hf' => h1 f' (by simp [hf'])]

theorem coordBlocks_map {lpos : Var → Nat} {Gs : List (List Factor)} (h1 : ∀ G ∈ Gs, ∀ f ∈ G, rdim (φ f) = rdim f)
    (h2 : ∀ G ∈ Gs, ∀ f ∈ G, (φ f).vars = f.vars) (o : Nat) :
    coordBlocks C lpos o (Gs.map (List.map φ)) = coordBlocks C lpos o Gs := by
  induction Gs generalizing o with
  | nil => rfl
  | cons G Gs ih =>
    simp only [List.map_cons, coordBlocks]
    rw [groupCoords_map (h1 G (by simp)) (h2 G (by simp)), total_map (h1 G (by simp)),
      ih (fun H hH => h1 H (by simp [hH])) fun H hH => h2 H (by simp [hH])]

/-! ### Assignments -/

/-- `a`, in the order `ws`, stores the values `val`. -/
def Stores (C : Ty → VarClass ℝ) (ws : List Var) (val : Var → Value ℝ) (a : Assign ℝ) : Prop :=
  Rep C ws false (fun v => (val v).flatten) a ∧ ∀ v ∈ ws, IsValueOf (C v.ty) (val v)

theorem Stores.holds {ws : List Var} {val : Var → Value ℝ} {a : Assign ℝ} (h : Stores C ws val a)
    (hs : ∀ v, v ∈ ws ↔ ∃ f ∈ fs, v ∈ f.vars) : Holds C fs ws val a :=
  ⟨h.1.isAssignment, h.1.flag, hs, fun v hv => by rw [h.1.getValue_ok hv, unravel_flatten (h.2 v hv)]⟩

theorem stores_of_holds (hC : GoodClasses C) {ws : List Var} {val : Var → Value ℝ} {a : Assign ℝ} (h : Holds C fs ws val a) :
    Stores C ws val a := by
  obtain ⟨f, hf⟩ := exists_rep h.assignment
  rw [h.isGlobal] at hf
  have key : ∀ v ∈ ws, IsValueOf (C v.ty) (val v) ∧ f v = (val v).flatten := by
    intro v hv
    have h1 := h.values v hv
    rw [hf.getValue_ok hv] at h1
    have h2 : unravel (C v.ty).default (f v) = val v := by injection h1
    rw [← h2]
    exact ⟨isValueOf_unravel (hC v.ty).1 (hf.len v hv), (flatten_unravel (hC v.ty).1 (hf.len v hv)).symm⟩
  exact ⟨hf.congr fun v hv => (key v hv).2, fun v hv => (key v hv).1⟩

theorem Stores.update {ws vs : List Var} {val : Var → Value ℝ} {a : Assign ℝ} (h : Stores C ws val a) (hn : vs.Nodup)
    (hs : ∀ v, v ∈ ws ↔ v ∈ vs) (hpos : ∀ v ∈ ws, 0 < (C v.ty).paramDim) :
    ∃ b, a.updateStorageLayout C (Layout.make C vs false) = .ok b ∧ b.layout = Layout.make C vs false ∧ Stores C vs val b :=
  ⟨_, h.1.update_unique hn hs hpos, rfl, ⟨hn, rfl, fun v hv => h.1.len v ((hs v).2 hv), rfl⟩, fun v hv => h.2 v ((hs v).2 hv)⟩

theorem Stores.retract (hC : GoodClasses C) {ws : List Var} {val : Var → Value ℝ} {a : Assign ℝ} (h : Stores C ws val a)
    {d : Var → List ℝ} {δ : Assign ℝ} (hδ : Rep C ws true d δ) :
    ∃ b, a.manifoldRetract C δ = .ok b ∧ Stores C ws (fun v => (C v.ty).retract (val v) (d v)) b := by
  obtain ⟨b, h1, -, h3⟩ := h.1.retract_ok hC hδ fun _ _ => rfl
  refine ⟨b, h1, h3.congr fun v hv => ?_, fun v hv => (hC v.ty).2 _ _ (h.2 v hv) (hδ.len v hv)⟩
  rw [unravel_flatten (h.2 v hv)]

/-- Assignments in the order of the graph that correspond to each other. -/
def SymR (C : Ty → VarClass ℝ) (ws : List Var) (τ : Var → Value ℝ → Value ℝ) (V : Var → Value ℝ → Prop) (a a' : Assign ℝ) : Prop :=
  ∃ val, Stores C ws val a ∧ Stores C ws (fun v => τ v (val v)) a' ∧ ∀ v ∈ ws, V v (val v)

/-- Equal residual vectors made of one piece for every factor. -/
def SymQ (fs : List Factor) (φ : Factor → Factor) (r r' : List ℝ) : Prop :=
  r' = r ∧ ∃ w : Factor → List ℝ, (∀ f ∈ fs, (w (φ f)).length = rdim f) ∧ r = (evalOrder fs).flatMap fun f => w (φ f)

/-- Equal vectors of tangent coordinates. -/
def SymD (n : Nat) (d d' : List ℝ) : Prop := d' = d ∧ d.length = n

/-- Equal Jacobians, whose products are vectors of residuals. -/
def SymJ (fs : List Factor) (φ : Factor → Factor) (n : Nat) (A A' : Coo ℝ) : Prop :=
  A' = A ∧ CooWF A ∧ A.shape.2 = n ∧ ∀ x y, x.length = n → A.matmul x = .ok y → SymQ fs φ y y

variable {g g' : Graph} {L : LinSolver ℝ}

theorem symmetry_sim_away (hC : GoodClasses C) (hfs : ∀ f ∈ fs, FactorWF F C f) (hne : fs ≠ []) (hS : IsSymmetryAway F C fs φ τ V N)
    (hfs' : ∀ f ∈ fs, FactorWF F C (φ f)) (hg : GraphOf F C fs g) (hg' : GraphOf F C (fs.map φ) g') (hL : SizedSolutions L)
    {ok : Assign ℝ → Prop} (hok : ∀ a val, ok a → Holds C fs (Graph.variablesOf fs) val a → (∀ v ∈ Graph.variablesOf fs, V v (val v)) →
      ∀ f ∈ fs, ¬ N f val) :
    Sim C C (watched ok (g.ops F C)) (g'.ops F C) L L (SymR C (Graph.variablesOf fs) τ V) (SymQ fs φ) (SymD g.localLayout.dim)
      (SymJ fs φ g.localLayout.dim) := by
  classical
  have hs := variablesOf_spec fs
  have hvo : Graph.variablesOf (fs.map φ) = Graph.variablesOf fs := variablesOf_map hS.vars
  have hll : g'.localLayout = g.localLayout := by rw [hg'.localLayout, hg.localLayout, hvo]
  have hlay : g'.layout = g.layout := by rw [hg'.layout, hg.layout, hvo]
  have hne' : fs.map φ ≠ [] := by simpa using hne
  have hWF' : ∀ f ∈ fs.map φ, FactorWF F C f := by
    intro f hf
    obtain ⟨f0, h0, rfl⟩ := List.mem_map.1 hf
    exact hfs' f0 h0
  have hev : ∀ w : Factor → List ℝ, (evalOrder (fs.map φ)).flatMap w = (evalOrder fs).flatMap fun f => w (φ f) := by
    intro w
    rw [hS.evalOrder_eq, List.flatMap_map]
  have holds : ∀ {a a' val}, Stores C (Graph.variablesOf fs) val a → Stores C (Graph.variablesOf fs) (fun v => τ v (val v)) a' →
      (∀ v ∈ Graph.variablesOf fs, V v (val v)) → Holds C fs (Graph.variablesOf fs) val a ∧
        Holds C (fs.map φ) (Graph.variablesOf fs) (fun v => τ v (val v)) a' ∧
        ∀ f ∈ fs, ∀ v ∈ f.vars, IsValueOf (C v.ty) (val v) ∧ V v (val v) := by
    intro a a' val h1 h2 h3
    refine ⟨h1.holds hs.2, h2.holds ?_, fun f hf v hv => ?_⟩
    · intro v; rw [← hvo, (variablesOf_spec _).2]
    · have : v ∈ Graph.variablesOf fs := (hs.2 v).2 ⟨f, hf, hv⟩
      exact ⟨h1.2 v this, h3 v this⟩
  have hQ0 : ∀ {r : List ℝ}, (∃ w : Factor → List ℝ, (∀ f ∈ fs, (w (φ f)).length = rdim f) ∧
      r = (evalOrder fs).flatMap fun f => w (φ f)) → SymQ fs φ r r := fun h => ⟨rfl, h⟩
  constructor
  case cost =>
    rintro a a' c r ⟨val, h1, h2, h3⟩ hc
    obtain ⟨k1, k2, k3⟩ := holds h1 h2 h3
    have hc : (if ok a then g.computeCost F C a else .error .assertion) = .ok (c, r) := hc
    by_cases hoka : ok a
    · rw [if_pos hoka] at hc
      obtain ⟨w, hw⟩ := k2.whitened hC hWF'
      have e2 := Props.cost_ok _ _ hC hne' hWF' hg' k2 fun f hf => (hw f hf).1
      have e1 := Props.cost_ok _ _ hC hne hfs hg k1 (w := fun f => w (φ f)) (by
        intro f hf
        rw [← (hw (φ f) (List.mem_map_of_mem hf)).1]
        unfold whitenedAt
        rw [hS.cls f hf, hS.vars f hf, hS.noise f hf, hS.residual f hf val (k3 f hf) (hok a val hoka k1 h3 f hf)])
      rw [e1] at hc
      cases hc
      refine ⟨(evalOrder fs).flatMap fun f => w (φ f), ?_, rfl, w, fun f hf => ?_, rfl⟩
      · show g'.computeCost F C a' = _
        rw [e2, hev w, List.map_map]
        rfl
      · rw [(hw (φ f) (List.mem_map_of_mem hf)).2, hS.rdim_eq hf]
    · rw [if_neg hoka] at hc
      cases hc
  case jac =>
    rintro a a' r _ A ⟨val, h1, h2, h3⟩ ⟨⟨rfl, w, hw, rfl⟩, -⟩ hA
    obtain ⟨k1, k2, k3⟩ := holds h1 h2 h3
    have hw' : ∀ f ∈ fs.map φ, (w f).length = rdim f := by
      intro f hf
      obtain ⟨f0, h0, rfl⟩ := List.mem_map.1 hf
      rw [hw f0 h0, hS.rdim_eq h0]
    obtain ⟨R, hR⟩ : ∃ R : Factor → List (Arr ℝ), ∀ f ∈ fs.map φ,
        ((F f.cls).jacobians f.self (f.vars.map fun v => τ v (val v))).mapM (fun J => f.noise.whitenJacobian J (w f)) = .ok (R f) := by
      have : ∀ f : Factor, ∃ R', f ∈ fs.map φ →
          ((F f.cls).jacobians f.self (f.vars.map fun v => τ v (val v))).mapM (fun J => f.noise.whitenJacobian J (w f)) = .ok R' :=
        fun f => by
          by_cases hf : f ∈ fs.map φ
          · obtain ⟨R', e1, -⟩ := whitenedJacobians_ok (hWF' f hf) (k2.valuesFor hC hf) (hw' f hf)
            exact ⟨R', fun _ => e1⟩
          · exact ⟨[], fun h => absurd h hf⟩
      choose R hR using this
      exact ⟨R, hR⟩
    obtain ⟨A1, f1, f2, -⟩ := jacobian_explicit hC hWF' hne' hg' k2 hw' hR
    obtain ⟨A0, e1, e2, e3, e4, -, -, e5⟩ := jacobian_explicit hC hfs hne hg k1 (ρ := fun f => w (φ f)) (R := fun f => R (φ f)) hw (by
      intro f hf
      rw [← hR (φ f) (List.mem_map_of_mem hf), hS.cls f hf, hS.vars f hf, hS.noise f hf, hS.jacobians f hf val (k3 f hf)])
    have hA : g.computeWhitenedResidualJacobian F C a _ = .ok A := hA
    rw [e1] at hA
    cases hA
    rw [hev w] at f1
    refine ⟨A1, f1, ?_, e3, by rw [e4], ?_⟩
    · rw [e2, f2]
      have hmem : ∀ G ∈ groups kind fs, ∀ f ∈ G, f ∈ fs := fun G hG f hf => mem_groups_mem hG f hf
      have v1 : (groups kind (fs.map φ)).map (groupValues R) = (groups kind fs).map (groupValues fun f => R (φ f)) := by
        rw [hS.groups_eq, List.map_map]
        exact List.map_congr_left fun G hG => groupValues_map (fun f hf => rfl) fun f hf => hS.vars f (hmem G hG f hf)
      have v2 : g'.jacobianCoords = g.jacobianCoords := by
        rw [hg'.coords, hg.coords, hvo, hS.groups_eq]
        rw [coordBlocks_map (fun G hG f hf => hS.rdim_eq (hmem G hG f hf)) fun G hG f hf => hS.vars f (hmem G hG f hf)]
      have v3 : g'.residualDim = g.residualDim := by
        rw [hg'.residualDim, hg.residualDim, hS.evalOrder_eq, total_map (G := evalOrder fs) fun f hf => hS.rdim_eq (mem_groupedBy.1 hf)]
      rw [v1, v2, v3, hll]
    · intro x y hx hy
      rw [e5 x hx] at hy
      cases hy
      refine hQ0 ⟨facProd C (posIn g.localLayout) R x, fun f hf => by rw [length_facProd, hS.rdim_eq hf], ?_⟩
      refine List.flatMap_congr fun f hf => ?_
      have hf := mem_groupedBy.1 hf
      simp only [facProd, hS.rdim_eq hf, hS.vars f hf]
  case grad =>
    rintro A A' r _ z ⟨rfl, h1, h2, -⟩ ⟨rfl, -⟩ hz
    have := (matmul_vec (Props.cooWF_T h1) hz).2.1
    exact ⟨z, hz, rfl, by rw [← h2]; exact this⟩
  case mul =>
    rintro A A' d _ y ⟨rfl, h1, h2, h3⟩ ⟨rfl, hd⟩ hy
    exact ⟨y, hy, h3 _ _ hd hy⟩
  case linear =>
    rintro A A' b _ l i x ⟨rfl, h1, h2, -⟩ ⟨rfl, hd⟩ hx
    exact ⟨x, hx, rfl, by rw [hL _ _ _ _ _ h1 (by rw [hd, h2]) hx, h2]⟩
  case retract =>
    rintro a a' _ d b ⟨val, h1, h2, h3⟩ ⟨rfl, hd⟩ hb
    have hd' : d.length = g.localLayout.dim := hd
    obtain ⟨e, he⟩ : ∃ e, Rep C (Graph.variablesOf fs) true e ⟨d, g.localLayout⟩ := by
      rw [hg.localLayout] at hd' ⊢
      exact exists_rep (a := ⟨d, Layout.make C (Graph.variablesOf fs) true⟩) ⟨hs.1, rfl, hd'⟩
    obtain ⟨b1, k1, k2⟩ := h1.retract hC he
    obtain ⟨b2, k3, k4⟩ := h2.retract hC he
    have hb : a.manifoldRetract C ⟨d, g.localLayout⟩ = .ok b := hb
    rw [k1] at hb
    cases hb
    refine ⟨b2, ?_, _, k2, ⟨k4.1.congr fun v hv => ?_, fun v hv => ?_⟩, fun v hv => ?_⟩
    · show a'.manifoldRetract C ⟨d, g'.localLayout⟩ = _
      rw [hll]; exact k3
    · exact congrArg Value.flatten (hS.retract v _ _ (h1.2 v hv) (h3 v hv) (he.len v hv)).2.symm
    · show IsValueOf _ (τ v _)
      rw [(hS.retract v _ _ (h1.2 v hv) (h3 v hv) (he.len v hv)).2]
      exact k4.2 v hv
    · exact (hS.retract v _ _ (h1.2 v hv) (h3 v hv) (he.len v hv)).1
  case size =>
    rintro a a' ⟨val, h1, h2, -⟩
    rw [h1.1.storage_length, h2.1.storage_length]
  case wf => rintro A A' ⟨rfl, h, -⟩; exact ⟨h, h⟩
  case qlen => rintro y y' r r' ⟨rfl, -⟩ ⟨rfl, -⟩ h; exact h
  case qneg =>
    rintro r r' ⟨rfl, w, h1, rfl⟩
    exact hQ0 ⟨fun f => (w f).map fun x => -x, fun f hf => by rw [List.length_map, h1 f hf], by rw [List.map_flatMap]⟩
  case qpred => rintro y y' r r' ⟨rfl, -⟩ ⟨rfl, -⟩; rfl
  case qsq => rintro y y' ⟨rfl, -⟩; rfl
  case dlen => rintro d d' ⟨rfl, -⟩; rfl
  case dneg => rintro d d' ⟨rfl, h⟩; exact ⟨rfl, by rw [List.length_map, h]⟩
  case dmul => rintro d d' c ⟨rfl, h⟩; exact ⟨rfl, by rw [List.length_map, h]⟩
  case dadd => rintro d d' e e' ⟨rfl, h⟩ ⟨rfl, h'⟩; exact ⟨rfl, by rw [List.length_zipWith, h, h', min_self]⟩
  case dsub => rintro d d' e e' ⟨rfl, h⟩ ⟨rfl, h'⟩; exact ⟨rfl, by rw [List.length_zipWith, h, h', min_self]⟩
  case ddot => rintro d d' e e' ⟨rfl, -⟩ ⟨rfl, -⟩; rfl

theorem watched_true (g : GraphOps ℝ) : watched (fun _ => True) g = g := by simp [watched]

theorem symmetry_sim (hC : GoodClasses C) (hfs : ∀ f ∈ fs, FactorWF F C f) (hne : fs ≠ []) (hS : IsSymmetry F C fs φ τ V)
    (hfs' : ∀ f ∈ fs, FactorWF F C (φ f)) (hg : GraphOf F C fs g) (hg' : GraphOf F C (fs.map φ) g') (hL : SizedSolutions L) :
    Sim C C (g.ops F C) (g'.ops F C) L L (SymR C (Graph.variablesOf fs) τ V) (SymQ fs φ) (SymD g.localLayout.dim)
      (SymJ fs φ g.localLayout.dim) := by
  have := symmetry_sim_away hC hfs hne hS hfs' hg hg' hL (ok := fun _ => True) fun _ _ _ _ _ _ _ h => h
  rwa [watched_true] at this

/-- Without the tests that depend on the coordinates of the values, corresponding states pass the same tests. -/
theorem Sim.coordinateFree {C' : Ty → VarClass ℝ} {g g' : GraphOps ℝ} {L' : LinSolver ℝ} {R : Assign ℝ → Assign ℝ → Prop}
    {Q D : List ℝ → List ℝ → Prop} {J : Coo ℝ → Coo ℝ → Prop} (h : Sim C C' g g' L L' R Q D J) {t : Criteria ℝ}
    (ht : CoordinateFree t) : TestSim True C C' g g' R Q D t (InBounds t) := by
  intro p p' c d d' z z' conv hP hp hd hz hc
  obtain ⟨conv', h1, -⟩ := h.tests t trivial ⟨hp.iterations, hp.cost, hp.assignments, hp.residual, fun hf => hf.elim⟩ hd hz hc
  refine ⟨conv', h1, fun _ => ?_⟩
  have key : ∀ {C : Ty → VarClass ℝ} {g : GraphOps ℝ} {p : State ℝ} {d z : List ℝ} {conv : Bool}, InBounds t p →
      convergedTest C t p c d g.localLayout z = .ok conv → conv = costTest t p c := by
    intro C g p d z conv hP hc
    unfold convergedTest gradientTest at hc
    simp only [py_bind_eq_ok, py_return_eq_ok] at hc
    obtain ⟨b, ⟨m, -, h2⟩, h3⟩ := hc
    have hb : b = false := by
      cases hx : List.zipWith (· - ·) p.assignments.storage m.storage with
      | nil => rw [hx] at h2; cases h2
      | cons x xs =>
        rw [hx] at h2
        cases h2
        rw [decide_eq_false_iff_not]
        rintro ⟨h4, -⟩
        have := ht.2.1; have := ht.2.2
        rcases hP with hP | hP
        · rw [hP] at h4; simp at h4; omega
        · omega
    have hp : parameterTest t p d = false := by
      unfold parameterTest
      rw [ht.1, mul_zero, decide_eq_false_iff_not, not_lt]
      exact Real.sqrt_nonneg _
    rw [← h3, hb, hp, Bool.or_false, Bool.or_false]
  have hP' : InBounds t p' := by unfold InBounds at hP ⊢; rwa [hp.iterations]
  rw [key hP hc, key hP' h1]
  unfold costTest
  rw [hp.cost]

/-- Assignments that correspond to each other do so in the order of the graph as well. -/
theorem corresponding_in (hC : GoodClasses C) (hpos : ∀ f ∈ fs, ∀ v ∈ f.vars, 0 < (C v.ty).paramDim) (hg : GraphOf F C fs g)
    (hg' : GraphOf F C (fs.map φ) g') (hS : IsSymmetryAway F C fs φ τ V N) {vars vars' : List Var} {val : Var → Value ℝ} {a a' : Assign ℝ}
    (ha : Corresponding C fs τ V vars vars' val a a') :
    ∃ b b', a.updateStorageLayout C g.layout = .ok b ∧ a'.updateStorageLayout C g'.layout = .ok b' ∧
      SymR C (Graph.variablesOf fs) τ V b b' := by
  have hs := variablesOf_spec fs
  have hvo : Graph.variablesOf (fs.map φ) = Graph.variablesOf fs := variablesOf_map hS.vars
  have s1 := stores_of_holds hC ha.left
  have s2 := stores_of_holds hC ha.right
  obtain ⟨b, h1, -, h2⟩ := s1.update hs.1 (fun v => by rw [ha.left.sameVars, hs.2]) fun v hv => by
    obtain ⟨f, hf, hv⟩ := (ha.left.sameVars v).1 hv; exact hpos f hf v hv
  obtain ⟨b', h3, -, h4⟩ := s2.update hs.1 (fun v => by rw [ha.right.sameVars, hs.2]) fun v hv => by
    obtain ⟨f, hf, hv⟩ := (ha.right.sameVars v).1 hv; exact hpos f hf v hv
  refine ⟨b, b', by rw [hg.layout]; exact h1, by rw [hg'.layout, hvo]; exact h3, val, h2, h4, fun v hv => ha.valid v ?_⟩
  rw [ha.left.sameVars, ← hs.2]; exact hv

/-- Going back to the orders of the caller. -/
theorem corresponding_out (hpos : ∀ f ∈ fs, ∀ v ∈ f.vars, 0 < (C v.ty).paramDim) {vars vars' : List Var} {val : Var → Value ℝ}
    {a a' : Assign ℝ} (ha : Corresponding C fs τ V vars vars' val a a') {b b' : Assign ℝ}
    (hb : SymR C (Graph.variablesOf fs) τ V b b') :
    ∃ o o', b.updateStorageLayout C a.layout = .ok o ∧ b'.updateStorageLayout C a'.layout = .ok o' ∧ o.layout = a.layout ∧
      o'.layout = a'.layout ∧ ∃ val', Corresponding C fs τ V vars vars' val' o o' := by
  have hs := variablesOf_spec fs
  obtain ⟨val', s1, s2, hV⟩ := hb
  have l1 : a.layout = Layout.make C vars false := by have := ha.left.assignment.2.1; rwa [ha.left.isGlobal] at this
  have l2 : a'.layout = Layout.make C vars' false := by have := ha.right.assignment.2.1; rwa [ha.right.isGlobal] at this
  have hp : ∀ v ∈ Graph.variablesOf fs, 0 < (C v.ty).paramDim := fun v hv => by
    obtain ⟨f, hf, hv⟩ := (hs.2 v).1 hv; exact hpos f hf v hv
  obtain ⟨o, h1, h2, h3⟩ := s1.update ha.left.assignment.1 (fun v => by rw [ha.left.sameVars, hs.2]) hp
  obtain ⟨o', h4, h5, h6⟩ := s2.update ha.right.assignment.1 (fun v => by rw [ha.right.sameVars, hs.2]) hp
  refine ⟨o, o', by rw [l1]; exact h1, by rw [l2]; exact h4, by rw [l1, h2], by rw [l2, h5], val',
    h3.holds ha.left.sameVars, h6.holds ha.right.sameVars, fun v hv => hV v ?_⟩
  rw [hs.2, ← ha.left.sameVars]; exact hv

end

end Jaxfg
