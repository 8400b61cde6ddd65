/- Closed form of `StackedFactorGraph.make` and of the evaluation of a graph. -/
import Verif.Lemmas.Factor

namespace Jaxfg
open Spec
variable {F : Nat → FactorClass} {C : Ty → VarClass ℝ}

/-- Where a layout puts a variable. -/
def posIn (l : Layout) (v : Var) : Nat := (l.indexFromVar.get? v).getD 0

/-- Residual size of the factors of a group. -/
def gRdim : List Factor → Nat
  | [] => 0
  | f :: _ => rdim f

/-- Number of variables of the factors of a group. -/
def gVars : List Factor → Nat
  | [] => 0
  | f :: _ => f.vars.length

theorem gRdim_eq {G : List Factor} (hG : IsGroup F C G) {f : Factor} (hf : f ∈ G) : gRdim G = rdim f := by
  cases G with
  | nil => cases hf
  | cons g G => exact kind_rdim (hG.same g (by simp) f hf)

theorem gVars_eq {G : List Factor} (hG : IsGroup F C G) {f : Factor} (hf : f ∈ G) : gVars G = f.vars.length := by
  cases G with
  | nil => cases hf
  | cons g G => exact kind_vars_length (hG.same g (by simp) f hf)

theorem total_rdim {G : List Factor} (hG : IsGroup F C G) : total rdim G = G.length * gRdim G :=
  total_const fun _ hf => (gRdim_eq hG hf).symm

/-- Local storage indices of the variable of `f` at position `i`. -/
def localIdx (C : Ty → VarClass ℝ) (lpos : Var → Nat) (i : Nat) (f : Factor) : List Nat :=
  (f.vars.map fun v => List.range' (lpos v) (C v.ty).localDim).getD i []

/-- Coordinates of a group, one list per variable position. -/
def groupCoords (C : Ty → VarClass ℝ) (lpos : Var → Nat) (o : Nat) (G : List Factor) : List (List (Nat × Nat)) :=
  (List.range (gVars G)).map fun i => (List.range G.length).flatMap fun n => (List.range (gRdim G)).flatMap fun r =>
    ((G.map (localIdx C lpos i)).getD n []).map fun c => (n * gRdim G + r + o, c)

/-- Coordinates of a list of groups. -/
def coordBlocks (C : Ty → VarClass ℝ) (lpos : Var → Nat) : Nat → List (List Factor) → List (List (Nat × Nat))
  | _, [] => []
  | o, G :: Gs => groupCoords C lpos o G ++ coordBlocks C lpos (o + total rdim G) Gs

theorem computeJacobianCoords_ok {G : List Factor} (hG : IsGroup F C G) {layout : Layout} {pos : Var → Nat}
    (hpos : ∀ f ∈ G, ∀ v ∈ f.vars, layout.indexFromVar.get? v = some (pos v)) (o : Nat) :
    FactorStack.computeJacobianCoords C G layout o = .ok (groupCoords C pos o G) := by
  obtain ⟨f₀, G', hGeq⟩ := List.exists_cons_of_ne_nil hG.ne
  have h₀ : f₀ ∈ G := by rw [hGeq]; simp
  have hany : (G.any fun f => decide (f.vars.map (·.ty) ≠ f₀.vars.map (·.ty))) = false := by
    rw [List.any_eq_false]
    intro f hf
    simp [kind_types (hG.same f hf f₀ h₀)]
  have hi := indexRows_ok (dim := fun t => (C t).localDim) (k := f₀.vars.length) hpos
  have hr : f₀.residualDim = .ok (rdim f₀) := noise_residualDim (hG.wf f₀ h₀).noise
  unfold FactorStack.computeJacobianCoords groupCoords
  rw [gVars_eq hG h₀, gRdim_eq hG h₀]
  subst hGeq
  simp only [hany, hi, hr, Bool.false_eq_true, if_false, py_pure, py_bind_ok, List.map_map]
  rfl

/-- A list of groups over the variables of a layout. -/
structure GroupsOver (F : Nat → FactorClass) (C : Ty → VarClass ℝ) (vars : List Var) (Gs : List (List Factor)) : Prop where
  group : ∀ G ∈ Gs, IsGroup F C G
  mem : ∀ G ∈ Gs, ∀ f ∈ G, ∀ v ∈ f.vars, v ∈ vars

theorem posIn_spec {vars : List Var} (hn : vars.Nodup) {loc : Bool} {v : Var} (hv : v ∈ vars) :
    (Layout.make C vars loc).indexFromVar.get? v = some (posIn (Layout.make C vars loc) v) := by
  have := make_getVariables C hn loc
  have hk : v ∈ (Layout.make C vars loc).indexFromVar.keys := by
    unfold Layout.getVariables at this
    rw [this]; exact mem_grouped.2 hv
  obtain ⟨i, _, hi⟩ := PyDict.exists_get_of_mem hk
  rw [posIn, hi]; rfl

theorem addGroups_ok {vars : List Var} (hn : vars.Nodup) {Gs : List (List Factor)} (hGs : GroupsOver F C vars Gs)
    (acc : Graph.Acc) :
    ∃ ss, Gs.foldlM (Graph.addGroup C (Layout.make C vars false) (Layout.make C vars true)) acc =
        .ok ⟨acc.factorStacks ++ ss, acc.coords ++ coordBlocks C (posIn (Layout.make C vars true)) acc.offset Gs,
          acc.offset + total rdim Gs.flatten⟩ ∧
      List.Forall₂ (StackOf C (Layout.make C vars false) (posIn (Layout.make C vars false))) Gs ss := by
  induction Gs generalizing acc with
  | nil => exact ⟨[], by simp [coordBlocks], .nil⟩
  | cons G Gs ih =>
    have hG := hGs.group G (by simp)
    have hmem := hGs.mem G (by simp)
    obtain ⟨s, hs1, hs2⟩ := stack_ok (layout := Layout.make C vars false) (pos := posIn (Layout.make C vars false)) hG
      fun f hf v hv => posIn_spec hn (hmem f hf v hv)
    have hc := computeJacobianCoords_ok (layout := Layout.make C vars true) (pos := posIn (Layout.make C vars true)) hG
      (fun f hf v hv => posIn_spec hn (hmem f hf v hv)) acc.offset
    obtain ⟨f₀, h₀⟩ := List.exists_mem_of_ne_nil G hG.ne
    have hrd : s.residualDim = .ok (total rdim G) := by
      unfold FactorStack.residualDim
      rw [hs2.rdim f₀ h₀, hs2.num, total_rdim hG, gRdim_eq hG h₀, Nat.mul_comm]
      rfl
    have hadd : Graph.addGroup C (Layout.make C vars false) (Layout.make C vars true) acc G =
        .ok ⟨acc.factorStacks ++ [s], acc.coords ++ groupCoords C (posIn (Layout.make C vars true)) acc.offset G,
          acc.offset + total rdim G⟩ := by
      unfold Graph.addGroup
      simp only [hs1, hc, hrd, py_bind_ok, py_pure]
    obtain ⟨ss, h1, h2⟩ := ih ⟨fun G' h => hGs.group G' (by simp [h]), fun G' h => hGs.mem G' (by simp [h])⟩
      ⟨acc.factorStacks ++ [s], acc.coords ++ groupCoords C (posIn (Layout.make C vars true)) acc.offset G,
          acc.offset + total rdim G⟩
    refine ⟨s :: ss, ?_, .cons hs2 h2⟩
    rw [List.foldlM_cons, hadd, py_bind_ok, h1]
    simp [coordBlocks, Nat.add_assoc]

/-- The graph that `make` builds. -/
structure GraphOf (F : Nat → FactorClass) (C : Ty → VarClass ℝ) (fs : List Factor) (g : Graph) : Prop where
  groups : GroupsOver F C (Graph.variablesOf fs) (groups kind fs)
  layout : g.layout = Layout.make C (Graph.variablesOf fs) false
  localLayout : g.localLayout = Layout.make C (Graph.variablesOf fs) true
  factorStacks : List.Forall₂ (StackOf C (Layout.make C (Graph.variablesOf fs) false)
    (posIn (Layout.make C (Graph.variablesOf fs) false))) (Jaxfg.groups kind fs) g.factorStacks
  coords : g.jacobianCoords =
    (coordBlocks C (posIn (Layout.make C (Graph.variablesOf fs) true)) 0 (Jaxfg.groups kind fs)).flatten
  residualDim : g.residualDim = total rdim (evalOrder fs)

theorem groupsOver {fs : List Factor} (hfs : ∀ f ∈ fs, FactorShape F C f) :
    GroupsOver F C (Graph.variablesOf fs) (groups kind fs) where
  group _ hG := ⟨mem_groups_nonempty hG, fun f hf => hfs f (mem_groups_mem hG f hf), mem_groups_key hG⟩
  mem _ hG f hf v hv := ((variablesOf_spec fs).2 v).2 ⟨f, mem_groups_mem hG f hf, hv⟩

theorem coordBlocks_ne {lpos : Var → Nat} {o : Nat} {Gs : List (List Factor)} (hG : ∀ G ∈ Gs, IsGroup F C G) (hne : Gs ≠ []) :
    coordBlocks C lpos o Gs ≠ [] := by
  cases Gs with
  | nil => exact absurd rfl hne
  | cons G Gs =>
    have h := hG G (by simp)
    obtain ⟨f₀, h₀⟩ := List.exists_mem_of_ne_nil G h.ne
    have hv := (h.wf f₀ h₀).vars
    have hl : 0 < gVars G := by rw [gVars_eq h h₀]; exact List.length_pos_iff.2 hv
    intro he
    simp only [coordBlocks, List.append_eq_nil_iff, groupCoords, List.map_eq_nil_iff, List.range_eq_nil] at he
    omega

theorem graph_shape {fs : List Factor} (hfs : ∀ f ∈ fs, FactorShape F C f) (hne : fs ≠ []) :
    ∃ g, Graph.make C fs = .ok g ∧ GraphOf F C fs g := by
  have hg := groupsOver hfs
  obtain ⟨ss, h1, h2⟩ := addGroups_ok (variablesOf_spec fs).1 hg ⟨[], [], 0⟩
  have hgne : groups kind fs ≠ [] := by
    obtain ⟨f, fs', rfl⟩ := List.exists_cons_of_ne_nil hne
    simp [groups, firstKeys]
  have hcne : (coordBlocks C (posIn (Layout.make C (Graph.variablesOf fs) true)) 0 (groups kind fs)).isEmpty = false := by
    rw [← Bool.not_eq_true, List.isEmpty_iff]
    exact coordBlocks_ne hg.group hgne
  refine ⟨⟨ss, (coordBlocks C (posIn (Layout.make C (Graph.variablesOf fs) true)) 0 (groups kind fs)).flatten,
    Layout.make C (Graph.variablesOf fs) false, Layout.make C (Graph.variablesOf fs) true,
    total rdim (groups kind fs).flatten⟩, ?_, hg, rfl, rfl, h2, rfl, ?_⟩
  · unfold Graph.make
    simp only [factorsFromGroup_eq, h1, py_bind_ok, List.nil_append, hcne, Nat.zero_add, Bool.false_eq_true, if_false, py_pure]
  · rw [evalOrder, groupedBy_eq]

theorem graph_ok {fs : List Factor} (hfs : ∀ f ∈ fs, FactorWF F C f) (hne : fs ≠ []) :
    ∃ g, Graph.make C fs = .ok g ∧ GraphOf F C fs g := graph_shape (fun f hf => (hfs f hf).factorShape) hne

theorem graph_empty : Graph.make C [] = .error .type := rfl

/-! ### Evaluation -/

theorem flatten_flatMap {α β : Type _} (L : List (List α)) (f : α → List β) :
    L.flatten.flatMap f = (L.map fun G => G.flatMap f).flatten := by
  induction L with
  | nil => rfl
  | cons a l ih => simp [ih]

/-- The stored values, read through the graph's layout. -/
structure View (C : Ty → VarClass ℝ) (vars : List Var) (val : Var → Value ℝ) (a : Assign ℝ) : Prop where
  layout : a.layout.eq (Layout.make C vars false) = true
  read : ∀ v ∈ vars, (C v.ty).unflatten
    (gather a.storage (List.range' (posIn (Layout.make C vars false) v) (C v.ty).paramDim)) = .ok (val v)

/-- Updating the layout of an assignment gives a view of the same values. -/
theorem view_of_rep {vars ws : List Var} {f : Var → List ℝ} {a : Assign ℝ} (h : Rep C vars false f a) (hw : ws.Nodup)
    (hs : ∀ v, v ∈ vars ↔ v ∈ ws) :
    ∃ b, a.updateStorageLayout C (Layout.make C ws false) = .ok b ∧
      View C ws (fun v => unravel (C v.ty).default (f v)) b := by
  obtain ⟨b, hb, hcase⟩ := h.update hw hs
  refine ⟨b, hb, ?_⟩
  rcases hcase with ⟨heq, rfl⟩ | ⟨_, hrep⟩
  · refine ⟨heq, fun v hv => ?_⟩
    obtain ⟨i, h1, h2, h3⟩ := h.index ((hs v).2 hv)
    have hl := h.layout
    rw [hl] at heq
    obtain ⟨_, _, hidx, _, _⟩ := (layoutEq_iff C h.nodup hw).1 heq
    have hp : posIn (Layout.make C ws false) v = i := by
      rw [posIn, ← hidx, ← hl, h1]; rfl
    have hd : dimOf C false v.ty = (C v.ty).paramDim := rfl
    rw [hd] at h2 h3
    rw [hp, gather_range' h2, h3]
    exact unflatten_ok (h.len v ((hs v).2 hv))
  · refine ⟨by rw [hrep.layout]; exact layoutEq_refl C hw, fun v hv => ?_⟩
    obtain ⟨i, h1, h2, h3⟩ := hrep.index hv
    have hp : posIn (Layout.make C ws false) v = i := by
      rw [posIn, ← hrep.layout, h1]; rfl
    have hd : dimOf C false v.ty = (C v.ty).paramDim := rfl
    rw [hd] at h2 h3
    rw [hp, gather_range' h2, h3]
    exact unflatten_ok (hrep.len v hv)

theorem View.congr {vars : List Var} {val val' : Var → Value ℝ} {a : Assign ℝ} (h : View C vars val a)
    (he : ∀ v ∈ vars, val v = val' v) : View C vars val' a :=
  ⟨h.layout, fun v hv => by rw [← he v hv]; exact h.read v hv⟩

theorem Spec.Holds.rep {fs : List Factor} {vars : List Var} {val : Var → Value ℝ} {a : Assign ℝ} (h : Holds C fs vars val a) :
    ∃ f, Rep C vars false f a ∧ ∀ v ∈ vars, val v = unravel (C v.ty).default (f v) := by
  obtain ⟨f, hf⟩ := exists_rep h.assignment
  rw [h.isGlobal] at hf
  refine ⟨f, hf, fun v hv => ?_⟩
  have h1 := h.values v hv
  rw [hf.getValue_ok hv] at h1
  exact (Except.ok.inj h1).symm

theorem Spec.Holds.view {fs : List Factor} {vars : List Var} {val : Var → Value ℝ} {a : Assign ℝ} (h : Holds C fs vars val a) :
    ∃ b, a.updateStorageLayout C (Layout.make C (Graph.variablesOf fs) false) = .ok b ∧
      View C (Graph.variablesOf fs) val b := by
  obtain ⟨f, hf, hv⟩ := h.rep
  have hs := variablesOf_spec fs
  obtain ⟨b, hb, hview⟩ := view_of_rep hf hs.1 fun v => by rw [h.sameVars, hs.2]
  refine ⟨b, hb, hview.congr fun v hvm => (hv v ?_).symm⟩
  rw [h.sameVars, ← hs.2]; exact hvm

/-- Values held are values of the variables' classes. -/
theorem Spec.Holds.isValueOf (hC : GoodClasses C) {fs : List Factor} {vars : List Var} {val : Var → Value ℝ} {a : Assign ℝ}
    (h : Holds C fs vars val a) {v : Var} (hv : v ∈ vars) : IsValueOf (C v.ty) (val v) := by
  obtain ⟨f, hf, hval⟩ := h.rep
  rw [hval v hv]
  exact isValueOf_unravel (hC v.ty).1 (hf.len v hv)

theorem Spec.Holds.valuesFor (hC : GoodClasses C) {fs : List Factor} {vars : List Var} {val : Var → Value ℝ} {a : Assign ℝ}
    (h : Holds C fs vars val a) {f : Factor} (hf : f ∈ fs) : ValuesFor C f.vars (f.vars.map val) := by
  unfold ValuesFor
  rw [List.forall₂_map_right_iff, List.forall₂_same]
  intro v hv
  exact h.isValueOf hC ((h.sameVars v).2 ⟨f, hf, hv⟩)

/-- Every factor can be evaluated. -/
theorem Spec.Holds.whitened (hC : GoodClasses C) {fs : List Factor} (hfs : ∀ f ∈ fs, FactorWF F C f) {vars : List Var}
    {val : Var → Value ℝ} {a : Assign ℝ} (h : Holds C fs vars val a) :
    ∃ w : Factor → List ℝ, ∀ f ∈ fs, whitenedAt F val f = .ok (w f) ∧ (w f).length = rdim f := by
  classical
  have : ∀ f : Factor, ∃ w, f ∈ fs → whitenedAt F val f = .ok w ∧ w.length = rdim f := by
    intro f
    by_cases hf : f ∈ fs
    · obtain ⟨w, h1, h2⟩ := whiten_ok (hfs f hf).noise ((hfs f hf).residual _ (h.valuesFor hC hf))
      exact ⟨w, fun _ => ⟨h1, h2⟩⟩
    · exact ⟨[], fun h => absurd h hf⟩
  choose w hw using this
  exact ⟨w, hw⟩

theorem mapM_forall₂ {α β γ : Type} {R : α → β → Prop} {f : β → Py γ} {g : α → γ} {as : List α} {bs : List β}
    (h : List.Forall₂ R as bs) (hf : ∀ a ∈ as, ∀ b, R a b → f b = .ok (g a)) : bs.mapM f = .ok (as.map g) := by
  induction h with
  | nil => rfl
  | cons hab _ ih =>
    rw [List.mapM_cons, hf _ (by simp) _ hab, ih fun a ha b hb => hf a (by simp [ha]) b hb]
    rfl

/-- The residual vector of a graph. -/
theorem residual_ok (hC : GoodClasses C) {fs : List Factor} (hfs : ∀ f ∈ fs, FactorWF F C f) (hne : fs ≠ []) {g : Graph}
    (hg : GraphOf F C fs g) {vars : List Var} {val : Var → Value ℝ} {a : Assign ℝ} (h : Holds C fs vars val a)
    {w : Factor → List ℝ} (hw : ∀ f ∈ fs, whitenedAt F val f = .ok (w f)) :
    g.computeWhitenedResidualVector F C a = .ok ((evalOrder fs).flatMap w) ∧
      ((evalOrder fs).flatMap w).length = g.residualDim := by
  have hlen : ((evalOrder fs).flatMap w).length = g.residualDim := by
    rw [hg.residualDim]
    apply length_flatMap_blocks
    intro f hf
    have hf' : f ∈ fs := mem_groupedBy.1 hf
    obtain ⟨u, h1, h2⟩ := whiten_ok (hfs f hf').noise ((hfs f hf').residual _ (h.valuesFor hC hf'))
    have h3 := hw f hf'
    unfold whitenedAt at h3
    rw [h1] at h3
    cases h3
    exact h2
  refine ⟨?_, hlen⟩
  obtain ⟨b, hb, hview⟩ := h.view
  unfold Graph.computeWhitenedResidualVector
  rw [hg.layout, hb]
  simp only [py_bind_ok]
  rw [mapM_forall₂ hg.factorStacks (g := fun G => G.flatMap w)]
  · have hne' : ((groups kind fs).map fun G => G.flatMap w).isEmpty = false := by
      obtain ⟨f, fs', rfl⟩ := List.exists_cons_of_ne_nil hne
      simp [groups, firstKeys]
    have hflat : ((groups kind fs).map fun G => G.flatMap w).flatten = (evalOrder fs).flatMap w := by
      rw [evalOrder, groupedBy_eq, flatten_flatMap]
    simp only [py_bind_ok, hne', hflat, hlen]
    simp
  · intro G hG s hs
    have hgr := hg.groups.group G hG
    refine stackResidual_ok hgr hs hview.layout (val := val) ?_ fun f hf => hw f (mem_groups_mem hG f hf)
    intro f hf v hv
    exact hview.read v (hg.groups.mem G hG f hf v hv)

end Jaxfg
