/- Compiled solves. -/
import Verif.Spec.Compiled
import Verif.Lemmas.Graph
import Verif.Lemmas.Linearize
import Verif.Lemmas.Solver
import Verif.Lemmas.ExamplePoly
import Verif.Lemmas.LinSolve
import Verif.Props.Layout
import Verif.Props.LinSolve

namespace Jaxfg
open Spec

/-! ### Layouts -/

theorem samePlaces_mem {α : Type} (C : Ty → VarClass α) {vars ws : List Var} {l : Bool} (hv : vars.Nodup) (hw : ws.Nodup)
    (h : SamePlaces C vars ws l) (v : Var) : v ∈ vars ↔ v ∈ ws := by
  have key : ∀ {us : List Var}, us.Nodup → ((Layout.make C us l).indexFromVar.get? v = none ↔ v ∉ us) := by
    intro us hu
    rw [PyDict.get?_eq_none_iff]
    have := make_getVariables C hu l
    unfold Layout.getVariables at this
    rw [this, mem_grouped]
  have h1 := key hv
  rw [h v, key hw] at h1
  tauto

/-- Layouts are equal as soon as they give every variable the same place. -/
theorem layoutEq_iff_places {α : Type} (C : Ty → VarClass α) {vars ws : List Var} {l : Bool} (hv : vars.Nodup) (hw : ws.Nodup) :
    (Layout.make C vars l).eq (Layout.make C ws l) = true ↔ SamePlaces C vars ws l := by
  rw [layoutEq_iff C hv hw]
  refine ⟨fun h => h.2.2.1, fun h => ?_⟩
  have hm := samePlaces_mem C hv hw h
  have hp : vars.Perm ws := (List.perm_ext_iff_of_nodup hv hw).2 hm
  have hty : ∀ t, t ∈ firstTypes vars ↔ t ∈ firstTypes ws := fun t => by simp only [mem_firstTypes, hm]
  have none_ty : ∀ {us : List Var} {t}, us.Nodup → t ∉ firstTypes us → (Layout.make C us l).indexFromType.get? t = none := by
    intro us t hu ht
    rw [PyDict.get?_eq_none_iff]
    have := make_getVariableTypes C hu l
    unfold Layout.getVariableTypes at this
    rwa [this]
  have none_ct : ∀ {us : List Var} {t}, us.Nodup → t ∉ firstTypes us → (Layout.make C us l).countFromType.get? t = none := by
    intro us t hu ht
    rw [PyDict.get?_eq_none_iff, make_eq C hu]
    simpa [PyDict.keys, Function.comp_def] using ht
  -- the region of a type starts at the smallest place of its variables
  have first : ∀ {us : List Var} {t}, us.Nodup → t ∈ firstTypes us → ∃ i, (Layout.make C us l).indexFromType.get? t = some i ∧
      (∃ v ∈ us, v.ty = t ∧ (Layout.make C us l).indexFromVar.get? v = some i) ∧
      ∀ v ∈ us, v.ty = t → ∀ j, (Layout.make C us l).indexFromVar.get? v = some j → i ≤ j := by
    intro us t hu ht
    obtain ⟨-, -, -, -, -, h6⟩ := Props.C02_order C us hu l
    have ht' : t ∈ (Layout.make C us l).getVariableTypes := by rw [make_getVariableTypes C hu l]; exact ht
    obtain ⟨-, -, i, hi, hk⟩ := h6 t ht'
    refine ⟨i, hi, ?_, ?_⟩
    · obtain ⟨v, hv, hvt⟩ := mem_firstTypes.1 ht
      have hmem : v ∈ us.filter (·.ty = t) := List.mem_filter.2 ⟨hv, by simpa using hvt⟩
      obtain ⟨w, rest, hw⟩ := List.exists_cons_of_ne_nil (List.ne_nil_of_mem hmem)
      have hwm : w ∈ us.filter (·.ty = t) := by rw [hw]; simp
      have := hk 0 w (by rw [hw]; rfl)
      exact ⟨w, (List.mem_filter.1 hwm).1, by simpa using (List.mem_filter.1 hwm).2, by simpa using this⟩
    · intro v hv hvt j hj
      have hmem : v ∈ us.filter (·.ty = t) := List.mem_filter.2 ⟨hv, by simpa using hvt⟩
      obtain ⟨k, hk'⟩ := List.mem_iff_getElem?.1 hmem
      rw [hk k v hk'] at hj
      cases hj
      omega
  refine ⟨rfl, ?_, h, fun t => ?_, fun t => ?_⟩
  · obtain ⟨-, -, -, e1⟩ := Props.C01_blocks_tile C vars hv l
    obtain ⟨-, -, -, e2⟩ := Props.C01_blocks_tile C ws hw l
    rw [e1, e2]
    exact (hp.map _).sum_eq
  · by_cases ht : t ∈ firstTypes vars
    · obtain ⟨i, hi, ⟨v, hv1, hv2, hv3⟩, hmin⟩ := first hv ht
      obtain ⟨j, hj, ⟨w, hw1, hw2, hw3⟩, hmin'⟩ := first hw ((hty t).1 ht)
      have a1 := hmin' v ((hm v).1 hv1) hv2 i (by rw [← h v]; exact hv3)
      have a2 := hmin w ((hm w).2 hw1) hw2 j (by rw [h w]; exact hw3)
      rw [hi, hj, le_antisymm a2 a1]
    · rw [none_ty hv ht, none_ty hw fun h => ht ((hty t).2 h)]
  · by_cases ht : t ∈ firstTypes vars
    · rw [make_count C hv l ht, make_count C hw l ((hty t).1 ht), (hp.filter _).length_eq]
    · rw [none_ct hv ht, none_ct hw fun h => ht ((hty t).2 h)]

/-! ### Stacks -/

section
variable {F : Nat → FactorClass} {C : Ty → VarClass ℝ}

/-- The stack of a group. -/
theorem stack_shape {f₀ : Factor} {G : List Factor} (hG : IsGroup F C (f₀ :: G)) {layout : Layout} {pos : Var → Nat}
    (hpos : ∀ f ∈ f₀ :: G, ∀ v ∈ f.vars, layout.indexFromVar.get? v = some (pos v)) {s : FactorStack}
    (h : FactorStack.make C (f₀ :: G) layout = .ok s) :
    s.numFactors = (f₀ :: G).length ∧ s.cls = f₀.cls ∧ s.types = f₀.vars.map (·.ty) ∧ s.noiseDef = f₀.noise.treedef ∧
      s.leaves.map (·.shape) = (f₀.leaves.map (·.shape)).map ((f₀ :: G).length :: ·) ∧
      s.valueIndices.map (·.map List.length) = f₀.vars.map (fun v => List.replicate (f₀ :: G).length (C v.ty).paramDim) ∧
      s.layout = layout := by
  have h₀ : f₀ ∈ f₀ :: G := by simp
  have hany : ((f₀ :: G).any fun f => decide (f.treedef ≠ f₀.treedef)) = false := by
    rw [List.any_eq_false]
    intro f hf
    have := kind_iff.2 (hG.same f hf f₀ h₀)
    simp only [Factor.groupKey, Prod.mk.injEq] at this
    simp [this.1]
  have hl := stackLeaves_ok hG h₀
  have hi := indexRows_ok (dim := fun t => (C t).paramDim) (k := f₀.vars.length) hpos
  unfold FactorStack.make at h
  simp only [hany, hl, hi, Bool.false_eq_true, if_false, py_pure, py_bind_ok] at h
  cases h
  refine ⟨rfl, rfl, rfl, rfl, ?_, ?_, rfl⟩
  · unfold stackedLeaves
    have := map_getD_range f₀.leaves ⟨[], []⟩
    conv_rhs => rw [← this]
    simp only [List.map_map, Function.comp_def]
  · simp only [List.map_map, Function.comp_def]
    apply List.ext_getElem (by simp)
    intro i h1 h2
    have hi : i < f₀.vars.length := by simpa using h1
    simp only [List.getElem_map, List.getElem_range]
    apply List.eq_replicate_iff.2
    refine ⟨by simp, ?_⟩
    intro n hn
    obtain ⟨f, hf, rfl⟩ := List.mem_map.1 hn
    have hk := hG.same f hf f₀ h₀
    have hif : i < f.vars.length := by rw [kind_vars_length hk]; exact hi
    have hty := kind_types hk
    have hty' : (f.vars[i]).ty = (f₀.vars[i]).ty := by
      have e : (f.vars.map (·.ty))[i]'(by simpa using hif) = (f₀.vars.map (·.ty))[i]'(by simpa using hi) := by
        simp only [hty]
      simpa using e
    simp [List.getD, hif, hty']

/-- Two stacks look alike to `jit` exactly if their layouts are equal and they hold equally many factors of one kind. -/
theorem stack_sameTrace {f₀ f₀' : Factor} {G G' : List Factor} (hG : IsGroup F C (f₀ :: G)) (hG' : IsGroup F C (f₀' :: G'))
    {layout layout' : Layout} {pos pos' : Var → Nat}
    (hpos : ∀ f ∈ f₀ :: G, ∀ v ∈ f.vars, layout.indexFromVar.get? v = some (pos v))
    (hpos' : ∀ f ∈ f₀' :: G', ∀ v ∈ f.vars, layout'.indexFromVar.get? v = some (pos' v)) {s s' : FactorStack}
    (h : FactorStack.make C (f₀ :: G) layout = .ok s) (h' : FactorStack.make C (f₀' :: G') layout' = .ok s') :
    s.sameTrace s' = true ↔ (kind f₀, (f₀ :: G).length) = (kind f₀', (f₀' :: G').length) ∧ layout.eq layout' = true := by
  obtain ⟨a1, a2, a3, a4, a5, a6, a7⟩ := stack_shape hG hpos h
  obtain ⟨b1, b2, b3, b4, b5, b6, b7⟩ := stack_shape hG' hpos' h'
  unfold FactorStack.sameTrace
  simp only [Bool.and_eq_true, decide_eq_true_eq, a1, a2, a3, a4, a5, a6, a7, b1, b2, b3, b4, b5, b6, b7, Prod.mk.injEq, kind]
  constructor
  · rintro ⟨⟨⟨⟨⟨⟨e1, e2⟩, e3⟩, e4⟩, e5⟩, -⟩, e7⟩
    refine ⟨⟨⟨e2, e3, e4, ?_⟩, e1⟩, e7⟩
    rw [e1] at e5
    exact List.map_injective_iff.2 (fun x y hxy => (List.cons.inj hxy).2) e5
  · rintro ⟨⟨⟨e2, e3, e4, e5⟩, e1⟩, e7⟩
    have e5' : f₀.leaves.map (·.shape) = f₀'.leaves.map (·.shape) := e5
    refine ⟨⟨⟨⟨⟨⟨e1, e2⟩, e3⟩, e4⟩, by rw [e5', e1]⟩, ?_⟩, e7⟩
    rw [e1]
    have : ∀ (vs ws : List Var), vs.map (·.ty) = ws.map (·.ty) →
        vs.map (fun v => List.replicate (f₀' :: G').length (C v.ty).paramDim) =
          ws.map (fun v => List.replicate (f₀' :: G').length (C v.ty).paramDim) := by
      intro vs ws hvw
      have := congrArg (List.map fun t => List.replicate (f₀' :: G').length (C t).paramDim) hvw
      simpa [List.map_map, Function.comp_def] using this
    exact this _ _ e3

/-! ### Graphs -/

theorem addGroups_stacks {layout localLayout : Layout} {Gs : List (List Factor)} {acc acc' : Graph.Acc}
    (h : Gs.foldlM (Graph.addGroup C layout localLayout) acc = .ok acc') :
    ∃ ss, acc'.factorStacks = acc.factorStacks ++ ss ∧ List.Forall₂ (fun G s => FactorStack.make C G layout = .ok s) Gs ss := by
  induction Gs generalizing acc with
  | nil =>
    cases h
    exact ⟨[], by simp, .nil⟩
  | cons G Gs ih =>
    rw [List.foldlM_cons] at h
    obtain ⟨a1, h1, h2⟩ := py_bind_eq_ok.1 h
    unfold Graph.addGroup at h1
    obtain ⟨s, hs, h1⟩ := py_bind_eq_ok.1 h1
    obtain ⟨cs, -, h1⟩ := py_bind_eq_ok.1 h1
    obtain ⟨rd, -, h1⟩ := py_bind_eq_ok.1 h1
    cases h1
    obtain ⟨ss, e, hss⟩ := ih h2
    exact ⟨s :: ss, by rw [e]; simp, .cons hs hss⟩

theorem graph_stacks {fs : List Factor} {g : Graph} (h : Graph.make C fs = .ok g) :
    List.Forall₂ (fun G s => FactorStack.make C G (Layout.make C (Graph.variablesOf fs) false) = .ok s) (groups kind fs)
      g.factorStacks := by
  unfold Graph.make at h
  simp only [factorsFromGroup_eq] at h
  obtain ⟨acc, h1, h⟩ := py_bind_eq_ok.1 h
  obtain ⟨ss, e, hss⟩ := addGroups_stacks h1
  split at h
  · cases h
  · cases h
    simp only [e, List.nil_append]
    exact hss

theorem graphOf_make {fs : List Factor} (hfs : ∀ f ∈ fs, FactorWF F C f) (hne : fs ≠ []) {g : Graph} (h : Graph.make C fs = .ok g) :
    GraphOf F C fs g := by
  obtain ⟨g', h1, h2⟩ := graph_ok hfs hne
  rw [h] at h1
  cases h1
  exact h2

/-- Kind and size of a group. -/
def gSig (G : List Factor) : Option Kind × Nat := (G.head?.map kind, G.length)

theorem kindCounts_eq (fs : List Factor) : (groups kind fs).map gSig = (kindCounts fs).map fun p => (some p.1, p.2) := by
  unfold groups kindCounts
  simp only [List.map_map]
  apply List.map_congr_left
  intro k hk
  simp only [Function.comp, gSig, Prod.mk.injEq]
  have hne : fs.filter (kind · = k) ≠ [] := by
    have : fs.filter (kind · = k) ∈ groups kind fs := List.mem_map.2 ⟨k, hk, rfl⟩
    exact mem_groups_nonempty this
  obtain ⟨f, rest, e⟩ := List.exists_cons_of_ne_nil hne
  have hf : f ∈ fs.filter (kind · = k) := by rw [e]; simp
  refine ⟨by rw [e]; simpa using (List.mem_filter.1 hf).2, ?_⟩
  rw [List.countP_eq_length_filter]

theorem kindCounts_eq_iff {fs fs' : List Factor} :
    (groups kind fs).map gSig = (groups kind fs').map gSig ↔ kindCounts fs = kindCounts fs' := by
  rw [kindCounts_eq, kindCounts_eq]
  constructor
  · intro h
    exact List.map_injective_iff.2 (fun x y hxy => by
      rcases x with ⟨a, b⟩; rcases y with ⟨c, d⟩
      simp only [Prod.mk.injEq, Option.some.injEq] at hxy ⊢
      exact hxy) h
  · intro h; rw [h]

/-- Lists of stacks look alike exactly if the groups have the same kinds and sizes and the layouts are equal. -/
theorem stacks_sameTrace {vars vars' : List Var} (hn : vars.Nodup) (hn' : vars'.Nodup) {Gs Gs' : List (List Factor)}
    (hG : GroupsOver F C vars Gs) (hG' : GroupsOver F C vars' Gs') {ss ss' : List FactorStack}
    (h : List.Forall₂ (fun G s => FactorStack.make C G (Layout.make C vars false) = .ok s) Gs ss)
    (h' : List.Forall₂ (fun G s => FactorStack.make C G (Layout.make C vars' false) = .ok s) Gs' ss')
    (hl : (Layout.make C vars false).eq (Layout.make C vars' false) = true) :
    (ss.length = ss'.length ∧ (ss.zip ss').all (fun p => p.1.sameTrace p.2) = true) ↔ Gs.map gSig = Gs'.map gSig := by
  induction h generalizing Gs' ss' with
  | nil =>
    cases h' with
    | nil => simp
    | cons _ _ => simp
  | @cons G s Gs ss hs hss ih =>
    cases h' with
    | nil => simp
    | @cons G' s' Gs' ss' hs' hss' =>
      have hih := ih ⟨fun H hH => hG.group H (by simp [hH]), fun H hH => hG.mem H (by simp [hH])⟩
        ⟨fun H hH => hG'.group H (by simp [hH]), fun H hH => hG'.mem H (by simp [hH])⟩ hss'
      have hGr := hG.group G (by simp)
      have hGr' := hG'.group G' (by simp)
      have hme := hG.mem G (by simp)
      have hme' := hG'.mem G' (by simp)
      obtain ⟨f₀, G, rfl⟩ := List.exists_cons_of_ne_nil hGr.ne
      obtain ⟨f₀', G', rfl⟩ := List.exists_cons_of_ne_nil hGr'.ne
      have hst := stack_sameTrace hGr hGr' (pos := posIn (Layout.make C vars false)) (pos' := posIn (Layout.make C vars' false))
        (fun f hf v hv => posIn_spec hn (hme f hf v hv)) (fun f hf v hv => posIn_spec hn' (hme' f hf v hv)) hs hs'
      simp only [hl, and_true] at hst
      simp only [List.length_cons, Nat.add_right_cancel_iff, List.zip_cons_cons, List.all_cons, Bool.and_eq_true, List.map_cons,
        List.cons.injEq, ← hih, hst]
      simp only [gSig, List.head?_cons, Option.map_some, Prod.mk.injEq, Option.some.injEq, List.length_cons]
      tauto

theorem length_localIdx {lpos lpos' : Var → Nat} {i : Nat} {f f' : Factor} (h : kind f = kind f') :
    (localIdx C lpos i f).length = (localIdx C lpos' i f').length := by
  have key : ∀ (lp : Var → Nat) (f : Factor), (localIdx C lp i f).length = (((f.vars.map (·.ty)).map fun t => (C t).localDim)[i]?).getD 0 := by
    intro lp f
    unfold localIdx
    simp only [List.getD_eq_getElem?_getD, List.getElem?_map, List.map_map]
    cases f.vars[i]? <;> simp
  rw [key, key, kind_types h]

theorem groupCoords_length {lpos lpos' : Var → Nat} {o o' : Nat} {G G' : List Factor} (hG : IsGroup F C G) (hG' : IsGroup F C G')
    (h : gSig G = gSig G') : (groupCoords C lpos o G).flatten.length = (groupCoords C lpos' o' G').flatten.length := by
  obtain ⟨f₀, G, rfl⟩ := List.exists_cons_of_ne_nil hG.ne
  obtain ⟨f₀', G', rfl⟩ := List.exists_cons_of_ne_nil hG'.ne
  simp only [gSig, List.head?_cons, Option.map_some, Prod.mk.injEq, Option.some.injEq] at h
  obtain ⟨hk, hlen⟩ := h
  rw [groupCoords_eq, groupCoords_eq, List.length_flatten, List.length_flatten]
  have hv : gVars (f₀ :: G) = gVars (f₀' :: G') := kind_vars_length hk
  have hr : gRdim (f₀ :: G) = gRdim (f₀' :: G') := kind_rdim hk
  rw [hv, hr, List.map_map, List.map_map]
  congr 1
  apply List.map_congr_left
  intro i _
  simp only [Function.comp, length_posCoords]
  rw [total_const (d := gRdim (f₀' :: G') * (localIdx C lpos i f₀).length) fun f hf => by
      rw [length_localIdx (lpos' := lpos) (hG.same f hf f₀ (by simp))],
    total_const (d := gRdim (f₀' :: G') * (localIdx C lpos' i f₀').length) fun f hf => by
      rw [length_localIdx (lpos' := lpos') (hG'.same f hf f₀' (by simp))], hlen, length_localIdx hk]

theorem coordBlocks_length {lpos lpos' : Var → Nat} {o o' : Nat} {Gs Gs' : List (List Factor)} (hG : ∀ G ∈ Gs, IsGroup F C G)
    (hG' : ∀ G ∈ Gs', IsGroup F C G) (h : Gs.map gSig = Gs'.map gSig) :
    (coordBlocks C lpos o Gs).flatten.length = (coordBlocks C lpos' o' Gs').flatten.length := by
  induction Gs generalizing Gs' o o' with
  | nil =>
    cases Gs' with
    | nil => rfl
    | cons _ _ => simp at h
  | cons G Gs ih =>
    cases Gs' with
    | nil => simp at h
    | cons G' Gs' =>
      simp only [List.map_cons, List.cons.injEq] at h
      simp only [coordBlocks, List.flatten_append, List.length_append]
      rw [groupCoords_length (hG G (by simp)) (hG' G' (by simp)) h.1,
        ih (fun H hH => hG H (by simp [hH])) (fun H hH => hG' H (by simp [hH])) h.2]

theorem total_rdim_sig {Gs Gs' : List (List Factor)} (hG : ∀ G ∈ Gs, IsGroup F C G)
    (hG' : ∀ G ∈ Gs', IsGroup F C G) (h : Gs.map gSig = Gs'.map gSig) : total rdim Gs.flatten = total rdim Gs'.flatten := by
  induction Gs generalizing Gs' with
  | nil =>
    cases Gs' with
    | nil => rfl
    | cons _ _ => simp at h
  | cons G Gs ih =>
    cases Gs' with
    | nil => simp at h
    | cons G' Gs' =>
      simp only [List.map_cons, List.cons.injEq] at h
      have h1 := hG G (by simp)
      have h1' := hG' G' (by simp)
      rw [List.flatten_cons, List.flatten_cons, total_append, total_append, total_rdim h1, total_rdim h1',
        ih (fun H hH => hG H (by simp [hH])) (fun H hH => hG' H (by simp [hH])) h.2]
      obtain ⟨f₀, G, rfl⟩ := List.exists_cons_of_ne_nil h1.ne
      obtain ⟨f₀', G', rfl⟩ := List.exists_cons_of_ne_nil h1'.ne
      have h2 := h.1
      simp only [gSig, List.head?_cons, Option.map_some, Prod.mk.injEq, Option.some.injEq] at h2
      have hr : gRdim (f₀ :: G) = gRdim (f₀' :: G') := kind_rdim h2.1
      rw [hr, h2.2]

/-- When two graphs look alike to `jit`. -/
theorem graph_sameTrace {fs fs' : List Factor} (hfs : ∀ f ∈ fs, FactorWF F C f) (hne : fs ≠ []) (hfs' : ∀ f ∈ fs', FactorWF F C f)
    (hne' : fs' ≠ []) {g g' : Graph} (h : Graph.make C fs = .ok g) (h' : Graph.make C fs' = .ok g') :
    g.sameTrace g' = true ↔ kindCounts fs = kindCounts fs' ∧
      SamePlaces C (Graph.variablesOf fs) (Graph.variablesOf fs') false ∧
      SamePlaces C (Graph.variablesOf fs) (Graph.variablesOf fs') true := by
  have hg := graphOf_make hfs hne h
  have hg' := graphOf_make hfs' hne' h'
  have hn := (variablesOf_spec fs).1
  have hn' := (variablesOf_spec fs').1
  unfold Graph.sameTrace
  simp only [Bool.and_eq_true, decide_eq_true_eq, hg.layout, hg'.layout, hg.localLayout, hg'.localLayout,
    layoutEq_iff_places C hn hn']
  constructor
  · rintro ⟨⟨⟨⟨⟨h1, h2⟩, h3⟩, h4⟩, h5⟩, h6⟩
    exact ⟨kindCounts_eq_iff.1 ((stacks_sameTrace hn hn' hg.groups hg'.groups (graph_stacks h) (graph_stacks h')
      ((layoutEq_iff_places C hn hn').2 h4)).1 ⟨h1, h2⟩), h4, h5⟩
  · rintro ⟨h1, h4, h5⟩
    have hs := kindCounts_eq_iff.2 h1
    have := (stacks_sameTrace hn hn' hg.groups hg'.groups (graph_stacks h) (graph_stacks h')
      ((layoutEq_iff_places C hn hn').2 h4)).2 hs
    refine ⟨⟨⟨⟨this, ?_⟩, h4⟩, h5⟩, ?_⟩
    · rw [hg.coords, hg'.coords]
      exact coordBlocks_length hg.groups.group hg'.groups.group hs
    · rw [hg.residualDim, hg'.residualDim, evalOrder, evalOrder, groupedBy_eq, groupedBy_eq]
      exact total_rdim_sig hg.groups.group hg'.groups.group hs

/-! ### Calls -/

/-- When two calls look alike to `jit`. -/
theorem call_sameTrace {fs fs' : List Factor} {vars vars' : List Var} {c c' : SolveCall} (h : IsCall F C fs vars c)
    (h' : IsCall F C fs' vars' c') :
    c.sameTrace c' = true ↔ c.solver = c'.solver ∧ kindCounts fs = kindCounts fs' ∧
      SamePlaces C (Graph.variablesOf fs) (Graph.variablesOf fs') false ∧
      SamePlaces C (Graph.variablesOf fs) (Graph.variablesOf fs') true ∧ SamePlaces C vars vars' false := by
  unfold SolveCall.sameTrace
  simp only [Bool.and_eq_true, decide_eq_true_eq, graph_sameTrace h.wf h.ne h'.wf h'.ne h.graph h'.graph, h.layout, h'.layout,
    layoutEq_iff_places C h.nodup h'.nodup, h.len, h'.len]
  constructor
  · rintro ⟨⟨⟨a, b, d, e⟩, i⟩, -⟩
    exact ⟨a, b, d, e, i⟩
  · rintro ⟨a, b, d, e, i⟩
    refine ⟨⟨⟨a, b, d, e⟩, i⟩, ?_⟩
    have := (layoutEq_iff C h.nodup h'.nodup).1 ((layoutEq_iff_places C h.nodup h'.nodup).2 i)
    exact this.2.1

/-- A call for some well-formed graph. -/
def SomeCall (F : Nat → FactorClass) (C : Ty → VarClass ℝ) (c : SolveCall) : Prop := ∃ fs vars, IsCall F C fs vars c

theorem SomeCall.refl {c : SolveCall} (h : SomeCall F C c) : c.sameTrace c = true := by
  obtain ⟨fs, vars, h⟩ := h
  exact (call_sameTrace h h).2 ⟨rfl, rfl, fun _ => rfl, fun _ => rfl, fun _ => rfl⟩

theorem SomeCall.trans {c d e : SolveCall} (hc : SomeCall F C c) (hd : SomeCall F C d) (he : SomeCall F C e)
    (h : c.sameTrace d = true) (h' : d.sameTrace e = true) : c.sameTrace e = true := by
  obtain ⟨fc, vc, hc⟩ := hc
  obtain ⟨fd, vd, hd⟩ := hd
  obtain ⟨fe, ve, he⟩ := he
  obtain ⟨a1, a2, a3, a4, a5⟩ := (call_sameTrace hc hd).1 h
  obtain ⟨b1, b2, b3, b4, b5⟩ := (call_sameTrace hd he).1 h'
  exact (call_sameTrace hc he).2 ⟨a1.trans b1, a2.trans b2, fun v => (a3 v).trans (b3 v), fun v => (a4 v).trans (b4 v),
    fun v => (a5 v).trans (b5 v)⟩

end

/-! ### Analyses -/

theorem transposed_pattern (g : Graph) : g.transposed.pattern = graphPattern g := by
  unfold Graph.transposed ScipyCoo.pattern graphPattern
  congr 2
  generalize g.jacobianCoords = l
  induction l with
  | nil => rfl
  | cons p l ih => simp only [List.map_cons, List.zip_cons_cons, ih]; rfl

theorem Spec.OnGraph.pattern {g : Graph} {A : Coo ℝ} (h : OnGraph g A) (vals : List ℝ) :
    ScipyCoo.pattern ⟨vals, A.T.rows, A.T.cols, A.T.shape⟩ = graphPattern g := by
  rw [← transposed_pattern]
  unfold Graph.transposed ScipyCoo.pattern Coo.T
  simp only [h.rows, h.cols, h.shape]

theorem asScipy_eq {A : Coo ℝ} {S : ScipyCoo ℝ} (h : A.asScipy = .ok S) : S = ⟨A.values, A.rows, A.cols, A.shape⟩ := by
  unfold Coo.asScipy at h
  split at h
  · cases h
    rfl
  · cases h

/-- The answer depends on the cache only through the analysis. -/
theorem cholmodSolve_congr {stale : Pattern → ScipyCoo ℝ → ℝ → List ℝ → Py (List ℝ)} {g : Graph} {A : Coo ℝ} (h : OnGraph g A)
    {cache cache' : CholmodCache} {addr addr' : Nat}
    (hc : (cholmodAnalysis cache addr g.transposed).1 = (cholmodAnalysis cache' addr' g.transposed).1) (b : List ℝ) (l : ℝ) :
    (cholmodSolve stale cache addr A b l).1 = (cholmodSolve stale cache' addr' A b l).1 := by
  unfold cholmodSolve
  cases hs : A.T.asScipy with
  | error e => rfl
  | ok S =>
    have hS := asScipy_eq hs
    have hp : S.pattern = g.transposed.pattern := by rw [hS, h.pattern, transposed_pattern]
    have key : ∀ (k : CholmodCache) (a : Nat), (cholmodAnalysis k a S).1 = (cholmodAnalysis k a g.transposed).1 := by
      intro k a
      unfold cholmodAnalysis
      cases k.get? a with
      | some _ => rfl
      | none => simp only [hp]
    simp only [key, hc]

theorem cholmodSolve_cache {stale : Pattern → ScipyCoo ℝ → ℝ → List ℝ → Py (List ℝ)} {g : Graph} {A : Coo ℝ} (h : OnGraph g A)
    (hA : CooWF A) {cache : CholmodCache} {addr : Nat} (b : List ℝ) (l : ℝ) :
    (cholmodSolve stale cache addr A b l).2 = (cholmodAnalysis cache addr g.transposed).2 := by
  unfold cholmodSolve
  rw [asScipy_ok (Props.cooWF_T hA)]
  have hp : ScipyCoo.pattern ⟨A.T.values, A.T.rows, A.T.cols, A.T.shape⟩ = g.transposed.pattern := by
    rw [h.pattern, transposed_pattern]
  simp only [cholmodAnalysis]
  cases cache.get? addr with
  | some _ => rfl
  | none => simp only [hp]

theorem cholmodAnalysis_idem (cache : CholmodCache) (addr : Nat) (S : ScipyCoo ℝ) :
    cholmodAnalysis (cholmodAnalysis cache addr S).2 addr S = ((cholmodAnalysis cache addr S).1, (cholmodAnalysis cache addr S).2) := by
  unfold cholmodAnalysis
  cases h : cache.get? addr with
  | some p => simp only [h]
  | none => simp only [PyDict.get?_set, if_true]

/-! ### Processes -/

section
variable {F : Nat → FactorClass} {C : Ty → VarClass ℝ} {stale : Pattern → ScipyCoo ℝ → ℝ → List ℝ → Py (List ℝ)}

/-- The state of a process after the calls `calls`. -/
structure AfterCalls (F : Nat → FactorClass) (C : Ty → VarClass ℝ) (calls : List SolveCall) (p : Process) : Prop where
  mem : ∀ t ∈ p.traces, t.1 ∈ calls
  lt : ∀ t ∈ p.traces, t.2 < p.next
  cached : ∀ t ∈ p.traces, p.cache.get? t.2 = some (graphPattern t.1.graph)
  free : ∀ a, p.next ≤ a → p.cache.get? a = none
  find : ∀ c, SomeCall F C c → (p.traces.find? (fun t => t.1.sameTrace c)).map (·.1) = calls.find? (·.sameTrace c)

theorem after_append (calls : List SolveCall) (c : SolveCall) :
    Process.after stale (calls ++ [c]) = ((Process.after stale calls).solve stale c).2 := by
  unfold Process.after
  rw [List.foldl_append]
  rfl

theorem afterCalls (calls : List SolveCall) (h : ∀ c ∈ calls, SomeCall F C c) : AfterCalls F C calls (Process.after stale calls) := by
  induction calls using List.reverseRecOn with
  | nil =>
    refine ⟨?_, ?_, ?_, ?_, ?_⟩ <;> simp [Process.after, Process.initial, PyDict.empty, PyDict.get?]
  | append_singleton calls d ih =>
    have ih := ih fun c hc => h c (by simp [hc])
    have hd : SomeCall F C d := h d (by simp)
    rw [after_append]
    obtain ⟨p, hp⟩ : ∃ p, p = Process.after stale calls := ⟨_, rfl⟩
    rw [← hp] at ih ⊢
    unfold Process.solve Process.compile
    cases hf : p.traces.find? (fun t => t.1.sameTrace d) with
    | some t =>
      have ht := List.mem_of_find?_eq_some hf
      have htd : t.1.sameTrace d = true := by simpa using List.find?_some hf
      have hcache : (cholmodAnalysis p.cache t.2 d.graph.transposed).2 = p.cache := by
        simp only [cholmodAnalysis, ih.cached t ht]
      simp only [hcache]
      refine ⟨fun t ht => by simp [ih.mem t ht], ih.lt, ih.cached, ih.free, fun c hc => ?_⟩
      rw [List.find?_append, ← ih.find c hc]
      cases hc' : p.traces.find? (fun t => t.1.sameTrace c) with
      | some u => rfl
      | none =>
        have hdc : d.sameTrace c = false := by
          rw [Bool.eq_false_iff]
          intro hdc
          have := (h t.1 (by simp [ih.mem t ht])).trans hd hc htd hdc
          exact absurd this (by simpa using (List.find?_eq_none.1 hc') t ht)
        simp [hdc]
    | none =>
      have hnone : p.cache.get? p.next = none := ih.free _ le_rfl
      have hcache : (cholmodAnalysis p.cache p.next d.graph.transposed).2 = p.cache.set p.next (graphPattern d.graph) := by
        simp only [cholmodAnalysis, hnone, transposed_pattern]
      simp only [hcache]
      refine ⟨?_, ?_, ?_, ?_, fun c hc => ?_⟩
      · intro t ht
        rcases List.mem_append.1 ht with ht | ht
        · simp [ih.mem t ht]
        · simp only [List.mem_singleton] at ht
          subst ht; simp
      · intro t ht
        rcases List.mem_append.1 ht with ht | ht
        · exact Nat.lt_succ_of_lt (ih.lt t ht)
        · simp only [List.mem_singleton] at ht
          subst ht; simp
      · intro t ht
        rcases List.mem_append.1 ht with ht | ht
        · rw [PyDict.get?_set, if_neg (ih.lt t ht).ne]
          exact ih.cached t ht
        · simp only [List.mem_singleton] at ht
          subst ht
          rw [PyDict.get?_set, if_pos rfl]
      · intro a ha
        have ha : p.next + 1 ≤ a := ha
        rw [PyDict.get?_set, if_neg (by omega)]
        exact ih.free a (by omega)
      · rw [List.find?_append, List.find?_append, ← ih.find c hc]
        cases hc' : p.traces.find? (fun t => t.1.sameTrace c) with
        | some u => rfl
        | none => by_cases hdc : d.sameTrace c <;> simp [hdc]

/-- The analysis that a call uses. -/
theorem analysis_after (calls : List SolveCall) (h : ∀ c ∈ calls, SomeCall F C c) (c : SolveCall) (hc : SomeCall F C c) :
    let q := (Process.after stale calls).compile c
    (cholmodAnalysis q.2.cache q.1 c.graph.transposed).1 = graphPattern ((calls.find? (·.sameTrace c)).getD c).graph := by
  have I := afterCalls (stale := stale) calls h
  obtain ⟨p, hp⟩ : ∃ p, p = Process.after stale calls := ⟨_, rfl⟩
  rw [← hp] at I ⊢
  unfold Process.compile
  rw [← I.find c hc]
  cases hf : p.traces.find? (fun t => t.1.sameTrace c) with
  | some t =>
    simp only [cholmodAnalysis, I.cached t (List.mem_of_find?_eq_some hf), Option.map_some, Option.getD_some]
  | none =>
    simp only [cholmodAnalysis, I.free _ le_rfl, Option.map_none, Option.getD_none, transposed_pattern]

end

/-! ### Solves -/

section
variable {S : Type} [Scal S]

/-- Two linear solvers that agree on the Jacobians of a graph. -/
def AgreeOn (g : GraphOps S) (L L' : LinSolver S) : Prop :=
  ∀ a r A, g.jacobian a r = .ok A → ∀ b l i, L A b l i = L' A b l i

variable {CE : Ty → VarClass S} {g : GraphOps S} {L L' : LinSolver S}

theorem gn_congr (h : AgreeOn g L L') (s : GaussNewton S) :
    ({ s with linear := L } : GaussNewton S).solve CE g = ({ s with linear := L' } : GaussNewton S).solve CE g := by
  have : ({ s with linear := L } : GaussNewton S).step CE g = ({ s with linear := L' } : GaussNewton S).step CE g := by
    funext prev
    unfold GaussNewton.step
    cases hA : g.jacobian prev.assignments prev.residual with
    | error e => rfl
    | ok A => simp only [py_bind_ok, h _ _ _ hA]
  unfold GaussNewton.solve
  rw [this]

theorem lm_congr (h : AgreeOn g L L') (s : LevenbergMarquardt S) :
    ({ s with linear := L } : LevenbergMarquardt S).solve CE g = ({ s with linear := L' } : LevenbergMarquardt S).solve CE g := by
  have : ({ s with linear := L } : LevenbergMarquardt S).step CE g = ({ s with linear := L' } : LevenbergMarquardt S).step CE g := by
    funext prev
    unfold LevenbergMarquardt.step
    cases hA : g.jacobian prev.assignments prev.residual with
    | error e => rfl
    | ok A => simp only [py_bind_ok, h _ _ _ hA]; rfl
  unfold LevenbergMarquardt.solve
  rw [this]
  rfl

theorem dogleg_congr (h : AgreeOn g L L') (s : Dogleg S) :
    ({ s with linear := L } : Dogleg S).solve CE g = ({ s with linear := L' } : Dogleg S).solve CE g := by
  have : ({ s with linear := L } : Dogleg S).step CE g = ({ s with linear := L' } : Dogleg S).step CE g := by
    funext prev
    unfold Dogleg.step
    cases hA : g.jacobian prev.assignments prev.residual with
    | error e => rfl
    | ok A => simp only [py_bind_ok, h _ _ _ hA]
  unfold Dogleg.solve
  rw [this]
  rfl

theorem fixed_congr (h : AgreeOn g L L') (s : FixedIteration S) :
    ({ s with linear := L } : FixedIteration S).solve CE g = ({ s with linear := L' } : FixedIteration S).solve CE g := by
  have : ({ s with linear := L } : FixedIteration S).step CE g = ({ s with linear := L' } : FixedIteration S).step CE g := by
    funext prev
    unfold FixedIteration.step
    cases hA : g.jacobian prev.assignments prev.residual with
    | error e => rfl
    | ok A => simp only [py_bind_ok, h _ _ _ hA]
  funext fuel a
  unfold FixedIteration.solve
  rw [this]

end

theorem jacobian_onGraph {F : Nat → FactorClass} {C : Ty → VarClass ℝ} {g : Graph} {a : Assign ℝ} {r : List ℝ} {A : Coo ℝ}
    (h : g.computeWhitenedResidualJacobian F C a r = .ok A) : OnGraph g A := by
  unfold Graph.computeWhitenedResidualJacobian at h
  obtain ⟨a', -, h⟩ := py_bind_eq_ok.1 h
  obtain ⟨⟨vals, e⟩, -, h⟩ := py_bind_eq_ok.1 h
  obtain ⟨_, -, h⟩ := py_bind_eq_ok.1 h
  obtain ⟨_, -, h⟩ := py_bind_eq_ok.1 h
  split at h
  · cases h
  · cases h
    exact ⟨rfl, rfl, rfl⟩

theorem agreeOn_lift {F : Nat → FactorClass} {C : Ty → VarClass ℝ} {g : Graph} {L L' : LinSolver ℝ}
    (h : ∀ A, OnGraph g A → ∀ b l i, L A b l i = L' A b l i) : AgreeOn (g.ops F C).lift (LinSolver.lift L) (LinSolver.lift L') := by
  intro a r A hA b l i
  unfold GraphOps.lift at hA
  simp only [Graph.ops] at hA
  cases hJ : g.computeWhitenedResidualJacobian F C (a.map Ext.toReal) (r.map Ext.toReal) with
  | error e => rw [hJ] at hA; cases hA
  | ok J =>
    rw [hJ] at hA
    cases hA
    have hon := jacobian_onGraph hJ
    unfold LinSolver.lift
    rw [h (Coo.map Ext.toReal (Coo.map Ext.fin J)) ⟨hon.rows, hon.cols, hon.shape⟩]

end Jaxfg
