/- Factor stacks: stacking and slicing are inverse, evaluation of a stack is evaluation of its factors. -/
import Verif.Lemmas.Group
import Verif.Lemmas.Assign
import Verif.Lemmas.Noise

namespace Jaxfg
open Spec

/-! ### Lists -/

theorem slice_flatMap_const {α β : Type _} {l : List β} {g : β → List α} {k : Nat} (h : ∀ x ∈ l, (g x).length = k) {n : Nat}
    (hn : n < l.length) : slice (l.flatMap g) (n * k) k = g l[n] := by
  have hsplit : l = l.take n ++ l[n] :: l.drop (n + 1) := by
    rw [List.getElem_cons_drop, List.take_append_drop]
  have hlen : total (fun _ => k) (l.take n) = n * k := by
    rw [total_const (d := k) (fun _ _ => rfl), List.length_take, Nat.min_eq_left hn.le]
  have := slice_flatMap (dim := fun _ : β => k) (f := g) (as := l.take n) (bs := l.drop (n + 1)) (v := l[n])
    (fun w hw => h w (by rw [hsplit]; exact hw))
  rw [hlen, ← hsplit] at this
  exact this

/-- A list is the list of its entries. -/
theorem map_getD_range {α : Type _} (l : List α) (d : α) : ((List.range l.length).map fun i => l.getD i d) = l := by
  apply List.ext_getElem (by simp)
  intro i h1 h2
  rw [List.getElem_map, List.getElem_range, getD_lt d h2]

/-- Monadic map over `zip (range l.length) l'` where the function acts as `g` on the `n`-th element. -/
theorem mapM_range_zip {α β γ : Type} {l : List α} {ρ : α → β} {f : Nat × β → Py γ} {g : α → γ}
    (h : ∀ (n : Nat) (hn : n < l.length), f (n, ρ l[n]) = .ok (g l[n])) :
    ((List.range l.length).zip (l.map ρ)).mapM f = .ok (l.map g) := by
  have h1 : ((List.range l.length).zip (l.map ρ)).mapM f =
      ((List.range l.length).attach.map fun n => (n.1, ρ (l[n.1]'(List.mem_range.1 n.2)))).mapM f := by
    congr 1
    apply List.ext_getElem (by simp)
    intro i h1 h2
    simp
  rw [h1]
  have h2 : l.map g = ((List.range l.length).attach.map fun n => g (l[n.1]'(List.mem_range.1 n.2))) := by
    apply List.ext_getElem (by simp)
    intro i h1 h2
    simp
  rw [h2]
  rw [List.mapM_map]
  exact mapM_ok (f := fun n : { n // n ∈ List.range l.length } => f (n.1, ρ (l[n.1]'(List.mem_range.1 n.2))))
    (g := fun n => g (l[n.1]'(List.mem_range.1 n.2))) fun n _ => h n.1 (List.mem_range.1 n.2)

theorem mapM_range {α γ : Type} {l : List α} {f : Nat → Py γ} {g : α → γ}
    (h : ∀ (n : Nat) (hn : n < l.length), f n = .ok (g l[n])) : (List.range l.length).mapM f = .ok (l.map g) := by
  have := mapM_range_zip (l := l) (ρ := fun _ => ()) (f := fun p : Nat × Unit => f p.1) (g := g) h
  rw [← this]
  have : (List.range l.length) = ((List.range l.length).zip (l.map fun _ => ())).map (·.1) := by
    rw [List.map_fst_zip (by simp)]
  conv_lhs => rw [this]
  rw [List.mapM_map]
  rfl

/-! ### Noise models as pytrees -/

theorem noise_build (N : Noise) (ls : List (Arr ℝ)) : Noise.build N.treedef (N.leaves ++ ls) = .ok (N, ls) := by
  induction N generalizing ls with
  | gaussian W => rfl
  | diagonal d => rfl
  | huber w δ ih =>
    simp only [Noise.treedef, Noise.leaves, List.append_assoc]
    unfold Noise.build
    rw [ih]
    rfl

theorem noiseDim_eq {N : Noise} {n m : Nat} (h : NoiseWF N n m) : noiseDim N = n := by
  induction N with
  | gaussian W => simp [noiseDim, h.1]
  | diagonal d => simp [noiseDim, h.1.1]
  | huber w δ ih => exact ih h.1

theorem noise_residualDim {N : Noise} {n m : Nat} (h : NoiseWF N n m) : N.residualDim = .ok n := by
  induction N with
  | gaussian W => simp [Noise.residualDim, h.1]
  | diagonal d => simp [Noise.residualDim, h.1.1]
  | huber w δ ih => exact ih h.1

theorem noise_leaves_shaped {N : Noise} {n m : Nat} (h : NoiseWF N n m) : ∀ l ∈ N.leaves, l.data.length = l.shape.prod := by
  induction N with
  | gaussian W =>
    intro l hl
    simp only [Noise.leaves, List.mem_singleton] at hl
    subst hl
    rw [h.1, h.2]; simp
  | diagonal d =>
    intro l hl
    simp only [Noise.leaves, List.mem_singleton] at hl
    subst hl
    rw [h.1.1, h.1.2]; simp
  | huber w δ ih =>
    intro l hl
    simp only [Noise.leaves, List.mem_append, List.mem_singleton] at hl
    rcases hl with hl | rfl
    · exact ih h.1 l hl
    · obtain ⟨_, d, rfl, _⟩ := h; simp

/-- The residual dimension depends on structure and shapes only. -/
theorem noiseDim_congr {N N' : Noise} {rest rest' : List (Arr ℝ)} (ht : N.treedef = N'.treedef)
    (hs : (N.leaves ++ rest).map (·.shape) = (N'.leaves ++ rest').map (·.shape)) : noiseDim N = noiseDim N' := by
  induction N generalizing N' rest rest' with
  | gaussian W => cases N' <;> simp_all [Noise.treedef, Noise.leaves, noiseDim]
  | diagonal W => cases N' <;> simp_all [Noise.treedef, Noise.leaves, noiseDim]
  | huber w δ ih =>
    cases N' with
    | huber w' δ' =>
      simp only [Noise.treedef, NoiseDef.huber.injEq] at ht
      simp only [Noise.leaves, List.append_assoc] at hs
      exact ih (N' := w') ht hs
    | _ => simp [Noise.treedef] at ht

/-- Stacked noise arrays have the same last axis. -/
theorem build_stacked {N : Noise} {n m k : Nat} (hN : NoiseWF N n m) (ls : List (Arr ℝ)) (rest : List (List Nat))
    (hs : ls.map (·.shape) = N.leaves.map (fun a => k :: a.shape) ++ rest) :
    ∃ N' ls', Noise.build N.treedef ls = .ok (N', ls') ∧ N'.residualDim = .ok n ∧ ls'.map (·.shape) = rest := by
  induction N generalizing ls rest with
  | gaussian W =>
    cases ls with
    | nil => simp [Noise.leaves] at hs
    | cons l ls =>
      simp only [Noise.leaves, List.map_cons, List.map_nil, List.cons_append, List.nil_append, List.cons.injEq] at hs
      refine ⟨.gaussian l, ls, rfl, ?_, hs.2⟩
      simp [Noise.residualDim, hs.1, hN.1]
  | diagonal d =>
    cases ls with
    | nil => simp [Noise.leaves] at hs
    | cons l ls =>
      simp only [Noise.leaves, List.map_cons, List.map_nil, List.cons_append, List.nil_append, List.cons.injEq] at hs
      refine ⟨.diagonal l, ls, rfl, ?_, hs.2⟩
      simp [Noise.residualDim, hs.1, hN.1.1]
  | huber w δ ih =>
    simp only [Noise.leaves, List.map_append, List.append_assoc] at hs
    obtain ⟨N', ls', h1, h2, h3⟩ := ih hN.1 ls _ hs
    cases ls' with
    | nil => simp at h3
    | cons d ls' =>
      simp only [List.map_cons, List.map_nil, List.cons_append, List.nil_append, List.cons.injEq] at h3
      refine ⟨.huber N' d, ls', ?_, h2, h3.2⟩
      simp only [Noise.treedef]
      unfold Noise.build
      rw [h1]
      rfl

/-! ### A group of factors -/

/-- Factors of one group. -/
structure IsGroup (F : Nat → FactorClass) (C : Ty → VarClass ℝ) (G : List Factor) : Prop where
  ne : G ≠ []
  wf : ∀ f ∈ G, FactorShape F C f
  same : ∀ f ∈ G, ∀ g ∈ G, kind f = kind g

section
variable {F : Nat → FactorClass} {C : Ty → VarClass ℝ} {G : List Factor}

theorem kind_cls {f g : Factor} (h : kind f = kind g) : f.cls = g.cls := congrArg (·.1) h
theorem kind_types {f g : Factor} (h : kind f = kind g) : f.vars.map (·.ty) = g.vars.map (·.ty) := congrArg (·.2.1) h
theorem kind_noise {f g : Factor} (h : kind f = kind g) : f.noise.treedef = g.noise.treedef := congrArg (·.2.2.1) h
theorem kind_shapes {f g : Factor} (h : kind f = kind g) : f.leaves.map (·.shape) = g.leaves.map (·.shape) := congrArg (·.2.2.2) h
theorem kind_vars_length {f g : Factor} (h : kind f = kind g) : f.vars.length = g.vars.length := by
  simpa using congrArg List.length (kind_types h)
theorem kind_leaves_length {f g : Factor} (h : kind f = kind g) : f.leaves.length = g.leaves.length := by
  simpa using congrArg List.length (kind_shapes h)
theorem kind_rdim {f g : Factor} (h : kind f = kind g) : rdim f = rdim g := noiseDim_congr (kind_noise h) (kind_shapes h)

theorem leaves_shaped {f : Factor} (h : FactorShape F C f) : ∀ l ∈ f.leaves, l.data.length = l.shape.prod := by
  intro l hl
  rcases List.mem_append.1 hl with hl | hl
  · exact noise_leaves_shaped h.noise l hl
  · exact h.params l hl

theorem shape_getD {f g : Factor} (h : kind f = kind g) (i : Nat) (d : Arr ℝ) :
    (f.leaves.getD i d).shape = (g.leaves.getD i d).shape := by
  have := kind_shapes h
  have h1 : (f.leaves.map (·.shape)).getD i d.shape = (g.leaves.map (·.shape)).getD i d.shape := by rw [this]
  rw [List.getD_eq_getElem?_getD, List.getD_eq_getElem?_getD, List.getElem?_map, List.getElem?_map] at h1
  rw [List.getD_eq_getElem?_getD, List.getD_eq_getElem?_getD]
  cases h2 : f.leaves[i]? <;> cases h3 : g.leaves[i]? <;> simp_all

/-- Stacked leaves of a group. -/
def stackedLeaves (G : List Factor) (f₀ : Factor) : List (Arr ℝ) :=
  (List.range f₀.leaves.length).map fun i =>
    ⟨G.length :: (f₀.leaves.getD i ⟨[], []⟩).shape, G.flatMap fun f => (f.leaves.getD i ⟨[], []⟩).data⟩

theorem stackLeaves_ok (hG : IsGroup F C G) {f₀ : Factor} (h₀ : f₀ ∈ G) :
    ((List.range f₀.leaves.length).mapM fun i => stackLeaf (G.map fun f => f.leaves.getD i ⟨[], []⟩)) =
      .ok (stackedLeaves G f₀) := by
  apply mapM_ok
  intro i _
  unfold stackLeaf
  obtain ⟨g, G', rfl⟩ := List.exists_cons_of_ne_nil hG.ne
  simp only [List.map_cons]
  rw [if_pos]
  · have : (g.leaves.getD i ⟨[], []⟩).shape = (f₀.leaves.getD i ⟨[], []⟩).shape :=
      shape_getD (hG.same g (by simp) f₀ h₀) i _
    rw [this]
    simp [List.flatMap_map]
  · rw [List.all_eq_true]
    intro a ha
    rw [← List.map_cons (f := fun f : Factor => f.leaves.getD i ⟨[], []⟩)] at ha
    obtain ⟨f, hf, rfl⟩ := List.mem_map.1 ha
    simp only [decide_eq_true_eq]
    exact shape_getD (hG.same f hf g (by simp)) i _

theorem stackedLeaves_slice (hG : IsGroup F C G) {f₀ : Factor} (h₀ : f₀ ∈ G) {n : Nat} (hn : n < G.length) :
    (stackedLeaves G f₀).map (leafAt n) = G[n].leaves := by
  have hk := hG.same G[n] (List.getElem_mem hn) f₀ h₀
  rw [← map_getD_range G[n].leaves ⟨[], []⟩, kind_leaves_length hk]
  unfold stackedLeaves
  rw [List.map_map]
  apply List.map_congr_left
  intro i hi
  have hi' : i < f₀.leaves.length := List.mem_range.1 hi
  simp only [Function.comp, leafAt, List.tail_cons]
  rw [slice_flatMap_const (l := G) (g := fun f => (f.leaves.getD i ⟨[], []⟩).data)]
  · rw [← shape_getD hk]
  · intro f hf
    have hkf := hG.same f hf f₀ h₀
    have hif : i < f.leaves.length := by rw [kind_leaves_length hkf]; exact hi'
    rw [getD_lt _ hif, leaves_shaped (hG.wf f hf) _ (List.getElem_mem hif), ← shape_getD hkf, getD_lt _ hif]

/-- What is known about the stack of a group. `pos v` is where the layout puts `v`. -/
structure StackOf (C : Ty → VarClass ℝ) (layout : Layout) (pos : Var → Nat) (G : List Factor) (s : FactorStack) : Prop where
  num : s.numFactors = G.length
  cls : ∀ f ∈ G, f.cls = s.cls
  types : ∀ f ∈ G, f.vars.map (·.ty) = s.types
  rdim : ∀ f ∈ G, s.factorResidualDim = .ok (rdim f)
  self : ∀ (n : Nat) (hn : n < G.length), s.selfAt n = .ok G[n].self
  layout_eq : s.layout = layout
  idx : s.valueIndices = (List.range s.types.length).map fun i =>
    G.map fun f => (f.vars.map fun v => List.range' (pos v) (C v.ty).paramDim).getD i []

theorem indexRows_ok {layout : Layout} {dim : Ty → Nat} {k : Nat} {pos : Var → Nat}
    (hpos : ∀ f ∈ G, ∀ v ∈ f.vars, layout.indexFromVar.get? v = some (pos v)) :
    FactorStack.indexRows layout dim k G = .ok ((List.range k).map fun i =>
      G.map fun f => (f.vars.map fun v => List.range' (pos v) (dim v.ty)).getD i []) := by
  unfold FactorStack.indexRows
  rw [mapM_ok (g := fun f : Factor => f.vars.map fun v => List.range' (pos v) (dim v.ty))]
  · simp [List.map_map, Function.comp_def]
  · intro f hf
    apply mapM_ok
    intro v hv
    rw [PyDict.get_ok_of (hpos f hf v hv)]
    rfl

theorem stack_ok (hG : IsGroup F C G) {layout : Layout} {pos : Var → Nat}
    (hpos : ∀ f ∈ G, ∀ v ∈ f.vars, layout.indexFromVar.get? v = some (pos v)) :
    ∃ s, FactorStack.make C G layout = .ok s ∧ StackOf C layout pos G s := by
  obtain ⟨f₀, G', hGeq⟩ := List.exists_cons_of_ne_nil hG.ne
  have h₀ : f₀ ∈ G := by rw [hGeq]; simp
  refine ⟨⟨G.length, f₀.cls, f₀.vars.map (·.ty), f₀.noise.treedef, stackedLeaves G f₀, (List.range f₀.vars.length).map
      (fun i => G.map fun f => (f.vars.map fun v => List.range' (pos v) (C v.ty).paramDim).getD i []), layout⟩, ?_, ?_⟩
  · have hany : (G.any fun f => decide (f.treedef ≠ f₀.treedef)) = false := by
      rw [List.any_eq_false]
      intro f hf
      have := kind_iff.2 (hG.same f hf f₀ h₀)
      simp only [Factor.groupKey, Prod.mk.injEq] at this
      simp [this.1]
    have hl := stackLeaves_ok hG h₀
    have hi := indexRows_ok (dim := fun t => (C t).paramDim) (k := f₀.vars.length) hpos
    unfold FactorStack.make
    subst hGeq
    simp only [hany, hl, hi, Bool.false_eq_true, if_false, py_pure, py_bind_ok]
  · constructor
    · rfl
    · intro f hf; exact kind_cls (hG.same f hf f₀ h₀)
    · intro f hf; exact kind_types (hG.same f hf f₀ h₀)
    · intro f hf
      have hshapes : (stackedLeaves G f₀).map (·.shape) =
          f₀.noise.leaves.map (fun a => G.length :: a.shape) ++ f₀.params.map (fun a => G.length :: a.shape) := by
        rw [← List.map_append]
        unfold stackedLeaves
        rw [List.map_map]
        have := map_getD_range f₀.leaves ⟨[], []⟩
        conv_rhs => rw [show f₀.noise.leaves ++ f₀.params = f₀.leaves from rfl, ← this, List.map_map]
        rfl
      obtain ⟨N', ls', h1, h2, _⟩ := build_stacked (hG.wf f₀ h₀).noise _ _ hshapes
      simp only [FactorStack.factorResidualDim, h1, py_bind_ok, h2]
      rw [kind_rdim (hG.same f hf f₀ h₀)]
    · intro n hn
      simp only [FactorStack.selfAt]
      have hk := hG.same G[n] (List.getElem_mem hn) f₀ h₀
      rw [stackedLeaves_slice hG h₀ hn, ← kind_noise hk]
      have := noise_build G[n].noise G[n].params
      rw [show G[n].leaves = G[n].noise.leaves ++ G[n].params from rfl, this]
      simp only [py_bind_ok, py_pure, Factor.self, kind_types hk]
    · rfl
    · simp

/-! ### Evaluation of a stack -/

theorem checkHints_ok {β : Type _} {tyOf : β → Nat} {values : List β} {cs : List TyHint}
    (h : List.Forall₂ (fun t c => c t = true) (values.map tyOf) cs) : checkHints tyOf values cs = .ok () := by
  have hl : values.length = cs.length := by simpa using h.length_eq
  have hall : ((values.zip cs).all fun p => p.2 (tyOf p.1)) = true := by
    rw [List.all_eq_true]
    intro p hp
    rw [List.forall₂_map_left_iff] at h
    exact (List.forall₂_iff_zip.1 h).2 hp
  simp [checkHints, hl, hall]

theorem build_ok {β : Type _} {hint : Option Hint} {tyOf : β → Nat} {values : List β}
    (h : HintAccepts hint (values.map tyOf)) :
    ∃ t, buildVariableValueTuple hint tyOf values = .ok t ∧ t.values = values := by
  unfold buildVariableValueTuple
  cases hint with
  | none => exact h.elim
  | some hint =>
    cases hint with
    | named cs =>
      have hl : values.length = cs.length := by simpa using h.length_eq
      exact ⟨.named values, by simp [hl, checkHints_ok h], rfl⟩
    | tuple cs => exact ⟨.plain values, by simp [checkHints_ok h], rfl⟩
    | ellipsis c =>
      refine ⟨.plain values, ?_, rfl⟩
      have : List.Forall₂ (fun t (c : TyHint) => c t = true) (values.map tyOf) (List.replicate values.length c) := by
        rw [List.forall₂_iff_get]
        refine ⟨by simp, ?_⟩
        intro i h1 h2
        have := h _ (List.getElem_mem h1)
        simpa using this
      simp [checkHints_ok this]

theorem zip_range {α β : Type _} {k : Nat} (l : List α) (d : α) (g : Nat → β) (hl : l.length = k) :
    l.zip ((List.range k).map g) = (List.range k).map fun i => (l.getD i d, g i) := by
  apply List.ext_getElem (by simp [hl])
  intro i h1 h2
  have : i < l.length := by simp at h1; omega
  simp only [List.getElem_zip, List.getElem_map, List.getElem_range, getD_lt d this]

theorem arguments_ok (hG : IsGroup F C G) {layout : Layout} {pos : Var → Nat} {s : FactorStack} (hs : StackOf C layout pos G s)
    {a : Assign ℝ} (ha : a.layout.eq layout = true) {val : Var → Value ℝ}
    (hval : ∀ f ∈ G, ∀ v ∈ f.vars,
      (C v.ty).unflatten (gather a.storage (List.range' (pos v) (C v.ty).paramDim)) = .ok (val v)) :
    s.arguments F C a = .ok (G.map fun f => (f.self, f.vars.map val)) := by
  have hlen : ∀ f ∈ G, f.vars.length = s.types.length := by
    intro f hf
    simpa using congrArg List.length (hs.types f hf)
  have hvs : s.valuesStacked C a = .ok ((List.range s.types.length).map fun i =>
      G.map fun f => (f.vars.map val).getD i ⟨0, []⟩) := by
    unfold FactorStack.valuesStacked
    rw [hs.idx, zip_range _ 0 _ rfl, List.mapM_map]
    apply mapM_ok
    intro i hi
    have hi' : i < s.types.length := List.mem_range.1 hi
    simp only [Function.comp]
    rw [List.mapM_map]
    apply mapM_ok
    intro f hf
    have hif : i < f.vars.length := by rw [hlen f hf]; exact hi'
    simp only [Function.comp]
    rw [getD_lt (l := s.types) _ hi', getD_lt _ (by simpa using hif), getD_lt _ (by simpa using hif)]
    simp only [List.getElem_map]
    have hty : s.types[i] = f.vars[i].ty := by
      have := hs.types f hf
      simp [← this]
    rw [hty]
    exact hval f hf _ (List.getElem_mem hif)
  obtain ⟨f₀, h₀⟩ := List.exists_mem_of_ne_nil G hG.ne
  have hhint : HintAccepts (F s.cls).hint (((s.types.zip ((List.range s.types.length).map fun i =>
      G.map fun f => (f.vars.map val).getD i ⟨0, []⟩))).map fun p : Ty × List (Value ℝ) => (C p.1).default.treedef) := by
    have := (hG.wf f₀ h₀).hint
    rw [hs.cls f₀ h₀] at this
    have he : (f₀.vars.map fun v => (C v.ty).default.treedef) = s.types.map fun t => (C t).default.treedef := by
      rw [← hs.types f₀ h₀, List.map_map]; rfl
    rw [he] at this
    convert this using 1
    rw [zip_range _ 0 _ rfl, List.map_map]
    conv_rhs => rw [← map_getD_range s.types 0, List.map_map]
    rfl
  obtain ⟨t, ht, htv⟩ := build_ok hhint
  unfold FactorStack.arguments
  rw [hs.layout_eq, ha]
  simp only [pyAssert_true, py_bind_ok, hvs, ht, hs.num, htv]
  apply mapM_range
  intro n hn
  rw [hs.self n hn]
  simp only [py_bind_ok, py_pure]
  congr 2
  rw [zip_range _ 0 _ rfl, List.map_map]
  have hl := hlen G[n] (List.getElem_mem hn)
  have h1 := map_getD_range (G[n].vars.map val) ⟨0, []⟩
  rw [List.length_map, hl] at h1
  conv_rhs => rw [← h1]
  apply List.map_congr_left
  intro i hi
  simp only [Function.comp]
  rw [getD_lt _ (by simpa using hn), List.getElem_map]

theorem stackResidual_ok (hG : IsGroup F C G) {layout : Layout} {pos : Var → Nat} {s : FactorStack} (hs : StackOf C layout pos G s)
    {a : Assign ℝ} (ha : a.layout.eq layout = true) {val : Var → Value ℝ}
    (hval : ∀ f ∈ G, ∀ v ∈ f.vars,
      (C v.ty).unflatten (gather a.storage (List.range' (pos v) (C v.ty).paramDim)) = .ok (val v))
    {w : Factor → List ℝ} (hw : ∀ f ∈ G, whitenedAt F val f = .ok (w f)) :
    Graph.stackResidual F C a s = .ok (G.flatMap w) := by
  unfold Graph.stackResidual FactorStack.computeResidualVector
  rw [arguments_ok hG hs ha hval]
  simp only [py_bind_ok, py_pure, List.map_map]
  rw [hs.num, mapM_range_zip (g := w)]
  · simp [List.flatMap_def]
  · intro n hn
    rw [hs.self n hn]
    simp only [py_bind_ok, Function.comp]
    have hm := List.getElem_mem hn
    rw [← hs.cls _ hm]
    exact hw _ hm

end

end Jaxfg
