/- Evaluation of graphs about whose noise models nothing is known but that their fields are arrays. -/
import Verif.Spec.Rectangular
import Verif.Lemmas.Graph
import Verif.Lemmas.Solver

namespace Jaxfg
open Spec

theorem mapM_ok_forall₂ {α β : Type} {f : α → Py β} {l : List α} {r : List β} (h : l.mapM f = .ok r) :
    List.Forall₂ (fun x y => f x = .ok y) l r := by
  induction l generalizing r with
  | nil => cases h; exact .nil
  | cons a l ih =>
    rw [List.mapM_cons] at h
    obtain ⟨y, h1, h2⟩ := py_bind_eq_ok.1 h
    obtain ⟨ys, h3, h4⟩ := py_bind_eq_ok.1 h2
    cases h4
    exact .cons h1 (ih h3)

/-- The noise array has an axis. -/
def HasAxis : Noise → Prop
  | .gaussian W => W.shape ≠ []
  | .diagonal d => d.shape ≠ []
  | .huber w _ => HasAxis w

theorem whiten_rows {N : Noise} (hN : ∀ l ∈ N.leaves, l.data.length = l.shape.prod) {r w : List ℝ} (h : N.whiten r = .ok w) :
    w.length = noiseRows N ∧ HasAxis N := by
  induction N generalizing w with
  | gaussian W =>
    simp only [Noise.whiten, einsumMatVec] at h
    split at h
    · rename_i m n hs
      refine ⟨?_, by simp [HasAxis, hs]⟩
      have e : noiseRows (.gaussian W) = m := by simp [noiseRows, hs]
      rw [e]
      split at h
      · cases h; simp
      · split at h
        · cases h; simp
        · split at h
          · cases h; simp
          · cases h
    · cases h
  | diagonal d =>
    simp only [Noise.whiten] at h
    obtain ⟨u, h1, h2⟩ := py_bind_eq_ok.1 h
    cases h2
    have hs : [r.length] = d.shape := by
      by_contra hc
      simp [pyAssert, hc] at h1
    have hd := hN d (by simp [Noise.leaves])
    rw [← hs] at hd
    refine ⟨?_, by simp [HasAxis, ← hs]⟩
    simp [noiseRows, ← hs, hd]
  | huber v δ ih =>
    simp only [Noise.whiten] at h
    obtain ⟨r', h1, h2⟩ := py_bind_eq_ok.1 h
    obtain ⟨d, -, h3⟩ := py_bind_eq_ok.1 h2
    obtain ⟨e, ha⟩ := ih (fun l hl => hN l (by simp [Noise.leaves, hl])) h1
    cases h3
    refine ⟨?_, ha⟩
    show _ = noiseRows v
    rw [← e]
    split <;> simp

theorem noiseRows_congr {N N' : Noise} {rest rest' : List (Arr ℝ)} (ht : N.treedef = N'.treedef)
    (hs : (N.leaves ++ rest).map (·.shape) = (N'.leaves ++ rest').map (·.shape)) : noiseRows N = noiseRows N' := by
  induction N generalizing N' rest rest' with
  | gaussian W => cases N' <;> simp_all [Noise.treedef, Noise.leaves, noiseRows]
  | diagonal W => cases N' <;> simp_all [Noise.treedef, Noise.leaves, noiseRows]
  | huber w δ ih =>
    cases N' with
    | huber w' δ' =>
      simp only [Noise.treedef, NoiseDef.huber.injEq] at ht
      simp only [Noise.leaves, List.append_assoc] at hs
      exact ih (N' := w') ht hs
    | _ => simp [Noise.treedef] at ht

theorem kind_noiseRows {f g : Factor} (h : kind f = kind g) : noiseRows f.noise = noiseRows g.noise :=
  noiseRows_congr (kind_noise h) (kind_shapes h)

theorem build_stacked_axis {N : Noise} {k : Nat} (hN : HasAxis N) (ls : List (Arr ℝ)) (rest : List (List Nat))
    (hs : ls.map (·.shape) = N.leaves.map (fun a => k :: a.shape) ++ rest) :
    ∃ N' ls', Noise.build N.treedef ls = .ok (N', ls') ∧ N'.residualDim = .ok (noiseDim N) ∧ ls'.map (·.shape) = rest := by
  have last : ∀ {s : List Nat}, s ≠ [] → (k :: s).getLast? = some (s.getLastD 0) := by
    intro s h
    obtain ⟨a, s, rfl⟩ := List.exists_cons_of_ne_nil h
    rw [List.getLast?_cons_cons, List.getLast?_cons, List.getLastD_cons, List.getLastD_eq_getLast?]
  induction N generalizing ls rest with
  | gaussian W =>
    cases ls with
    | nil => simp [Noise.leaves] at hs
    | cons l ls =>
      simp only [Noise.leaves, List.map_cons, List.map_nil, List.cons_append, List.nil_append, List.cons.injEq] at hs
      refine ⟨.gaussian l, ls, rfl, ?_, hs.2⟩
      simp only [Noise.residualDim, hs.1, last hN]
      rfl
  | diagonal d =>
    cases ls with
    | nil => simp [Noise.leaves] at hs
    | cons l ls =>
      simp only [Noise.leaves, List.map_cons, List.map_nil, List.cons_append, List.nil_append, List.cons.injEq] at hs
      refine ⟨.diagonal l, ls, rfl, ?_, hs.2⟩
      simp only [Noise.residualDim, hs.1, last hN]
      rfl
  | huber w δ ih =>
    simp only [Noise.leaves, List.map_append, List.append_assoc] at hs
    obtain ⟨N', ls', h1, h2, h3⟩ := ih hN ls _ hs
    cases ls' with
    | nil => simp at h3
    | cons d ls' =>
      simp only [List.map_cons, List.map_nil, List.cons_append, List.nil_append, List.cons.injEq] at h3
      refine ⟨.huber N' d, ls', ?_, h2, h3.2⟩
      simp only [Noise.treedef]
      unfold Noise.build
      rw [h1]
      rfl

section
variable {F : Nat → FactorClass} {C : Ty → VarClass ℝ} {G : List Factor}

theorem stackedLeaves_loose (hs : ∀ f ∈ G, Shaped f) (hk : ∀ f ∈ G, ∀ g ∈ G, kind f = kind g) {f₀ : Factor} (h₀ : f₀ ∈ G) {n : Nat}
    (hn : n < G.length) : (stackedLeaves G f₀).map (leafAt n) = G[n].leaves := by
  have hkn := hk G[n] (List.getElem_mem hn) f₀ h₀
  rw [← map_getD_range G[n].leaves ⟨[], []⟩, kind_leaves_length hkn]
  unfold stackedLeaves
  rw [List.map_map]
  apply List.map_congr_left
  intro i hi
  have hi' : i < f₀.leaves.length := List.mem_range.1 hi
  simp only [Function.comp, leafAt, List.tail_cons]
  rw [slice_flatMap_const (l := G) (g := fun f => (f.leaves.getD i ⟨[], []⟩).data)]
  · rw [← shape_getD hkn]
  · intro f hf
    have hkf := hk f hf f₀ h₀
    have hif : i < f.leaves.length := by rw [kind_leaves_length hkf]; exact hi'
    rw [getD_lt _ hif, hs f hf _ (List.getElem_mem hif), ← shape_getD hkf, getD_lt _ hif]

/-- What a stack holds, whatever the noise models. -/
theorem stack_loose (hs : ∀ f ∈ G, Shaped f) (hk : ∀ f ∈ G, ∀ g ∈ G, kind f = kind g) {layout : Layout} {s : FactorStack}
    (h : FactorStack.make C G layout = .ok s) :
    s.numFactors = G.length ∧ (∀ n (hn : n < G.length), s.selfAt n = .ok G[n].self) ∧
      ∀ f ∈ G, HasAxis f.noise → s.residualDim = .ok (rdim f * G.length) := by
  cases G with
  | nil => cases h
  | cons f₀ G =>
    have h₀ : f₀ ∈ f₀ :: G := by simp
    have hl : ((List.range f₀.leaves.length).mapM fun i => stackLeaf ((f₀ :: G).map fun f => f.leaves.getD i ⟨[], []⟩)) =
        .ok (stackedLeaves (f₀ :: G) f₀) := by
      apply mapM_ok
      intro i _
      unfold stackLeaf
      simp only [List.map_cons]
      rw [if_pos]
      · simp [List.flatMap_map]
      · rw [List.all_eq_true]
        intro a ha
        rw [← List.map_cons (f := fun f : Factor => f.leaves.getD i ⟨[], []⟩)] at ha
        obtain ⟨f, hf, rfl⟩ := List.mem_map.1 ha
        simp only [decide_eq_true_eq]
        exact shape_getD (hk f hf f₀ h₀) i _
    unfold FactorStack.make at h
    simp only [hl] at h
    split at h
    · cases h
    · simp only [py_bind_ok, py_pure] at h
      obtain ⟨idx, -, h⟩ := py_bind_eq_ok.1 h
      cases h
      refine ⟨rfl, ?_, ?_⟩
      · intro n hn
        simp only [FactorStack.selfAt]
        have hkn := hk _ (List.getElem_mem hn) f₀ h₀
        rw [stackedLeaves_loose hs hk h₀ hn, ← kind_noise hkn]
        have := noise_build (f₀ :: G)[n].noise (f₀ :: G)[n].params
        rw [show (f₀ :: G)[n].leaves = (f₀ :: G)[n].noise.leaves ++ (f₀ :: G)[n].params from rfl, this]
        simp only [py_bind_ok, py_pure, Factor.self, kind_types hkn]
      · intro f hf ha
        have hkf := hk f hf f₀ h₀
        have hshapes : (stackedLeaves (f₀ :: G) f₀).map (·.shape) =
            f.noise.leaves.map (fun a => (f₀ :: G).length :: a.shape) ++ f.params.map (fun a => (f₀ :: G).length :: a.shape) := by
          rw [← List.map_append]
          unfold stackedLeaves
          rw [List.map_map]
          have e := map_getD_range f.leaves ⟨[], []⟩
          conv_rhs => rw [show f.noise.leaves ++ f.params = f.leaves from rfl, ← e, List.map_map]
          rw [kind_leaves_length hkf]
          apply List.map_congr_left
          intro i _
          simp only [Function.comp, shape_getD hkf i]
        obtain ⟨N', ls', h1, h2, -⟩ := build_stacked_axis ha _ _ hshapes
        simp only [FactorStack.residualDim, FactorStack.factorResidualDim, ← kind_noise hkf, h1, py_bind_ok, h2, py_pure]
        rfl

/-- The length of the whitened residuals of one stack. -/
theorem stackResidual_loose (hs : ∀ f ∈ G, Shaped f) (hk : ∀ f ∈ G, ∀ g ∈ G, kind f = kind g) {layout : Layout} {s : FactorStack}
    (h : FactorStack.make C G layout = .ok s) {a : Assign ℝ} {r : List ℝ} (hr : Graph.stackResidual F C a s = .ok r) :
    r.length = (G.map fun f => noiseRows f.noise).sum ∧ s.residualDim = .ok (G.map rdim).sum := by
  obtain ⟨hnum, hself, hdim⟩ := stack_loose hs hk h
  unfold Graph.stackResidual FactorStack.computeResidualVector FactorStack.arguments at hr
  obtain ⟨rows, h1, hr⟩ := py_bind_eq_ok.1 hr
  obtain ⟨ws, h2, hr⟩ := py_bind_eq_ok.1 hr
  cases hr
  obtain ⟨args, h3, h1⟩ := py_bind_eq_ok.1 h1
  cases h1
  obtain ⟨_, -, h4⟩ := py_bind_eq_ok.1 h3
  obtain ⟨_, -, h5⟩ := py_bind_eq_ok.1 h4
  obtain ⟨tup, -, h6⟩ := py_bind_eq_ok.1 h5
  have hargs : args.length = G.length := by
    have := (mapM_ok_forall₂ h6).length_eq
    simp only [List.length_range, hnum] at this
    exact this.symm
  have hF := mapM_ok_forall₂ h2
  have hlen : ws.length = G.length := by
    have := hF.length_eq
    simp only [List.length_zip, List.length_range, List.length_map, hargs, hnum, Nat.min_self] at this
    exact this.symm
  have hw : ∀ n (hn : n < G.length), (ws[n]'(by omega)).length = noiseRows G[n].noise ∧ HasAxis G[n].noise := by
    intro n hn
    have := (List.forall₂_iff_get.1 hF).2 n (by simp [hnum, hargs, hn]) (by omega)
    simp only [List.get_eq_getElem, List.getElem_zip, List.getElem_range] at this
    rw [hself n hn, py_bind_ok] at this
    exact whiten_rows (fun l hl => hs _ (List.getElem_mem hn) l (List.mem_append_left _ hl)) this
  constructor
  · rw [List.length_flatten]
    congr 1
    apply List.ext_getElem (by simp [hlen])
    intro n h1 h2
    simp only [List.getElem_map]
    exact (hw n (by simpa using h2)).1
  · obtain ⟨f₀, G', rfl⟩ : ∃ f₀ G', G = f₀ :: G' := by
      cases G with
      | nil => cases h
      | cons f G => exact ⟨f, G, rfl⟩
    rw [hdim f₀ (by simp) (hw 0 (by simp)).2]
    have : (f₀ :: G').map rdim = List.replicate (f₀ :: G').length (rdim f₀) := by
      rw [List.eq_replicate_iff]
      refine ⟨by simp, fun n hn => ?_⟩
      obtain ⟨f, hf, rfl⟩ := List.mem_map.1 hn
      exact kind_rdim (hk f hf f₀ (by simp))
    rw [this, List.sum_replicate, smul_eq_mul, Nat.mul_comm]

theorem addGroups_loose {layout localLayout : Layout} {Gs : List (List Factor)} {acc acc' : Graph.Acc}
    (h : Gs.foldlM (Graph.addGroup C layout localLayout) acc = .ok acc') :
    ∃ ps : List (FactorStack × Nat), acc'.factorStacks = acc.factorStacks ++ ps.map (·.1) ∧ acc'.offset = acc.offset + (ps.map (·.2)).sum ∧
      List.Forall₂ (fun G p => FactorStack.make C G layout = .ok p.1 ∧ p.1.residualDim = .ok p.2) Gs ps := by
  induction Gs generalizing acc with
  | nil =>
    cases h
    exact ⟨[], by simp, by simp, .nil⟩
  | cons G Gs ih =>
    rw [List.foldlM_cons] at h
    obtain ⟨a1, h1, h2⟩ := py_bind_eq_ok.1 h
    unfold Graph.addGroup at h1
    obtain ⟨s, hs, h1⟩ := py_bind_eq_ok.1 h1
    obtain ⟨cs, -, h1⟩ := py_bind_eq_ok.1 h1
    obtain ⟨rd, hrd, h1⟩ := py_bind_eq_ok.1 h1
    cases h1
    obtain ⟨ss, e, eo, hss⟩ := ih h2
    exact ⟨(s, rd) :: ss, by rw [e]; simp, by rw [eo]; simp; omega, .cons ⟨hs, hrd⟩ hss⟩

theorem graph_loose {fs : List Factor} {g : Graph} (h : Graph.make C fs = .ok g) :
    ∃ ps : List (FactorStack × Nat), g.factorStacks = ps.map (·.1) ∧ g.residualDim = (ps.map (·.2)).sum ∧
      List.Forall₂ (fun G p => FactorStack.make C G (Layout.make C (Graph.variablesOf fs) false) = .ok p.1 ∧
        p.1.residualDim = .ok p.2) (groups kind fs) ps := by
  unfold Graph.make at h
  simp only [factorsFromGroup_eq] at h
  obtain ⟨acc, h1, h⟩ := py_bind_eq_ok.1 h
  obtain ⟨ss, e, eo, hss⟩ := addGroups_loose h1
  split at h
  · cases h
  · cases h
    exact ⟨ss, by simp [e], by simp [eo], hss⟩

/-- Lengths of the parts of the residual vector, group by group. -/
theorem parts_loose {layout : Layout} {Gs : List (List Factor)} {ps : List (FactorStack × Nat)}
    (hG : ∀ G ∈ Gs, (∀ f ∈ G, Shaped f) ∧ ∀ f ∈ G, ∀ g ∈ G, kind f = kind g)
    (h : List.Forall₂ (fun G p => FactorStack.make C G layout = .ok p.1 ∧ p.1.residualDim = .ok p.2) Gs ps) {a : Assign ℝ}
    {parts : List (List ℝ)} (hp : (ps.map (·.1)).mapM (Graph.stackResidual F C a) = .ok parts) :
    parts.flatten.length = (Gs.flatten.map fun f => noiseRows f.noise).sum ∧ (ps.map (·.2)).sum = (Gs.flatten.map rdim).sum := by
  induction h generalizing parts with
  | nil => cases hp; simp
  | @cons G p Gs ps hGp _ ih =>
    rw [List.map_cons, List.mapM_cons] at hp
    obtain ⟨r, h1, hp⟩ := py_bind_eq_ok.1 hp
    obtain ⟨rs, h2, hp⟩ := py_bind_eq_ok.1 hp
    cases hp
    obtain ⟨e1, e2⟩ := ih (fun G hG' => hG G (by simp [hG'])) h2
    obtain ⟨k1, k2⟩ := stackResidual_loose (hG G (by simp)).1 (hG G (by simp)).2 hGp.1 h1
    have k3 : p.2 = (G.map rdim).sum := by
      have := hGp.2
      rw [k2] at this
      exact (Except.ok.inj this).symm
    constructor
    · simp only [List.flatten_cons, List.length_append, List.map_append, List.sum_append, k1, e1]
    · simp only [List.map_cons, List.sum_cons, List.flatten_cons, List.map_append, List.sum_append, k3, e2]

end

end Jaxfg
