/- The pattern of the normal matrix of a graph. -/
import Verif.Lemmas.Compiled

namespace Jaxfg
open Spec

theorem exists_total {ι : Type} {dim : ι → Nat} {l : List ι} {k : Nat} (h : k < total dim l) :
    ∃ pre f post r, l = pre ++ f :: post ∧ r < dim f ∧ k = total dim pre + r := by
  induction l generalizing k with
  | nil => simp at h
  | cons f l ih =>
    by_cases hk : k < dim f
    · exact ⟨[], f, l, k, rfl, hk, by simp⟩
    · obtain ⟨pre, f', post, r, e, hr, hk'⟩ := ih (k := k - dim f) (by rw [total_cons] at h; omega)
      exact ⟨f :: pre, f', post, r, by rw [e]; rfl, hr, by rw [total_cons]; omega⟩

theorem total_split {ι : Type} {dim : ι → Nat} {pre pre' post post' : List ι} {f f' : ι} {r r' : Nat}
    (h : pre ++ f :: post = pre' ++ f' :: post') (hr : r < dim f) (hr' : r' < dim f')
    (hk : total dim pre + r = total dim pre' + r') : f = f' := by
  induction pre generalizing pre' with
  | nil =>
    cases pre' with
    | nil => exact (List.cons.inj h).1
    | cons a pre' =>
      have h1 : f = a := (List.cons.inj h).1
      subst h1
      rw [total_nil, total_cons] at hk
      omega
  | cons a pre ih =>
    cases pre' with
    | nil =>
      have h1 : a = f' := (List.cons.inj h).1
      subst h1
      rw [total_nil, total_cons] at hk
      omega
    | cons b pre' =>
      obtain ⟨h1, h2⟩ := List.cons.inj h
      subst h1
      rw [total_cons, total_cons] at hk
      exact ih h2 (by omega)

section
variable {F : Nat → FactorClass} {C : Ty → VarClass ℝ} {fs : List Factor} {g : Graph}

/-- The coordinates of a graph. -/
theorem mem_coords (hg : GraphOf F C fs g) (k c : Nat) : (k, c) ∈ g.jacobianCoords ↔
    ∃ pre f post r, evalOrder fs = pre ++ f :: post ∧ r < rdim f ∧ k = total rdim pre + r ∧
      ∃ v ∈ f.vars, posIn g.localLayout v ≤ c ∧ c < posIn g.localLayout v + (C v.ty).localDim := by
  have hco := coordsOf hg
  constructor
  · intro h
    have h1 := hco.row _ h
    have h2 := hco.col _ h
    rw [hg.residualDim] at h1
    obtain ⟨pre, f, post, r, e, hr, hk⟩ := exists_total h1
    obtain ⟨-, -, h3, -⟩ := Props.C01_blocks_tile C (Graph.variablesOf fs) (variablesOf_spec fs).1 true
    rw [hg.localLayout] at h2
    obtain ⟨v, ⟨hv, i, hi, hle, hlt⟩, -⟩ := h3 c h2
    have hpi : posIn g.localLayout v = i := by rw [posIn, hg.localLayout, hi]; rfl
    have hlt' : c < i + (C v.ty).localDim := hlt
    refine ⟨pre, f, post, r, e, hr, hk, v, ?_, by omega, by omega⟩
    have hcount := hco.count pre f post e r hr v hv (c - i) (by omega)
    have e1 : posIn g.localLayout v + (c - i) = c := by omega
    have hk' : k = total rdim pre + r := hk
    rw [← hk', e1] at hcount
    exact List.count_pos_iff.1 (by rw [← hcount]; exact List.count_pos_iff.2 h)
  · rintro ⟨pre, f, post, r, e, hr, hk, v, hv, h1, h2⟩
    have hf : f ∈ fs := mem_groupedBy.1 (show f ∈ evalOrder fs by rw [e]; simp)
    have hcount := hco.count pre f post e r hr v (mem_variablesOf hf hv) (c - posIn g.localLayout v) (by omega)
    have e1 : posIn g.localLayout v + (c - posIn g.localLayout v) = c := by omega
    rw [← hk, e1] at hcount
    exact List.count_pos_iff.1 (by rw [hcount]; exact List.count_pos_iff.2 hv)

theorem mem_pattern (k c : Nat) : (c, k) ∈ (graphPattern g).2 ↔ (k, c) ∈ g.jacobianCoords := by
  unfold graphPattern
  simp only [List.mem_toFinset, List.mem_map, Prod.exists, Prod.swap_prod_mk, Prod.mk.injEq]
  constructor
  · rintro ⟨a, b, h, rfl, rfl⟩; exact h
  · intro h; exact ⟨k, c, h, rfl, rfl⟩

/-- The pattern of the normal matrix. -/
theorem normalPattern_iff (hfs : ∀ f ∈ fs, FactorWF F C f) (hg : GraphOf F C fs g) (i j : Nat) :
    (∃ k, (i, k) ∈ (graphPattern g).2 ∧ (j, k) ∈ (graphPattern g).2) ↔
      ∃ u v, Connected fs u v ∧ (posIn g.localLayout u ≤ i ∧ i < posIn g.localLayout u + (C u.ty).localDim) ∧
        (posIn g.localLayout v ≤ j ∧ j < posIn g.localLayout v + (C v.ty).localDim) := by
  simp only [mem_pattern, mem_coords hg]
  constructor
  · rintro ⟨k, ⟨pre, f, post, r, e, hr, hk, u, hu, h1⟩, ⟨pre', f', post', r', e', hr', hk', v, hv, h2⟩⟩
    have hff : f = f' := total_split (e.symm.trans e') hr hr' (hk.symm.trans hk')
    subst hff
    have hf : f ∈ fs := mem_groupedBy.1 (show f ∈ evalOrder fs by rw [e]; simp)
    exact ⟨u, v, ⟨f, hf, hu, hv⟩, h1, h2⟩
  · rintro ⟨u, v, ⟨f, hf, hu, hv⟩, h1, h2⟩
    have hfe : f ∈ evalOrder fs := mem_groupedBy.2 hf
    obtain ⟨pre, post, e⟩ := List.append_of_mem hfe
    have hr := (hfs f hf).pos
    exact ⟨_, ⟨pre, f, post, 0, e, hr, rfl, u, hu, h1⟩, ⟨pre, f, post, 0, e, hr, rfl, v, hv, h2⟩⟩

end
end Jaxfg
