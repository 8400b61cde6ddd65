/-
Property C124: noise models given by matrices that are not square (jaxfg/noises/_gaussians.py,
jaxfg/core/_stacked_factor_graph.py).
-/
import Verif.Lemmas.Rectangular
import Verif.Props.Mismatch

namespace Jaxfg.Props
open Spec

variable {F : Nat → FactorClass} {C : Ty → VarClass ℝ}

/-- **C124, sizes.** Nothing is assumed about the noise models, the residuals or the assignments, except that array fields are arrays.
If the residual vector is computed, then its length is the sum of the numbers of rows of the noise models, and this is also the sum of
their numbers of columns (the last axes, from which `get_residual_dim` reads the size of the residual). -/
theorem C124_sizes {fs : List Factor} (hfs : ∀ f ∈ fs, Shaped f) {g : Graph} (hg : Graph.make C fs = .ok g) {a : Assign ℝ}
    {r : List ℝ} (hr : g.computeWhitenedResidualVector F C a = .ok r) :
    r.length = (fs.map fun f => noiseRows f.noise).sum ∧ (fs.map fun f => noiseRows f.noise).sum = (fs.map rdim).sum := by
  obtain ⟨ps, e1, e2, hF⟩ := graph_loose hg
  unfold Graph.computeWhitenedResidualVector at hr
  obtain ⟨b, -, hr⟩ := py_bind_eq_ok.1 hr
  obtain ⟨parts, hp, hr⟩ := py_bind_eq_ok.1 hr
  rw [e1] at hp
  have key := parts_loose (F := F) (fun G hG => ⟨fun f hf => hfs f (mem_groups_mem hG f hf), mem_groups_key hG⟩) hF hp
  have hflat : (groups kind fs).flatten.Perm fs := by
    rw [← groupedBy_eq]; exact groupedBy_perm kind fs
  rw [(hflat.map _).sum_eq, (hflat.map _).sum_eq, ← e2] at key
  split at hr
  · cases hr
  · obtain ⟨u, ha, hr⟩ := py_bind_eq_ok.1 hr
    cases hr
    have : parts.flatten.length = g.residualDim := by
      by_contra hc
      rw [decide_eq_false hc] at ha
      cases ha
    exact ⟨key.1, by rw [← key.1, this, key.2]⟩

/-- **C124** if no matrix has more rows than columns (information about some directions only): the residual vector cannot be
computed if one has fewer. The same for matrices without fewer rows than columns. (In general this is false, see
`C124_accepted`.) -/
theorem C124_raises_partial {fs : List Factor} (hfs : ∀ f ∈ fs, Shaped f) {g : Graph} (hg : Graph.make C fs = .ok g)
    (hw : (∀ f ∈ fs, noiseRows f.noise ≤ rdim f) ∨ ∀ f ∈ fs, rdim f ≤ noiseRows f.noise)
    (hne : ∃ f ∈ fs, noiseRows f.noise ≠ rdim f) (a : Assign ℝ) :
    ∀ r, g.computeWhitenedResidualVector F C a ≠ .ok r := by
  intro r hr
  obtain ⟨f, hf, hlt⟩ := hne
  have he := (C124_sizes hfs hg hr).2
  rcases hw with hw | hw
  · exact absurd he (List.sum_lt_sum _ _ hw ⟨f, hf, lt_of_le_of_ne (hw f hf) hlt⟩).ne
  · exact absurd he.symm (List.sum_lt_sum _ _ hw ⟨f, hf, lt_of_le_of_ne (hw f hf) (Ne.symm hlt)⟩).ne

/-- **C124, likelihoods.** `compute_joint_nll` never returns if some noise model is not square, whatever the other factors are. -/
theorem C124_joint_nll {fs : List Factor} (hfs : ∀ f ∈ fs, Shaped f) {g : Graph} (hg : Graph.make C fs = .ok g)
    (hne : ∃ f ∈ fs, NotSquare f.noise) (a : Assign ℝ) (constants : Bool) :
    ∀ y, g.computeJointNll F C a constants ≠ .ok y := by
  intro y hy
  obtain ⟨f, hf, hN⟩ := hne
  obtain ⟨ps, e1, -, hF⟩ := graph_loose hg
  have hbad : ∀ z, Graph.logDetTerm f.noise ≠ .ok z := by
    intro z
    revert hN
    cases f.noise with
    | gaussian W =>
      rintro ⟨m, n, hs, hmn⟩ hz
      simp only [Graph.logDetTerm, Graph.arrDet, hs, if_neg hmn] at hz
      cases hz
    | diagonal d => exact fun h => h.elim
    | huber w δ => rintro - ⟨⟩
  obtain ⟨G, hGm, hfG⟩ : ∃ G ∈ groups kind fs, f ∈ G := by
    have : f ∈ evalOrder fs := mem_groupedBy.2 hf
    rw [evalOrder, groupedBy_eq] at this
    exact List.mem_flatten.1 this
  obtain ⟨i, hi, rfl⟩ := List.getElem_of_mem hGm
  have hi' : i < ps.length := hF.length_eq ▸ hi
  have hs := ((List.forall₂_iff_get.1 hF).2 i hi hi').1
  obtain ⟨hnum, hself, -⟩ := stack_loose (fun f hf => hfs f (mem_groups_mem hGm f hf)) (mem_groups_key hGm) hs
  unfold Graph.computeJointNll at hy
  split at hy
  · cases hy
  obtain ⟨_, -, hy⟩ := py_bind_eq_ok.1 hy
  obtain ⟨lds, hl, -⟩ := py_bind_eq_ok.1 hy
  obtain ⟨z, hz⟩ := mapM_ok_mem hl (x := ps[i].1) (by rw [e1]; exact List.mem_map_of_mem (List.getElem_mem hi'))
  unfold Graph.stackLogDet at hz
  obtain ⟨ts, hz, -⟩ := py_bind_eq_ok.1 hz
  obtain ⟨n, hn, hfn⟩ := List.getElem_of_mem hfG
  obtain ⟨t, ht⟩ := mapM_ok_mem hz (x := n) (by rw [List.mem_range]; exact hnum ▸ hn)
  have hse := hself n hn
  simp only [List.get_eq_getElem] at hse
  rw [hse, py_bind_ok, hfn] at ht
  exact hbad t ht

/-! ### C124 is false in general -/

/-- One residual `x` with the row `(1 1)`, one residual `y` with the column `(1 1)ᵀ`. -/
noncomputable def rectangles : List Factor :=
  [⟨0, [Ex.x], .gaussian ⟨[1, 2], [1, 1]⟩, [⟨[3], [0, 1, 0]⟩]⟩, ⟨0, [Ex.y], .gaussian ⟨[2, 1], [1, 1]⟩, [⟨[3], [0, 1, 0]⟩]⟩]

/-- The assignments `x = u`, `y = v`. -/
noncomputable def rectanglesAt (u v : ℝ) : Assign ℝ := ⟨[u, v], Layout.make Ex.C [Ex.x, Ex.y] false⟩

/-- **C124 is false in general**: with a row and a column the totals agree. The residual vector `(2 x, y, y)` is computed. Its Jacobian
is computed as well, but the derivative of the second entry by `y` is put into the column of `x`, because the rows of the Jacobian are
counted by the columns of the noise models. -/
theorem C124_accepted : ∃ g, Graph.make Ex.C rectangles = .ok g ∧ (∀ u v,
    g.computeWhitenedResidualVector Poly.F Ex.C (rectanglesAt u v) = .ok [2 * u, v, v] ∧
    ∃ A, g.computeWhitenedResidualJacobian Poly.F Ex.C (rectanglesAt u v) [2 * u, v, v] = .ok A ∧ A.shape = (3, 2) ∧
      A.values = [2, 1, 1] ∧ A.rows = [0, 1, 2] ∧ A.cols = [0, 0, 1]) ∧ ∀ f ∈ rectangles, Shaped f ∧ NotSquare f.noise := by
  obtain ⟨g, hg⟩ : ∃ g : Graph, g = ⟨[⟨1, 0, [0], .gaussian, [⟨[1, 1, 2], [1, 1]⟩, ⟨[1, 3], [0, 1, 0]⟩], [[[0]]],
      Layout.make Ex.C [Ex.x, Ex.y] false⟩, ⟨1, 0, [0], .gaussian, [⟨[1, 2, 1], [1, 1]⟩, ⟨[1, 3], [0, 1, 0]⟩], [[[1]]],
      Layout.make Ex.C [Ex.x, Ex.y] false⟩], [(0, 0), (1, 0), (2, 1)], Layout.make Ex.C [Ex.x, Ex.y] false,
      Layout.make Ex.C [Ex.x, Ex.y] true, 3⟩ := ⟨_, rfl⟩
  refine ⟨g, by rw [hg]; rfl, fun u v => ⟨?_, ?_⟩, ?_⟩
  · have h : g.computeWhitenedResidualVector Poly.F Ex.C (rectanglesAt u v) = .ok (((List.range 1).map fun i =>
        ∑ j ∈ Finset.range 2, Arr.at2 ⟨[1, 2], [1, 1]⟩ 2 i j * [0 + 1 * u + 0 * u ^ 2].getD 0 0) ++ (((List.range 2).map fun i =>
        ∑ j ∈ Finset.range 1, Arr.at2 ⟨[2, 1], [1, 1]⟩ 1 i j * [0 + 1 * v + 0 * v ^ 2].getD j 0) ++ [])) := by rw [hg]; rfl
    rw [h]
    simp [List.range_succ, Finset.sum_range_succ, Arr.at2, two_mul]
  · have h : g.computeWhitenedResidualJacobian Poly.F Ex.C (rectanglesAt u v) [2 * u, v, v] =
        .ok ⟨(Arr.of2 1 1 fun i c => ∑ j ∈ Finset.range 2, Arr.at2 ⟨[1, 2], [1, 1]⟩ 2 i j *
          Arr.at2 ⟨[1, 1], [1 + 2 * 0 * u]⟩ 1 0 c).data ++ ((Arr.of2 2 1 fun i c => ∑ j ∈ Finset.range 1,
          Arr.at2 ⟨[2, 1], [1, 1]⟩ 1 i j * Arr.at2 ⟨[1, 1], [1 + 2 * 0 * v]⟩ 1 j c).data ++ []), [0, 1, 2], [0, 0, 1], (3, 2)⟩ := by
      rw [hg]; rfl
    refine ⟨_, h, rfl, ?_, rfl, rfl⟩
    simp [Arr.of2, List.range_succ, Finset.sum_range_succ, Arr.at2]
    norm_num
  · intro f hf
    simp only [rectangles, List.mem_cons, List.not_mem_nil, or_false] at hf
    rcases hf with rfl | rfl
    · exact ⟨by simp [Shaped, Factor.leaves, Noise.leaves], 1, 2, rfl, by decide⟩
    · exact ⟨by simp [Shaped, Factor.leaves, Noise.leaves], 2, 1, rfl, by decide⟩

/-- A case of `C124_joint_nll`: the same graph has a cost, but no likelihood. -/
example (u v : ℝ) : ∃ g, Graph.make Ex.C rectangles = .ok g ∧ (∃ c r, g.computeCost Poly.F Ex.C (rectanglesAt u v) = .ok (c, r)) ∧
    ∀ y, g.computeJointNll Poly.F Ex.C (rectanglesAt u v) false ≠ .ok y := by
  obtain ⟨g, hg, h, hN⟩ := C124_accepted
  refine ⟨g, hg, ⟨([2 * u, v, v].map fun x => x ^ 2).sum, [2 * u, v, v], ?_⟩,
    C124_joint_nll (fun f hf => (hN f hf).1) hg ⟨_, List.mem_cons_self, (hN _ List.mem_cons_self).2⟩ _ _⟩
  unfold Graph.computeCost
  rw [(h u v).1, py_bind_ok, py_pure]

/-- A case of `C124_raises_partial`: the row alone. -/
example (a : Assign ℝ) : ∃ g, Graph.make Ex.C (rectangles.take 1) = .ok g ∧
    ∀ r, g.computeWhitenedResidualVector Poly.F Ex.C a ≠ .ok r := by
  have hm : Graph.make Ex.C (rectangles.take 1) = .ok ⟨[⟨1, 0, [0], .gaussian, [⟨[1, 1, 2], [1, 1]⟩, ⟨[1, 3], [0, 1, 0]⟩], [[[0]]],
      Poly.lay⟩], [(0, 0), (1, 0)], Poly.lay, Poly.llay, 2⟩ := rfl
  refine ⟨_, hm, C124_raises_partial ?_ hm ?_ ?_ a⟩
  · intro f hf
    obtain ⟨g, -, -, hN⟩ := C124_accepted
    exact (hN f (List.mem_of_mem_take hf)).1
  · left
    intro f hf
    simp only [rectangles, List.take_succ_cons, List.take_zero, List.mem_singleton] at hf
    subst hf
    exact Nat.le_succ 1
  · exact ⟨_, List.mem_cons_self, Nat.ne_of_lt (Nat.lt_succ_self 1)⟩

end Jaxfg.Props
