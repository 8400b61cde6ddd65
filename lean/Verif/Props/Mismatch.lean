/-
C91: residuals that do not fit the noise model (jaxfg/noises/_gaussians.py, _huber.py, jaxfg/core/_stacked_factor_graph.py).
-/
import Verif.Spec.Mismatch
import Verif.Props.Graph
import Verif.Lemmas.ExamplePoly

namespace Jaxfg.Props
open Spec
open Matrix hiding vec

/-- Whitened residuals have the size that the noise model says, whatever was whitened. -/
theorem whiten_length {N : Noise} {n m : Nat} (hN : NoiseWF N n m) {r w : List ℝ} (h : N.whiten r = .ok w) : w.length = m := by
  induction N generalizing w with
  | gaussian W =>
    obtain ⟨h1, -⟩ := hN
    simp only [Noise.whiten, einsumMatVec, h1] at h
    split_ifs at h <;> cases h <;> simp
  | diagonal d =>
    obtain ⟨⟨h1, h2⟩, rfl⟩ := hN
    simp only [Noise.whiten, h1] at h
    by_cases hr : r.length = m
    · simp [hr] at h
      subst h
      simp [h2, hr]
    · simp [hr] at h
  | huber w' δ ih =>
    obtain ⟨h1, d, rfl, hd⟩ := hN
    simp only [Noise.whiten] at h
    cases hu : w'.whiten r with
    | error e => rw [hu] at h; cases h
    | ok u =>
      rw [hu] at h
      simp only [py_bind_ok, Arr.scalar, py_pure] at h
      cases Except.ok.inj h
      have := ih h1 hu
      split_ifs <;> simpa using this

/-- **C91, residuals.** Whitening a residual returns exactly if the residual passes, and raises otherwise: `AssertionError` for
`DiagonalGaussian`, `ValueError` for `Gaussian`. -/
theorem C91_residual {N : Noise} {n m : Nat} (hN : NoiseWF N n m) (r : List ℝ) :
    (Passes N n r.length → ∃ w, N.whiten r = .ok w) ∧ (¬Passes N n r.length → N.whiten r = .error (mismatchError N)) := by
  induction N with
  | gaussian W =>
    obtain ⟨h1, -⟩ := hN
    simp only [Noise.whiten, einsumMatVec, h1, Passes, IsFull, mismatchError, true_and]
    refine ⟨fun h => ?_, fun h => ?_⟩
    · split_ifs with h2 h3 h4
      · exact ⟨_, rfl⟩
      · exact ⟨_, rfl⟩
      · exact ⟨_, rfl⟩
      · exact absurd h (by simp [h2, h3, h4])
    · push Not at h
      rw [if_neg h.1, if_neg h.2.1, if_neg h.2.2]
  | diagonal d =>
    obtain ⟨⟨h1, h2⟩, rfl⟩ := hN
    simp only [Noise.whiten, h1, Passes, IsFull, mismatchError, false_and, or_false]
    refine ⟨fun h => ⟨_, by simp [h]; rfl⟩, fun h => by simp [h]⟩
  | huber w δ ih =>
    obtain ⟨h1, d, rfl, hd⟩ := hN
    obtain ⟨i1, i2⟩ := ih h1
    refine ⟨fun h => ?_, fun h => ?_⟩
    · obtain ⟨u, hu⟩ := i1 h
      exact ⟨_, huber_whiten hu⟩
    · simp only [Noise.whiten, i2 h, mismatchError]
      rfl

/-- **C91, Jacobians.** Whitening the Jacobian of `k` rows returns exactly if `k` passes and, for a diagonal, the residual has the
right size as well. -/
theorem C91_jacobian {N : Noise} {n m : Nat} (hN : NoiseWF N n m) (r : List ℝ) {J : Arr ℝ} {k c : Nat} (hJ : IsMat J k c) :
    ((∃ R, N.whitenJacobian J r = .ok R) ↔ Passes N n k ∧ (IsFull N ∨ r.length = n)) ∧
      ∀ R, N.whitenJacobian J r = .ok R → IsMat R m c := by
  induction N with
  | gaussian W =>
    obtain ⟨h1, -⟩ := hN
    simp only [Noise.whitenJacobian, einsumMatMat, h1, hJ.1, Passes, IsFull, true_and, true_or, and_true]
    refine ⟨⟨fun ⟨R, h⟩ => ?_, fun h => ?_⟩, fun R h => ?_⟩
    · split_ifs at h with h2 h3 h4
      · exact .inl h2
      · exact .inr (.inl h3)
      · exact .inr (.inr h4)
    · split_ifs with h2 h3 h4
      · exact ⟨_, rfl⟩
      · exact ⟨_, rfl⟩
      · exact ⟨_, rfl⟩
      · exact absurd h (by simp [h2, h3, h4])
    · split_ifs at h <;> cases h <;> exact isMat_of2 _ _ _
  | diagonal d =>
    obtain ⟨⟨h1, h2⟩, rfl⟩ := hN
    simp only [Noise.whitenJacobian, h1, hJ.1, Passes, IsFull, false_and, or_false, false_or]
    by_cases h : r.length = m ∧ m = k
    · obtain ⟨h3, rfl⟩ := h
      refine ⟨⟨fun _ => ⟨rfl, h3⟩, fun _ => ⟨_, by simp [h3]; rfl⟩⟩, fun R hR => ?_⟩
      simp [h3] at hR
      subst hR
      exact isMat_of2 _ _ _
    · have he : (decide ([r.length] = [m]) && decide ([m] = [k])) = false := by
        rw [Bool.and_eq_false_iff]
        by_cases h3 : r.length = m
        · right; simp; exact fun h4 => h ⟨h3, h4⟩
        · left; simp [h3]
      rw [he]
      refine ⟨⟨fun h3 => (by obtain ⟨R, hR⟩ := h3; cases hR), fun ⟨h3, h4⟩ => absurd ⟨h4, h3.symm⟩ h⟩, fun R hR => by cases hR⟩
  | huber w δ ih =>
    obtain ⟨h1, d, rfl, hd⟩ := hN
    obtain ⟨i1, i2⟩ := ih h1
    cases hu : w.whitenJacobian J r with
    | error e =>
      have hno : ∀ R, (Noise.huber w ⟨[], [d]⟩).whitenJacobian J r ≠ .ok R := fun R h => by
        simp only [Noise.whitenJacobian, hu] at h
        cases h
      refine ⟨⟨fun ⟨R, h⟩ => absurd h (hno R), fun h => ?_⟩, fun R h => absurd h (hno R)⟩
      obtain ⟨R, hR⟩ := i1.2 h
      rw [hu] at hR
      cases hR
    | ok R =>
      have h2 := i2 R hu
      have hyes : (Noise.huber w ⟨[], [d]⟩).whitenJacobian J r =
          .ok (if norm2 r < d then R else ⟨R.shape, R.data.map (· * Real.sqrt (d / norm2 r))⟩) := by
        simp only [Noise.whitenJacobian, hu]
        rfl
      refine ⟨⟨fun _ => i1.1 ⟨R, hu⟩, fun _ => ⟨_, hyes⟩⟩, fun R' h => ?_⟩
      rw [hyes] at h
      cases Except.ok.inj h
      split_ifs
      · exact h2
      · exact ⟨h2.1, by simpa using h2.2⟩

/-- **C91, residuals of size one.** `Gaussian` whitens a single number as if it had been repeated. -/
theorem C91_repeats {W : Arr ℝ} {n m : Nat} (hW : IsMat W m n) (x : ℝ) :
    (Noise.gaussian W).whiten [x] = (Noise.gaussian W).whiten (List.replicate n x) := by
  simp only [Noise.whiten, einsumMatVec, hW.1, List.length_replicate, if_true, List.length_singleton]
  by_cases h : 1 = n
  · subst h; simp
  · rw [if_neg h]
    congr 2
    funext i
    refine Finset.sum_congr rfl fun j hj => ?_
    rw [getD_lt (l := List.replicate n x) _ (by simpa using Finset.mem_range.1 hj), List.getElem_replicate]
    rfl

theorem mapM_ok_mem {α β : Type} {f : α → Py β} {l : List α} {r : List β} (h : l.mapM f = .ok r) {x : α} (hx : x ∈ l) :
    ∃ y, f x = .ok y := by
  induction l generalizing r with
  | nil => cases hx
  | cons a l ih =>
    rw [List.mapM_cons, py_bind_eq_ok] at h
    obtain ⟨y, h1, h2⟩ := h
    rw [py_bind_eq_ok] at h2
    obtain ⟨ys, h2, -⟩ := h2
    rcases List.mem_cons.1 hx with rfl | hx
    · exact ⟨y, h1⟩
    · exact ih h2 hx

section
variable (F : Nat → FactorClass) (C : Ty → VarClass ℝ)

/-- **C91, graphs.** Nothing is assumed about the residual functions. The graph can be made, and the residual vector can be computed
exactly if the residual of every factor passes its noise model. -/
theorem C91_graph (fs : List Factor) (hne : fs ≠ []) (hfs : ∀ f ∈ fs, FactorShape F C f) :
    ∃ g, Graph.make C fs = .ok g ∧ ∀ vars val a, Holds C fs vars val a →
      ((∃ r, g.computeWhitenedResidualVector F C a = .ok r) ↔
        ∀ f ∈ fs, Passes f.noise (rdim f) ((F f.cls).residual f.self (f.vars.map val)).length) := by
  obtain ⟨g, hg, hG⟩ := graph_shape (F := F) hfs hne
  refine ⟨g, hg, fun vars val a h => ?_⟩
  obtain ⟨b, hb, hview⟩ := h.view
  have hread : ∀ G ∈ groups kind fs, ∀ f ∈ G, ∀ v ∈ f.vars, (C v.ty).unflatten (gather b.storage
      (List.range' (posIn (Layout.make C (Graph.variablesOf fs) false) v) (C v.ty).paramDim)) = .ok (val v) :=
    fun G hGm f hf v hv => hview.read v (hG.groups.mem G hGm f hf v hv)
  constructor
  · rintro ⟨r, hr⟩ f hf
    by_contra hno
    have hbad := (C91_residual (hfs f hf).noise ((F f.cls).residual f.self (f.vars.map val))).2 hno
    unfold Graph.computeWhitenedResidualVector at hr
    rw [hG.layout, hb, py_bind_ok, py_bind_eq_ok] at hr
    obtain ⟨parts, hr, -⟩ := hr
    obtain ⟨G, hGm, hfG⟩ : ∃ G ∈ groups kind fs, f ∈ G := by
      have : f ∈ evalOrder fs := mem_groupedBy.2 hf
      rw [evalOrder, groupedBy_eq] at this
      exact List.mem_flatten.1 this
    obtain ⟨i, hi, rfl⟩ := List.getElem_of_mem hGm
    have hlen := hG.factorStacks.length_eq
    have hs := (List.forall₂_iff_get.1 hG.factorStacks).2 i hi (hlen ▸ hi)
    obtain ⟨y, hy⟩ := mapM_ok_mem hr (List.get_mem g.factorStacks ⟨i, hlen ▸ hi⟩)
    unfold Graph.stackResidual FactorStack.computeResidualVector at hy
    rw [arguments_ok (hG.groups.group _ hGm) hs hview.layout (hread _ hGm)] at hy
    simp only [py_bind_ok, py_pure, List.map_map] at hy
    rw [py_bind_eq_ok] at hy
    obtain ⟨ws, hy, -⟩ := hy
    obtain ⟨n, hn, hfn⟩ := List.getElem_of_mem hfG
    have hmem : (n, (F (g.factorStacks.get ⟨i, hlen ▸ hi⟩).cls).residual f.self (f.vars.map val)) ∈
        (List.range (g.factorStacks.get ⟨i, hlen ▸ hi⟩).numFactors).zip (((groups kind fs)[i]).map
          ((fun p => (F (g.factorStacks.get ⟨i, hlen ▸ hi⟩).cls).residual p.1 p.2) ∘ fun f => (f.self, f.vars.map val))) := by
      rw [List.mem_iff_getElem]
      refine ⟨n, by rw [hs.num]; simpa using hn, ?_⟩
      simp [hfn]
    obtain ⟨w, hw⟩ := mapM_ok_mem hy hmem
    simp only at hw
    rw [hs.self n hn] at hw
    simp only [py_bind_ok] at hw
    have hf' : f ∈ (groups kind fs).get ⟨i, hi⟩ := hfG
    rw [← hs.cls f hf'] at hw
    have hnoise : ((groups kind fs).get ⟨i, hi⟩)[n].self.noise = f.noise := by
      show ((groups kind fs)[i])[n].self.noise = _
      rw [hfn]; rfl
    rw [hnoise, hbad] at hw
    cases hw
  · intro hp
    have : ∀ f : Factor, ∃ w, f ∈ fs → whitenedAt F val f = .ok w ∧ w.length = rdim f := by
      intro f
      by_cases hf : f ∈ fs
      · obtain ⟨w, hw⟩ := (C91_residual (hfs f hf).noise ((F f.cls).residual f.self (f.vars.map val))).1 (hp f hf)
        exact ⟨w, fun _ => ⟨hw, whiten_length (hfs f hf).noise hw⟩⟩
      · exact ⟨[], fun h => absurd h hf⟩
    choose w hw using this
    have hlen : ((evalOrder fs).flatMap w).length = g.residualDim := by
      rw [hG.residualDim]
      exact length_flatMap_blocks fun f hf => (hw f (mem_groupedBy.1 hf)).2
    refine ⟨(evalOrder fs).flatMap w, ?_⟩
    unfold Graph.computeWhitenedResidualVector
    rw [hG.layout, hb]
    simp only [py_bind_ok]
    rw [mapM_forall₂ hG.factorStacks (g := fun G => G.flatMap w)]
    · have hne' : ((groups kind fs).map fun G => G.flatMap w).isEmpty = false := by
        obtain ⟨f, fs', rfl⟩ := List.exists_cons_of_ne_nil hne
        simp [groups, firstKeys]
      have hflat : ((groups kind fs).map fun G => G.flatMap w).flatten = (evalOrder fs).flatMap w := by
        rw [evalOrder, groupedBy_eq, flatten_flatMap]
      simp only [py_bind_ok, hne', hflat, hlen]
      simp
    · intro G hGm s hs
      exact stackResidual_ok (hG.groups.group G hGm) hs hview.layout (hread G hGm) fun f hf => (hw f (mem_groups_mem hGm f hf)).1

/-- **C91** without `Gaussian`: the residual vector can be computed exactly if all residuals have the sizes of their noise models.
(With `Gaussian` this is false, see `C91_repeats` and `C91_gaussian_accepts`.) -/
theorem C91_graph_partial (fs : List Factor) (hne : fs ≠ []) (hfs : ∀ f ∈ fs, FactorShape F C f) (hd : ∀ f ∈ fs, ¬IsFull f.noise) :
    ∃ g, Graph.make C fs = .ok g ∧ ∀ vars val a, Holds C fs vars val a →
      ((∃ r, g.computeWhitenedResidualVector F C a = .ok r) ↔
        ∀ f ∈ fs, ((F f.cls).residual f.self (f.vars.map val)).length = rdim f) := by
  obtain ⟨g, hg, h⟩ := C91_graph F C fs hne hfs
  refine ⟨g, hg, fun vars val a ha => (h vars val a ha).trans ?_⟩
  refine forall₂_congr fun f hf => ?_
  simp [Passes, hd f hf]

end

/-! ### Examples -/

/-- One factor with the residual `p + q x + s x²`, but noise for residuals of size two. -/
noncomputable def twoDim (N : Noise) (p q s : ℝ) : Factor := ⟨0, [Ex.x], N, [⟨[3], [p, q, s]⟩]⟩

theorem twoDim_shape {N : Noise} (hN : NoiseWF N 2 2) (p q s : ℝ) : FactorShape Poly.F Ex.C (twoDim N p q s) := by
  have hd : rdim (twoDim N p q s) = 2 := noiseDim_eq hN
  refine ⟨by rw [hd]; omega, by simp [twoDim], by rw [hd]; exact hN, ?_, .cons rfl .nil⟩
  intro a ha
  simp only [twoDim, List.mem_cons, List.not_mem_nil, or_false] at ha
  subst ha; rfl

theorem twoDim_holds (N : Noise) (p q s v : ℝ) : Holds Ex.C [twoDim N p q s] [Ex.x] (fun _ => ⟨0, [⟨[1], [v]⟩]⟩) (Poly.at_ v) where
  assignment := Poly.at_assignment v
  isGlobal := rfl
  sameVars w := by simp [twoDim]
  values w hw := by
    obtain rfl : w = Ex.x := by simpa using hw
    rfl

/-- **C91 is false for `Gaussian`**: the residual has size one and the noise model size two. The graph can be made, and its cost is
that of the residual repeated twice. With a diagonal (C91_graph_partial) the same factor raises. -/
theorem C91_gaussian_accepts (p q s v : ℝ) :
    ∃ g, Graph.make Ex.C [twoDim (.gaussian ⟨[2, 2], [1, 0, 0, 1]⟩) p q s] = .ok g ∧ g.residualDim = 2 ∧
      g.computeWhitenedResidualVector Poly.F Ex.C (Poly.at_ v) = .ok [p + q * v + s * v ^ 2, p + q * v + s * v ^ 2] ∧
      ∃ A, g.computeWhitenedResidualJacobian Poly.F Ex.C (Poly.at_ v) [p + q * v + s * v ^ 2, p + q * v + s * v ^ 2] = .ok A ∧
        A.values = [q + 2 * s * v, q + 2 * s * v] := by
  obtain ⟨g, hg⟩ : ∃ g : Graph, g = ⟨[⟨1, 0, [0], .gaussian, [⟨[1, 2, 2], [1, 0, 0, 1]⟩, ⟨[1, 3], [p, q, s]⟩], [[[0]]], Poly.lay⟩],
    [(0, 0), (1, 0)], Poly.lay, Poly.llay, 2⟩ := ⟨_, rfl⟩
  refine ⟨g, by rw [hg]; rfl, by rw [hg], ?_, ?_⟩
  · have h : g.computeWhitenedResidualVector Poly.F Ex.C (Poly.at_ v) = .ok ((List.range 2).map fun i =>
        ∑ j ∈ Finset.range 2, Arr.at2 ⟨[2, 2], [1, 0, 0, 1]⟩ 2 i j * [p + q * v + s * v ^ 2].getD 0 0) := by rw [hg]; rfl
    rw [h]
    simp [List.range_succ, Finset.sum_range_succ, Arr.at2]
  · have h : g.computeWhitenedResidualJacobian Poly.F Ex.C (Poly.at_ v) [p + q * v + s * v ^ 2, p + q * v + s * v ^ 2] =
        .ok ⟨(Arr.of2 2 1 fun i c => ∑ j ∈ Finset.range 2, Arr.at2 ⟨[2, 2], [1, 0, 0, 1]⟩ 2 i j *
          Arr.at2 ⟨[1, 1], [q + 2 * s * v]⟩ 1 0 c).data ++ [], [0, 1], [0, 0], (2, 1)⟩ := by rw [hg]; rfl
    refine ⟨_, h, ?_⟩
    simp [Arr.of2, List.range_succ, Finset.sum_range_succ, Arr.at2]

/-- A case of `C91_graph_partial`: the same factor with a Huber loss around a diagonal. -/
example (v : ℝ) : ∃ g, Graph.make Ex.C [twoDim (.huber (.diagonal ⟨[2], [1, 1]⟩) ⟨[], [2]⟩) 1 2 3] = .ok g ∧
    ¬∃ r, g.computeWhitenedResidualVector Poly.F Ex.C (Poly.at_ v) = .ok r := by
  have hN : NoiseWF (.huber (.diagonal ⟨[2], [1, 1]⟩) ⟨[], [2]⟩) 2 2 := ⟨⟨⟨rfl, rfl⟩, rfl⟩, 2, rfl, by norm_num⟩
  obtain ⟨g, hg, h⟩ := C91_graph_partial Poly.F Ex.C [twoDim (.huber (.diagonal ⟨[2], [1, 1]⟩) ⟨[], [2]⟩) 1 2 3] (by simp)
    (by simpa using twoDim_shape hN 1 2 3) (by simp [twoDim, IsFull])
  refine ⟨g, hg, fun hr => ?_⟩
  have := (h _ _ _ (twoDim_holds _ 1 2 3 v)).1 hr _ (List.mem_singleton_self _)
  have h2 : rdim (twoDim (.huber (.diagonal ⟨[2], [1, 1]⟩) ⟨[], [2]⟩) 1 2 3) = 2 := noiseDim_eq hN
  rw [h2] at this
  exact absurd this (by show ¬(1 = 2); omega)

end Jaxfg.Props
