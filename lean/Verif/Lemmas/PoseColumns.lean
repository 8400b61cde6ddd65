/- Where the entries of the Jacobian of a graph come from, and retractions by vectors of the wrong length (for C112). -/
import Verif.Lemmas.Anchored
import Verif.Lemmas.CgFinite
import Verif.Lemmas.Symmetry

namespace Jaxfg
open Spec
open Matrix hiding vec

section
variable {F : Nat → FactorClass} {C : Ty → VarClass ℝ}

/-! ### Entries -/

theorem entries_pos {lpos : Var → Nat} {R : Factor → List (Arr ℝ)} {G : List Factor} {rd i : Nat}
    (hR : ∀ f ∈ G, JacOK C R f) (hrd : ∀ f ∈ G, rdim f = rd) (hi : ∀ f ∈ G, i < f.vars.length) {f : Factor} (hf : f ∈ G) (o : Nat) :
    ∃ o', ∀ e ∈ blockEntries C lpos (rdim f) o' (f.vars.getD i ⟨0, 0⟩) ((R f).getD i ⟨[], []⟩),
      e ∈ ((posCoords C lpos rd i o G).zip (G.flatMap fun f => ((R f).getD i ⟨[], []⟩).data)).map triple := by
  induction G generalizing o with
  | nil => simp at hf
  | cons f' G ih =>
    have hf' := hR f' (by simp)
    have hif := hi f' (by simp)
    have hrf := hrd f' (by simp)
    have hz : ((posCoords C lpos rd i o (f' :: G)).zip ((f' :: G).flatMap fun f => ((R f).getD i ⟨[], []⟩).data)).map triple =
        blockEntries C lpos (rdim f') o f'.vars[i] ((R f').getD i ⟨[], []⟩) ++
          ((posCoords C lpos rd i (o + rd) G).zip (G.flatMap fun f => ((R f).getD i ⟨[], []⟩).data)).map triple := by
      rw [posCoords, List.flatMap_cons, List.zip_append, List.map_append, ← hrf, zip_factor hf' hif]
      rw [(hf'.get hif).2, localIdx_eq hif, flatMap_const_length _ _ (C f'.vars[i].ty).localDim (by simp), hrf]
      simp
    rw [hz]
    rcases List.mem_cons.1 hf with rfl | hf
    · exact ⟨o, fun e he => List.mem_append_left _ (by rwa [getD_lt _ hif] at he)⟩
    · obtain ⟨o', h⟩ := ih (fun g hg => hR g (by simp [hg])) (fun g hg => hrd g (by simp [hg])) (fun g hg => hi g (by simp [hg])) hf
        (o + rd)
      exact ⟨o', fun e he => List.mem_append_right _ (h e he)⟩

theorem entries_group {lpos : Var → Nat} {R : Factor → List (Arr ℝ)} {G : List Factor} (hG : IsGroup F C G)
    (hR : ∀ f ∈ G, JacOK C R f) {f : Factor} (hf : f ∈ G) {i : Nat} (hi : i < f.vars.length) (o : Nat) :
    ∃ o', ∀ e ∈ blockEntries C lpos (rdim f) o' (f.vars.getD i ⟨0, 0⟩) ((R f).getD i ⟨[], []⟩),
      e ∈ ((groupCoords C lpos o G).flatten.zip (groupValues R G).flatten).map triple := by
  have hiG : ∀ i < gVars G, ∀ f ∈ G, i < f.vars.length := fun i hi f hf => by rw [← gVars_eq hG hf]; exact hi
  have hi' : i < gVars G := by rw [gVars_eq hG hf]; exact hi
  obtain ⟨o', h⟩ := entries_pos (lpos := lpos) hR (fun f hf => (gRdim_eq hG hf).symm) (hiG i hi') hf o
  refine ⟨o', fun e he => ?_⟩
  rw [groupCoords_eq, groupValues, ← List.flatMap_def, ← List.flatMap_def, zip_flatMap, List.map_flatMap]
  · exact List.mem_flatMap.2 ⟨i, List.mem_range.2 hi', h e he⟩
  · intro i hi
    exact length_posValues hR (fun f hf => (gRdim_eq hG hf).symm) (hiG i (List.mem_range.1 hi))

theorem entries_groups {lpos : Var → Nat} {R : Factor → List (Arr ℝ)} {Gs : List (List Factor)} (hG : ∀ G ∈ Gs, IsGroup F C G)
    (hR : ∀ G ∈ Gs, ∀ f ∈ G, JacOK C R f) {f : Factor} (hf : f ∈ Gs.flatten) {i : Nat} (hi : i < f.vars.length) (o : Nat) :
    ∃ o', ∀ e ∈ blockEntries C lpos (rdim f) o' (f.vars.getD i ⟨0, 0⟩) ((R f).getD i ⟨[], []⟩),
      e ∈ ((coordBlocks C lpos o Gs).flatten.zip ((Gs.map (groupValues R)).flatten).flatten).map triple := by
  induction Gs generalizing o with
  | nil => simp at hf
  | cons G Gs ih =>
    have h1 := length_group (lpos := lpos) (hG G (by simp)) (hR G (by simp)) o
    have hz : ((coordBlocks C lpos o (G :: Gs)).flatten.zip (((G :: Gs).map (groupValues R)).flatten).flatten).map triple =
        ((groupCoords C lpos o G).flatten.zip (groupValues R G).flatten).map triple ++
          ((coordBlocks C lpos (o + total rdim G) Gs).flatten.zip ((Gs.map (groupValues R)).flatten).flatten).map triple := by
      simp only [coordBlocks, List.flatten_append, List.map_cons, List.flatten_cons]
      rw [List.zip_append h1, List.map_append]
    rw [hz]
    rw [List.flatten_cons, List.mem_append] at hf
    rcases hf with hf | hf
    · obtain ⟨o', h⟩ := entries_group (lpos := lpos) (hG G (by simp)) (hR G (by simp)) hf hi o
      exact ⟨o', fun e he => List.mem_append_left _ (h e he)⟩
    · obtain ⟨o', h⟩ := ih (fun H h => hG H (by simp [h])) (fun H h => hR H (by simp [h])) hf (o + total rdim G)
      exact ⟨o', fun e he => List.mem_append_right _ (h e he)⟩

theorem zip_triple (l : List (Nat × Nat)) (v : List ℝ) : (l.map (·.1)).zip ((l.map (·.2)).zip v) = (l.zip v).map triple := by
  induction l generalizing v with
  | nil => rfl
  | cons p l ih =>
    cases v with
    | nil => simp
    | cons y v => simp only [List.map_cons, List.zip_cons_cons, ih]; rfl

/-- No column of the Jacobian of a graph is zero if every variable has a factor one of whose whitened Jacobians by this variable has no
column of zeros. -/
theorem noZero_of_blocks (hC : GoodClasses C) {fs : List Factor} (hfs : ∀ f ∈ fs, FactorWF F C f) (hne : fs ≠ []) {g : Graph}
    (hg : GraphOf F C fs g) {vars : List Var} {val : Var → Value ℝ} {a : Assign ℝ} (h : Holds C fs vars val a)
    {ρ : Factor → List ℝ} (hρ : ∀ f ∈ fs, (ρ f).length = rdim f) {R : Factor → List (Arr ℝ)}
    (hR : ∀ f ∈ fs, ((F f.cls).jacobians f.self (f.vars.map val)).mapM (fun J => f.noise.whitenJacobian J (ρ f)) = .ok (R f))
    (hcol : ∀ v ∈ Graph.variablesOf fs, ∃ f ∈ fs, ∃ i, f.vars[i]? = some v ∧ ∀ c < (C v.ty).localDim, ∃ r < rdim f,
      ((R f).getD i ⟨[], []⟩).at2 (C v.ty).localDim r c ≠ 0) {A : Coo ℝ}
    (hA : g.computeWhitenedResidualJacobian F C a ((evalOrder fs).flatMap ρ) = .ok A) :
    CooWF A ∧ ∀ j < A.shape.2, ¬ ZeroAt A j := by
  obtain ⟨A', hA', heq, hwf, hshape, -⟩ := jacobian_explicit hC hfs hne hg h hρ hR
  obtain rfl : A' = A := Except.ok.inj (hA'.symm.trans hA)
  refine ⟨hwf, fun j hj hz => ?_⟩
  have hs := variablesOf_spec fs
  rw [hshape] at hj
  have hj : j < g.localLayout.dim := hj
  rw [hg.localLayout] at hj
  obtain ⟨v, ⟨hv, p, hp, h1, h2⟩, -⟩ := (Props.C01_blocks_tile C (Graph.variablesOf fs) hs.1 true).2.2.1 j hj
  have hp' : posIn g.localLayout v = p := by rw [posIn, hg.localLayout, hp]; rfl
  obtain ⟨f, hf, i, hi, hnz⟩ := hcol v hv
  obtain ⟨hil, hiv⟩ := List.getElem?_eq_some_iff.1 hi
  obtain ⟨c, rfl⟩ := Nat.exists_eq_add_of_le h1
  have hc : c < (C v.ty).localDim := by
    have : p + c < p + (C v.ty).localDim := h2
    omega
  obtain ⟨r, hr, hne0⟩ := hnz c hc
  have hJ : ∀ f ∈ fs, JacOK C R f := by
    intro f hf
    obtain ⟨R', k1, k2⟩ := whitenedJacobians_ok (hfs f hf) (h.valuesFor hC hf) (hρ f hf)
    rw [hR f hf] at k1
    cases k1
    exact k2
  have hflat : (groups kind fs).flatten = evalOrder fs := by rw [evalOrder, groupedBy_eq]
  obtain ⟨o', ho⟩ := entries_groups (lpos := posIn g.localLayout) (R := R) hg.groups.group
    (fun G hG f hf => hJ f (mem_groups_mem hG f hf)) (f := f) (by rw [hflat]; exact mem_groupedBy.2 hf) hil 0
  have hcoords : g.jacobianCoords = (coordBlocks C (posIn g.localLayout) 0 (groups kind fs)).flatten := by
    rw [hg.localLayout]; exact hg.coords
  have hent : entries A' = ((coordBlocks C (posIn g.localLayout) 0 (groups kind fs)).flatten.zip
      ((groups kind fs).map (groupValues R)).flatten.flatten).map triple := by
    rw [heq, ← hcoords]
    exact zip_triple _ _
  have hmem := ho (r + o', posIn g.localLayout v + c, ((R f).getD i ⟨[], []⟩).at2 (C v.ty).localDim r c) (by
    rw [getD_lt _ hil, hiv]
    exact List.mem_flatMap.2 ⟨r, List.mem_range.2 hr, List.mem_map.2 ⟨c, List.mem_range.2 hc, rfl⟩⟩)
  rw [← hent] at hmem
  exact hne0 (hz _ hmem (by rw [hp']))

/-! ### Retraction -/

theorem foldlM_weaken {α β : Type} {step step' : β → α → Py β} (l : List α)
    (h : ∀ s x t, x ∈ l → step s x = .ok t → step' s x = .ok t) {s t : β} (hs : l.foldlM step s = .ok t) : l.foldlM step' s = .ok t := by
  induction l generalizing s with
  | nil => exact hs
  | cons x l ih =>
    rw [List.foldlM_cons] at hs ⊢
    obtain ⟨u, h1, h2⟩ := py_bind_eq_ok.1 hs
    rw [h s x u (by simp) h1, py_bind_ok]
    exact ih (fun s y t hy => h s y t (by simp [hy])) h2

/-- Whatever the length of the vector, a retraction that succeeds is the retraction by a vector of the right length. -/
theorem retract_resize {vars : List Var} {f : Var → List ℝ} {a : Assign ℝ} (h : Rep C vars false f a) {d : List ℝ} {b : Assign ℝ}
    (hb : a.manifoldRetract C ⟨d, Layout.make C vars true⟩ = .ok b) :
    ∃ d', d'.length = (Layout.make C vars true).dim ∧ a.manifoldRetract C ⟨d', Layout.make C vars true⟩ = .ok b := by
  set n := (Layout.make C vars true).dim with hn
  refine ⟨(d ++ List.replicate n 0).take n, by simp, ?_⟩
  set d' := (d ++ List.replicate n 0).take n with hd'
  have hlen : d'.length = n := by simp [hd']
  obtain ⟨e, he⟩ : ∃ e, Rep C vars true e ⟨d', Layout.make C vars true⟩ := exists_rep (a := ⟨d', Layout.make C vars true⟩) ⟨h.nodup, rfl, hlen⟩
  unfold Assign.manifoldRetract at hb ⊢
  simp only [py_bind_eq_ok] at hb ⊢
  obtain ⟨u1, h1, u2, h2, new, h3, h4⟩ := hb
  refine ⟨u1, h1, u2, h2, new, foldlM_weaken _ ?_ h3, h4⟩
  intro s t s' ht hs'
  rw [h.layout, make_getVariableTypes C h.nodup] at ht
  obtain ⟨as, bs, hg⟩ := List.append_of_mem ht
  have hidx := he.typeIndex hg
  have hcnt := h.typeCount ht
  have hrow := he.typeSlice hg
  unfold Assign.retractType at hs' ⊢
  have hidx' : (Layout.make C vars true).indexFromType.get t = _ := hidx
  simp only [hidx', hcnt, py_bind_ok, py_bind_eq_ok] at hs' ⊢
  obtain ⟨i, k1, vals, k2, deltas, k3, k4⟩ := hs'
  refine ⟨i, k1, vals, k2, deltas, ?_, k4⟩
  rw [← k3]
  congr 1
  set m := total (fun t => dimOf C true t * (ofType vars t).length) as with hm
  have hlr : (slice d' m ((C t).localDim * (ofType vars t).length)).length = (C t).localDim * (ofType vars t).length := by
    have := congrArg List.length hrow
    rw [he.len_ofType] at this
    exact this
  have hld : (slice d m ((C t).localDim * (ofType vars t).length)).length = (ofType vars t).length * (C t).localDim := by
    unfold reshape2 at k3
    split at k3
    · assumption
    · exact absurd k3 (by simp)
  unfold slice at hlr hld ⊢
  rw [List.length_take, List.length_drop] at hlr hld
  rcases Nat.eq_zero_or_pos ((C t).localDim * (ofType vars t).length) with h0 | h0
  · rw [h0, List.take_zero, List.take_zero]
  · rw [Nat.mul_comm (ofType vars t).length] at hld
    rw [hd', List.drop_take, List.take_take, List.drop_append_of_le_length (by omega), Nat.min_eq_left (by omega),
      List.take_append_of_le_length (by rw [List.length_drop]; omega)]

end

end Jaxfg
