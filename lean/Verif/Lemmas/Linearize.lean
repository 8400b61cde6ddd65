/- The Jacobian of a graph: closed form, product with a vector. -/
import Verif.Lemmas.Graph
import Verif.Lemmas.Sparse
import Verif.Props.Layout
import Mathlib.Data.List.GetD

namespace Jaxfg
open Spec

/-! ### Lists -/

theorem zip_flatMap {ι α β : Type _} {l : List ι} {f : ι → List α} {g : ι → List β}
    (h : ∀ x ∈ l, (f x).length = (g x).length) : (l.flatMap f).zip (l.flatMap g) = l.flatMap fun x => (f x).zip (g x) := by
  induction l with
  | nil => rfl
  | cons x l ih =>
    rw [List.flatMap_cons, List.flatMap_cons, List.flatMap_cons, List.zip_append (h x (by simp)),
      ih fun y hy => h y (by simp [hy])]

/-- Every index below a total lies in one element's block. -/
theorem exists_split_total {ι : Type _} (l : List ι) (dim : ι → Nat) (k : Nat) (hk : k < total dim l) :
    ∃ pre x post r, l = pre ++ x :: post ∧ r < dim x ∧ k = total dim pre + r := by
  induction l generalizing k with
  | nil => simp [total] at hk
  | cons y l ih =>
    rw [total_cons] at hk
    by_cases h : k < dim y
    · exact ⟨[], y, l, k, rfl, h, by simp [total]⟩
    · obtain ⟨pre, x, post, r, h1, h2, h3⟩ := ih (k - dim y) (by omega)
      exact ⟨y :: pre, x, post, r, by rw [h1]; rfl, h2, by rw [total_cons]; omega⟩

/-- The list `T` written at offset `o`, read at `k`. -/
noncomputable def placed (o : Nat) (T : List ℝ) (k : Nat) : ℝ := if o ≤ k then T.getD (k - o) 0 else 0

theorem placed_nil (o k : Nat) : placed o [] k = 0 := by simp [placed]

theorem placed_append (o : Nat) (T T' : List ℝ) (k : Nat) :
    placed o (T ++ T') k = placed o T k + placed (o + T.length) T' k := by
  unfold placed
  by_cases h : o ≤ k
  · by_cases h2 : o + T.length ≤ k
    · rw [if_pos h, if_pos h, if_pos h2, List.getD_append_right _ _ _ _ (by omega), List.getD_eq_default T _ (by omega), zero_add]
      congr 1; omega
    · rw [if_pos h, if_pos h, if_neg h2, List.getD_append _ _ _ _ (by omega), add_zero]
  · rw [if_neg h, if_neg h, if_neg (by omega), add_zero]

theorem placed_zero (T : List ℝ) (k : Nat) : placed 0 T k = T.getD k 0 := by simp [placed]

theorem placed_single (o : Nat) (u : ℝ) (k : Nat) : placed o [u] k = if k = o then u else 0 := by
  unfold placed
  by_cases h : k = o
  · simp [h]
  · by_cases h2 : o ≤ k
    · rw [if_pos h2, if_neg h, List.getD_eq_default _ _ (by simp; omega)]
    · rw [if_neg h2, if_neg h]

theorem placed_range (o rd : Nat) (U : Nat → ℝ) (k : Nat) :
    placed o ((List.range rd).map U) k = if o ≤ k ∧ k < o + rd then U (k - o) else 0 := by
  unfold placed
  by_cases h : o ≤ k
  · by_cases h2 : k < o + rd
    · rw [if_pos h, if_pos ⟨h, h2⟩, getD_lt _ (by simp; omega)]; simp
    · rw [if_pos h, if_neg (by omega), List.getD_eq_default _ _ (by simp; omega)]
  · rw [if_neg h, if_neg (by omega)]

/-- Placement of blocks is additive. -/
theorem placed_sum {β : Type _} (G : List β) (rd m : Nat) (U : Nat → β → Nat → ℝ) (o k : Nat) :
    ∑ i ∈ Finset.range m, placed o (G.flatMap fun f => (List.range rd).map (U i f)) k =
      placed o (G.flatMap fun f => (List.range rd).map fun r => ∑ i ∈ Finset.range m, U i f r) k := by
  induction G generalizing o with
  | nil => simp [placed_nil]
  | cons f G ih =>
    simp only [List.flatMap_cons, placed_append, Finset.sum_add_distrib, List.length_map, List.length_range, ih]
    congr 1
    simp only [placed_range]
    split_ifs <;> simp

/-! ### Row sums of entry lists -/

/-- Sum over the entries in row `k` of value times `x` at the column. -/
noncomputable def rowSum (x : List ℝ) (E : List (Nat × Nat × ℝ)) (k : Nat) : ℝ :=
  ((E.filter fun e => e.1 = k).map fun e => e.2.2 * x.getD e.2.1 0).sum

theorem rowSum_append (x : List ℝ) (E E' : List (Nat × Nat × ℝ)) (k : Nat) : rowSum x (E ++ E') k = rowSum x E k + rowSum x E' k := by
  simp [rowSum]

theorem rowSum_nil (x : List ℝ) (k : Nat) : rowSum x [] k = 0 := rfl

theorem rowSum_flatMap_range (x : List ℝ) (m : Nat) (E : Nat → List (Nat × Nat × ℝ)) (k : Nat) :
    rowSum x ((List.range m).flatMap E) k = ∑ i ∈ Finset.range m, rowSum x (E i) k := by
  induction m with
  | zero => rfl
  | succ m ih => rw [List.range_succ, List.flatMap_append, rowSum_append, ih, Finset.sum_range_succ]; simp

theorem rowSum_row (x : List ℝ) (ρ n : Nat) (col : Nat → Nat) (v : Nat → ℝ) (k : Nat) :
    rowSum x ((List.range n).map fun c => (ρ, col c, v c)) k =
      if k = ρ then ∑ c ∈ Finset.range n, v c * x.getD (col c) 0 else 0 := by
  induction n with
  | zero => simp [rowSum]
  | succ n ih =>
    rw [List.range_succ, List.map_append, rowSum_append, ih]
    by_cases h : k = ρ
    · simp [h, Finset.sum_range_succ, rowSum]
    · simp [h, rowSum, Ne.symm h]

/-- Entries of the block of one variable of one factor whose rows start at `o`. -/
noncomputable def blockEntries (C : Ty → VarClass ℝ) (lpos : Var → Nat) (rd o : Nat) (v : Var) (J : Arr ℝ) : List (Nat × Nat × ℝ) :=
  (List.range rd).flatMap fun r => (List.range (C v.ty).localDim).map fun c => (r + o, lpos v + c, J.at2 (C v.ty).localDim r c)

/-- Row `r` of `J` times the block of `x` of the variable `v`. -/
noncomputable def blockProd (C : Ty → VarClass ℝ) (lpos : Var → Nat) (x : List ℝ) (v : Var) (J : Arr ℝ) (r : Nat) : ℝ :=
  ∑ c ∈ Finset.range (C v.ty).localDim, J.at2 (C v.ty).localDim r c * x.getD (lpos v + c) 0

theorem rowSum_block (C : Ty → VarClass ℝ) (lpos : Var → Nat) (rd o : Nat) (v : Var) (J : Arr ℝ) (x : List ℝ) (k : Nat) :
    rowSum x (blockEntries C lpos rd o v J) k = placed o ((List.range rd).map (blockProd C lpos x v J)) k := by
  unfold blockEntries
  induction rd with
  | zero => simp [rowSum, placed]
  | succ rd ih =>
    rw [List.range_succ, List.flatMap_append, rowSum_append, ih, List.map_append, placed_append]
    congr 1
    simp only [List.flatMap_cons, List.flatMap_nil, List.append_nil, List.map_cons, List.map_nil, List.length_map, List.length_range]
    rw [rowSum_row, placed_single, Nat.add_comm rd o]
    rfl

/-! ### Closed form of the coordinates -/

section
variable {F : Nat → FactorClass} {C : Ty → VarClass ℝ}

/-- A matrix array is the list of its rows. -/
theorem isMat_data {J : Arr ℝ} {m n : Nat} (h : IsMat J m n) :
    J.data = (List.range m).flatMap fun r => (List.range n).map fun c => J.at2 n r c := by
  have : J = Arr.of2 m n fun r c => J.at2 n r c := by
    refine isMat_ext h (isMat_of2 _ _ _) ?_
    rw [arrMat_of2]; rfl
  exact congrArg Arr.data this

/-- Coordinates of one variable position of a group. -/
def posCoords (C : Ty → VarClass ℝ) (lpos : Var → Nat) (rd i : Nat) : Nat → List Factor → List (Nat × Nat)
  | _, [] => []
  | o, f :: G => ((List.range rd).flatMap fun r => (localIdx C lpos i f).map fun c => (r + o, c)) ++ posCoords C lpos rd i (o + rd) G

theorem posCoords_eq (C : Ty → VarClass ℝ) (lpos : Var → Nat) (rd i o : Nat) (G : List Factor) :
    ((List.range G.length).flatMap fun n => (List.range rd).flatMap fun r =>
      ((G.map (localIdx C lpos i)).getD n []).map fun c => (n * rd + r + o, c)) = posCoords C lpos rd i o G := by
  induction G generalizing o with
  | nil => rfl
  | cons f G ih =>
    rw [List.length_cons, List.range_succ_eq_map, List.flatMap_cons, posCoords]
    congr 1
    · simp
    · rw [← ih (o + rd), List.flatMap_map]
      apply List.flatMap_congr
      intro n _
      apply List.flatMap_congr
      intro r _
      simp only [List.map_cons, List.getD_cons_succ, Nat.succ_eq_add_one]
      apply List.map_congr_left
      intro c _
      rw [Prod.mk.injEq]
      refine ⟨?_, rfl⟩
      rw [Nat.succ_mul]
      omega

theorem groupCoords_eq (lpos : Var → Nat) (o : Nat) (G : List Factor) :
    groupCoords C lpos o G = (List.range (gVars G)).map fun i => posCoords C lpos (gRdim G) i o G := by
  unfold groupCoords
  apply List.map_congr_left
  intro i _
  exact posCoords_eq _ _ _ _ _ _

theorem length_posCoords {lpos : Var → Nat} {rd i o : Nat} {G : List Factor} :
    (posCoords C lpos rd i o G).length = total (fun f => rd * (localIdx C lpos i f).length) G := by
  induction G generalizing o with
  | nil => rfl
  | cons f G ih =>
    rw [posCoords, List.length_append, ih, total_cons]
    congr 1
    rw [flatMap_const_length _ _ (localIdx C lpos i f).length (by simp)]
    simp

/-- Whitened Jacobians `R f` of the factors have the right shapes. -/
def JacOK (C : Ty → VarClass ℝ) (R : Factor → List (Arr ℝ)) (f : Factor) : Prop :=
  List.Forall₂ (fun v J => IsMat J (rdim f) (C v.ty).localDim) f.vars (R f)

theorem JacOK.length {R : Factor → List (Arr ℝ)} {f : Factor} (h : JacOK C R f) : (R f).length = f.vars.length := h.length_eq.symm

theorem JacOK.get {R : Factor → List (Arr ℝ)} {f : Factor} (h : JacOK C R f) {i : Nat} (hi : i < f.vars.length) :
    IsMat ((R f).getD i ⟨[], []⟩) (rdim f) (C f.vars[i].ty).localDim := by
  have hi' : i < (R f).length := by rw [h.length]; exact hi
  rw [getD_lt _ hi']
  exact (List.forall₂_iff_get.1 h).2 i hi hi'

theorem localIdx_eq {lpos : Var → Nat} {f : Factor} {i : Nat} (hi : i < f.vars.length) :
    localIdx C lpos i f = (List.range (C f.vars[i].ty).localDim).map fun c => lpos f.vars[i] + c := by
  unfold localIdx
  rw [getD_lt _ (by simpa using hi), List.getElem_map, List.range'_eq_map_range]

/-- Number of values equals number of coordinates, for one position of a group. -/
theorem length_posValues {lpos : Var → Nat} {R : Factor → List (Arr ℝ)} {G : List Factor} {rd i o : Nat}
    (hR : ∀ f ∈ G, JacOK C R f) (hrd : ∀ f ∈ G, rdim f = rd) (hi : ∀ f ∈ G, i < f.vars.length) :
    (posCoords C lpos rd i o G).length = (G.flatMap fun f => ((R f).getD i ⟨[], []⟩).data).length := by
  rw [length_posCoords]
  symm
  apply length_flatMap_blocks
  intro f hf
  rw [((hR f hf).get (hi f hf)).2, hrd f hf, localIdx_eq (hi f hf)]
  simp

/-- The triple (row, column, value) of a coordinate and a value. -/
def triple (p : (Nat × Nat) × ℝ) : Nat × Nat × ℝ := (p.1.1, p.1.2, p.2)

theorem zip_factor {lpos : Var → Nat} {f : Factor} {R : Factor → List (Arr ℝ)} (hR : JacOK C R f) {i : Nat}
    (hi : i < f.vars.length) (o : Nat) :
    (((List.range (rdim f)).flatMap fun r => (localIdx C lpos i f).map fun c => (r + o, c)).zip
      ((R f).getD i ⟨[], []⟩).data).map triple =
      blockEntries C lpos (rdim f) o f.vars[i] ((R f).getD i ⟨[], []⟩) := by
  rw [isMat_data (hR.get hi), localIdx_eq hi, zip_flatMap (by simp), List.map_flatMap]
  unfold blockEntries
  apply List.flatMap_congr
  intro r _
  rw [List.map_map, List.zip_map', List.map_map]
  rfl

/-- Row sums of one position of a group. -/
theorem rowSum_pos {lpos : Var → Nat} {R : Factor → List (Arr ℝ)} {G : List Factor} {rd i : Nat}
    (hR : ∀ f ∈ G, JacOK C R f) (hrd : ∀ f ∈ G, rdim f = rd) (hi : ∀ f ∈ G, i < f.vars.length) (x : List ℝ) (o k : Nat) :
    rowSum x (((posCoords C lpos rd i o G).zip (G.flatMap fun f => ((R f).getD i ⟨[], []⟩).data)).map triple) k =
      placed o (G.flatMap fun f => (List.range rd).map fun r =>
        blockProd C lpos x (f.vars.getD i ⟨0, 0⟩) ((R f).getD i ⟨[], []⟩) r) k := by
  induction G generalizing o with
  | nil => simp [rowSum, posCoords, placed]
  | cons f G ih =>
    have hf := hR f (by simp)
    have hif := hi f (by simp)
    have hrf := hrd f (by simp)
    rw [posCoords, List.flatMap_cons, List.flatMap_cons, List.zip_append, List.map_append, rowSum_append, placed_append,
      ih (fun g hg => hR g (by simp [hg])) (fun g hg => hrd g (by simp [hg])) (fun g hg => hi g (by simp [hg]))]
    · congr 1
      · rw [← hrf, zip_factor hf hif, rowSum_block, getD_lt _ hif]
      · simp
    · rw [(hf.get hif).2, localIdx_eq hif, flatMap_const_length _ _ (C f.vars[i].ty).localDim (by simp), hrf]
      simp

/-- The product of the factor's whitened Jacobians with `x`. -/
noncomputable def facProd (C : Ty → VarClass ℝ) (lpos : Var → Nat) (R : Factor → List (Arr ℝ)) (x : List ℝ) (f : Factor) : List ℝ :=
  (List.range (rdim f)).map fun r => ∑ i ∈ Finset.range f.vars.length,
    blockProd C lpos x (f.vars.getD i ⟨0, 0⟩) ((R f).getD i ⟨[], []⟩) r

theorem length_facProd {lpos : Var → Nat} {R : Factor → List (Arr ℝ)} {x : List ℝ} {f : Factor} :
    (facProd C lpos R x f).length = rdim f := by simp [facProd]

/-- Values of a group, one list per variable position. -/
def groupValues (R : Factor → List (Arr ℝ)) (G : List Factor) : List (List ℝ) :=
  (List.range (gVars G)).map fun i => G.flatMap fun f => ((R f).getD i ⟨[], []⟩).data

theorem rowSum_group {lpos : Var → Nat} {R : Factor → List (Arr ℝ)} {G : List Factor} (hG : IsGroup F C G)
    (hR : ∀ f ∈ G, JacOK C R f) (x : List ℝ) (o k : Nat) :
    rowSum x (((groupCoords C lpos o G).flatten.zip (groupValues R G).flatten).map triple) k =
      placed o (G.flatMap (facProd C lpos R x)) k := by
  rw [groupCoords_eq, groupValues, ← List.flatMap_def, ← List.flatMap_def, zip_flatMap, List.map_flatMap, rowSum_flatMap_range]
  · have : ∀ i ∈ Finset.range (gVars G),
        rowSum x (((posCoords C lpos (gRdim G) i o G).zip (G.flatMap fun f => ((R f).getD i ⟨[], []⟩).data)).map triple) k =
        placed o (G.flatMap fun f => (List.range (gRdim G)).map fun r =>
        blockProd C lpos x (f.vars.getD i ⟨0, 0⟩) ((R f).getD i ⟨[], []⟩) r) k := by
      intro i hi
      apply rowSum_pos hR (fun f hf => (gRdim_eq hG hf).symm)
      intro f hf
      rw [← gVars_eq hG hf]
      exact Finset.mem_range.1 hi
    rw [Finset.sum_congr rfl this, placed_sum]
    congr 1
    apply List.flatMap_congr
    intro f hf
    unfold facProd
    rw [gRdim_eq hG hf, gVars_eq hG hf]
  · intro i hi
    apply length_posValues hR (fun f hf => (gRdim_eq hG hf).symm)
    intro f hf
    rw [← gVars_eq hG hf]
    exact List.mem_range.1 hi

/-- Coordinates and values of a group have one length. -/
theorem length_group {lpos : Var → Nat} {R : Factor → List (Arr ℝ)} {G : List Factor} (hG : IsGroup F C G)
    (hR : ∀ f ∈ G, JacOK C R f) (o : Nat) : (groupCoords C lpos o G).flatten.length = (groupValues R G).flatten.length := by
  rw [groupCoords_eq, groupValues, List.length_flatten, List.length_flatten, List.map_map, List.map_map]
  congr 1
  apply List.map_congr_left
  intro i hi
  apply length_posValues hR (fun f hf => (gRdim_eq hG hf).symm)
  intro f hf
  rw [← gVars_eq hG hf]
  exact List.mem_range.1 hi

/-- Row sums of a whole graph. -/
theorem rowSum_groups {lpos : Var → Nat} {R : Factor → List (Arr ℝ)} {Gs : List (List Factor)} (hG : ∀ G ∈ Gs, IsGroup F C G)
    (hR : ∀ G ∈ Gs, ∀ f ∈ G, JacOK C R f) (x : List ℝ) (o k : Nat) :
    (coordBlocks C lpos o Gs).flatten.length = ((Gs.map (groupValues R)).flatten).flatten.length ∧
    rowSum x (((coordBlocks C lpos o Gs).flatten.zip ((Gs.map (groupValues R)).flatten).flatten).map triple) k =
      placed o (Gs.flatten.flatMap (facProd C lpos R x)) k := by
  induction Gs generalizing o with
  | nil => simp [coordBlocks, rowSum, placed]
  | cons G Gs ih =>
    have h1 := length_group (lpos := lpos) (hG G (by simp)) (hR G (by simp)) o
    obtain ⟨ih1, ih2⟩ := ih (fun H h => hG H (by simp [h])) (fun H h => hR H (by simp [h])) (o + total rdim G)
    constructor
    · simp only [coordBlocks, List.flatten_append, List.map_cons, List.flatten_cons, List.length_append, h1, ih1]
    · simp only [coordBlocks, List.flatten_append, List.map_cons, List.flatten_cons, List.flatMap_append]
      rw [List.zip_append h1, List.map_append, rowSum_append, rowSum_group (hG G (by simp)) (hR G (by simp)), placed_append, ih2]
      congr 2
      rw [length_flatMap_blocks fun f _ => length_facProd]

/-! ### Evaluation of the Jacobian -/

/-- What a stack contributes. -/
theorem linearizeStack_ok {G : List Factor} (hG : IsGroup F C G) {layout : Layout} {pos : Var → Nat} {s : FactorStack}
    (hs : StackOf C layout pos G s) {a : Assign ℝ} (ha : a.layout.eq layout = true) {val : Var → Value ℝ}
    (hval : ∀ f ∈ G, ∀ v ∈ f.vars,
      (C v.ty).unflatten (gather a.storage (List.range' (pos v) (C v.ty).paramDim)) = .ok (val v))
    {ρ : Factor → List ℝ} {R : Factor → List (Arr ℝ)} (hρ : ∀ f ∈ G, (ρ f).length = rdim f)
    (hJ : ∀ f ∈ G, ((F f.cls).jacobians f.self (f.vars.map val)).length = f.vars.length)
    (hR : ∀ f ∈ G, ((F f.cls).jacobians f.self (f.vars.map val)).mapM (fun J => f.noise.whitenJacobian J (ρ f)) = .ok (R f))
    {residual : List ℝ} {acc : List (List ℝ) × Nat} (hr : slice residual acc.2 (total rdim G) = G.flatMap ρ) :
    Graph.linearizeStack F C a residual acc s = .ok (acc.1 ++ groupValues R G, acc.2 + total rdim G) := by
  obtain ⟨f₀, G', hGeq⟩ := List.exists_cons_of_ne_nil hG.ne
  have h₀ : f₀ ∈ G := by rw [hGeq]; simp
  have hfrd := hs.rdim f₀ h₀
  have hrd : s.residualDim = .ok (total rdim G) := by
    unfold FactorStack.residualDim
    rw [hfrd, hs.num, total_rdim hG, gRdim_eq hG h₀, Nat.mul_comm]
    rfl
  have hre : reshape2 (G.flatMap ρ) G.length (rdim f₀) = .ok (G.map ρ) := by
    rw [List.flatMap_def]
    apply reshape2_flatten (by simp)
    intro r hr
    obtain ⟨f, hf, rfl⟩ := List.mem_map.1 hr
    rw [hρ f hf]
    exact kind_rdim (hG.same f hf f₀ h₀)
  have hjac : s.computeResidualJacobian F C a = .ok ((List.range (gVars G)).map fun i =>
      G.map fun f => ((F f.cls).jacobians f.self (f.vars.map val)).getD i ⟨[], []⟩) := by
    unfold FactorStack.computeResidualJacobian
    rw [arguments_ok hG hs ha hval]
    simp only [py_bind_ok, py_pure, List.map_map]
    have hrows : (G.map ((fun p : FactorSelf × List (Value ℝ) => (F s.cls).jacobians p.1 p.2) ∘ fun f => (f.self, f.vars.map val))) =
        G.map fun f => (F f.cls).jacobians f.self (f.vars.map val) := by
      apply List.map_congr_left
      intro f hf
      simp only [Function.comp, hs.cls f hf]
    rw [hrows]
    have hlen : ((G.map fun f => (F f.cls).jacobians f.self (f.vars.map val)).getD 0 []).length = gVars G := by
      rw [gVars_eq hG h₀, hGeq]
      simp only [List.map_cons, List.getD_cons_zero]
      exact hJ f₀ h₀
    rw [hlen]
    congr 1
    apply List.map_congr_left
    intro i _
    simp
    intro f hf
    rw [hs.cls f hf]
  unfold Graph.linearizeStack
  simp only [hrd, hfrd, py_bind_ok, hr, hs.num, hre, hjac, py_pure]
  rw [List.mapM_map, mapM_ok (g := fun i => G.flatMap fun f => ((R f).getD i ⟨[], []⟩).data)]
  · rfl
  · intro i hi
    rw [Function.comp]
    have hi' := List.mem_range.1 hi
    have hzip : (G.map fun f => ((F f.cls).jacobians f.self (f.vars.map val)).getD i ⟨[], []⟩).zip (G.map ρ) =
        G.map fun f => (((F f.cls).jacobians f.self (f.vars.map val)).getD i ⟨[], []⟩, ρ f) := by
      rw [List.zip_map']
    rw [hzip, mapM_range_zip (g := fun f => (R f).getD i ⟨[], []⟩)]
    · simp [List.flatMap_map]
    · intro n hn
      rw [hs.self n hn]
      have hm := List.getElem_mem hn
      have hi1 : i < ((F G[n].cls).jacobians G[n].self (G[n].vars.map val)).length := by
        rw [hJ _ hm, ← gVars_eq hG hm]; exact hi'
      have h2 := forall₂_of_mapM_ok (hR _ hm)
      have hi2 : i < (R G[n]).length := by rw [← h2.length_eq]; exact hi1
      have := (List.forall₂_iff_get.1 h2).2 i hi1 hi2
      simp only [py_bind_ok]
      rw [getD_lt _ hi1, getD_lt _ hi2]
      exact this

theorem linearizeStacks_ok {vars : List Var} {Gs : List (List Factor)} (hGs : GroupsOver F C vars Gs)
    {ss : List FactorStack}
    (hss : List.Forall₂ (StackOf C (Layout.make C vars false) (posIn (Layout.make C vars false))) Gs ss)
    {a : Assign ℝ} {val : Var → Value ℝ} (hview : View C vars val a)
    {ρ : Factor → List ℝ} {R : Factor → List (Arr ℝ)} (hρ : ∀ G ∈ Gs, ∀ f ∈ G, (ρ f).length = rdim f)
    (hJ : ∀ G ∈ Gs, ∀ f ∈ G, ((F f.cls).jacobians f.self (f.vars.map val)).length = f.vars.length)
    (hR : ∀ G ∈ Gs, ∀ f ∈ G,
      ((F f.cls).jacobians f.self (f.vars.map val)).mapM (fun J => f.noise.whitenJacobian J (ρ f)) = .ok (R f))
    {pre : List ℝ} (acc : List (List ℝ) × Nat) (hacc : acc.2 = pre.length) :
    ss.foldlM (Graph.linearizeStack F C a (pre ++ Gs.flatten.flatMap ρ)) acc =
      .ok (acc.1 ++ (Gs.map (groupValues R)).flatten, acc.2 + total rdim Gs.flatten) := by
  induction hss generalizing pre acc with
  | nil => simp
  | @cons G s Gs ss hs hss ih =>
    have hG := hGs.group G (by simp)
    have hlen : (G.flatMap ρ).length = total rdim G := length_flatMap_blocks (hρ G (by simp))
    rw [List.foldlM_cons, linearizeStack_ok hG hs hview.layout (val := val)
      (fun f hf v hv => hview.read v (hGs.mem G (by simp) f hf v hv)) (hρ G (by simp)) (hJ G (by simp)) (hR G (by simp))]
    · rw [py_bind_ok]
      have hrest : pre ++ (G :: Gs).flatten.flatMap ρ = (pre ++ G.flatMap ρ) ++ Gs.flatten.flatMap ρ := by simp
      rw [hrest, ih ⟨fun H h => hGs.group H (by simp [h]), fun H h => hGs.mem H (by simp [h])⟩
        (fun H h => hρ H (by simp [h])) (fun H h => hJ H (by simp [h])) (fun H h => hR H (by simp [h]))]
      · simp [Nat.add_assoc]
      · simp [hacc, hlen]
    · rw [List.flatten_cons, List.flatMap_append, ← List.append_assoc]
      exact slice_append_middle' hacc hlen.symm

end

/-! ### The Jacobian of a graph -/

section
variable {F : Nat → FactorClass} {C : Ty → VarClass ℝ}

/-- Whitening the Jacobians of a well-formed factor succeeds. -/
theorem whitenedJacobians_ok {f : Factor} (hf : FactorWF F C f) {vals : List (Value ℝ)} (hv : ValuesFor C f.vars vals)
    {r : List ℝ} (hr : r.length = rdim f) :
    ∃ R, ((F f.cls).jacobians f.self vals).mapM (fun J => f.noise.whitenJacobian J r) = .ok R ∧
      List.Forall₂ (fun v J => IsMat J (rdim f) (C v.ty).localDim) f.vars R := by
  have h := hf.jacobians vals hv
  generalize f.vars = vs at h
  generalize (F f.cls).jacobians f.self vals = Js at h
  induction h with
  | nil => exact ⟨[], rfl, .nil⟩
  | @cons v J vs Js hJ _ ih =>
    obtain ⟨Rs, h1, h2⟩ := ih
    obtain ⟨R, h3, h4⟩ := whitenJacobian_ok hf.noise hJ hr
    exact ⟨R :: Rs, by rw [List.mapM_cons, h3, py_bind_ok, h1]; rfl, .cons h4 h2⟩

/-- Block positions of a layout over distinct variables. -/
theorem posIn_lt {vars : List Var} (hn : vars.Nodup) {loc : Bool} {v : Var} (hv : v ∈ vars) :
    posIn (Layout.make C vars loc) v + dimOf C loc v.ty ≤ (Layout.make C vars loc).dim := by
  obtain ⟨i, h1, h2⟩ := (Props.C01_blocks_tile C vars hn loc).1 v hv
  rw [posIn, h1]
  exact h2

theorem posIn_unique {vars : List Var} (hn : vars.Nodup) {loc : Bool} {v w : Var} (hv : v ∈ vars) (hw : w ∈ vars) {k : Nat}
    (h1 : posIn (Layout.make C vars loc) v ≤ k) (h2 : k < posIn (Layout.make C vars loc) v + dimOf C loc v.ty)
    (h3 : posIn (Layout.make C vars loc) w ≤ k) (h4 : k < posIn (Layout.make C vars loc) w + dimOf C loc w.ty) : v = w := by
  have ht := (Props.C01_blocks_tile C vars hn loc).2.2.1 k (lt_of_lt_of_le h2 (posIn_lt hn hv))
  exact ht.unique ⟨hv, _, posIn_spec hn hv, h1, h2⟩ ⟨hw, _, posIn_spec hn hw, h3, h4⟩

/-- Sum over the entries, of the coordinates alone. -/
theorem rowSum_count (x : List ℝ) (c : Nat) (hx : ∀ j, x.getD j 0 = if j = c then 1 else 0) (k : Nat) (coords : List (Nat × Nat))
    (vals : List ℝ) (hl : coords.length = vals.length) (hv : ∀ y ∈ vals, y = 1) :
    rowSum x ((coords.zip vals).map triple) k = (coords.count (k, c) : ℝ) := by
  induction coords generalizing vals with
  | nil => simp [rowSum]
  | cons p coords ih =>
    obtain ⟨y, vals, rfl⟩ := List.exists_cons_of_ne_nil (l := vals) (by rintro rfl; simp at hl)
    have hy : y = 1 := hv y (by simp)
    have := rowSum_append x [triple (p, y)] ((coords.zip vals).map triple) k
    rw [List.zip_cons_cons, List.map_cons, ← List.singleton_append, this,
      ih vals (by simpa using hl) (fun z hz => hv z (by simp [hz])), List.count_cons]
    subst hy
    obtain ⟨r, j⟩ := p
    have hxj := hx j
    simp only [rowSum, triple, List.filter_cons, List.filter_nil]
    by_cases h1 : r = k
    · by_cases h2 : j = c
      · subst h1; subst h2
        rw [if_pos rfl] at hxj
        simp only [decide_true, if_true, List.map_cons, List.map_nil, List.sum_cons, List.sum_nil, hxj, beq_self_eq_true,
          Nat.cast_add, Nat.cast_one]
        ring
      · rw [if_neg h2] at hxj
        simp only [h1, decide_true, if_true, List.map_cons, List.map_nil, List.sum_cons, List.sum_nil, hxj]
        simp [h2]
    · simp [h1]

/-- How often coordinate `(k, c)` occurs. -/
theorem count_coords {lpos : Var → Nat} {Gs : List (List Factor)} (hG : ∀ G ∈ Gs, IsGroup F C G) (o k c : Nat) :
    (((coordBlocks C lpos o Gs).flatten.count (k, c) : Nat) : ℝ) =
      placed o (Gs.flatten.flatMap fun f => List.replicate (rdim f)
        ((f.vars.countP fun v => lpos v ≤ c ∧ c < lpos v + (C v.ty).localDim : Nat) : ℝ)) k := by
  set R : Factor → List (Arr ℝ) := fun f => f.vars.map fun v => .of2 (rdim f) (C v.ty).localDim fun _ _ => 1 with hR
  set x : List ℝ := (List.range (c + 1)).map fun j => if j = c then 1 else 0 with hx
  have hRok : ∀ f, JacOK C R f := by
    intro f
    unfold JacOK
    rw [hR, List.forall₂_map_right_iff, List.forall₂_same]
    intro v _
    exact isMat_of2 _ _ _
  have hxd : ∀ j, x.getD j 0 = if j = c then 1 else 0 := by
    intro j
    by_cases hj : j < c + 1
    · rw [getD_lt _ (by simpa [hx] using hj)]; simp [hx]
    · rw [List.getD_eq_default _ _ (by simp [hx]; omega), if_neg (by omega)]
  obtain ⟨h1, h2⟩ := rowSum_groups (lpos := lpos) hG (R := R) (fun _ _ f _ => hRok f) x o k
  rw [rowSum_count x c hxd k _ _ h1] at h2
  · rw [h2]
    congr 1
    apply List.flatMap_congr
    intro f _
    unfold facProd
    rw [show List.replicate (rdim f) ((f.vars.countP fun v => lpos v ≤ c ∧ c < lpos v + (C v.ty).localDim : Nat) : ℝ) = (List.range (rdim f)).map fun _ => ((f.vars.countP fun v => lpos v ≤ c ∧ c < lpos v + (C v.ty).localDim : Nat) : ℝ) by simp]
    apply List.map_congr_left
    intro r hr
    have hr' := List.mem_range.1 hr
    have key : ∀ (vs : List Var) , (∑ i ∈ Finset.range vs.length, blockProd C lpos x (vs.getD i ⟨0, 0⟩)
        ((vs.map fun v => Arr.of2 (rdim f) (C v.ty).localDim fun _ _ => 1).getD i ⟨[], []⟩) r) =
        ((vs.countP fun v => lpos v ≤ c ∧ c < lpos v + (C v.ty).localDim : Nat) : ℝ) := by
      intro vs
      induction vs with
      | nil => simp
      | cons v vs ih =>
        rw [List.length_cons, Finset.sum_range_succ', List.countP_cons]
        simp only [List.getD_cons_succ, List.map_cons, List.getD_cons_zero, ih]
        rw [Nat.cast_add]
        congr 1
        unfold blockProd
        have : ∀ j ∈ Finset.range (C v.ty).localDim,
            (Arr.of2 (rdim f) (C v.ty).localDim fun _ _ => (1 : ℝ)).at2 (C v.ty).localDim r j * x.getD (lpos v + j) 0 =
            if lpos v + j = c then 1 else 0 := by
          intro j hj
          rw [hxd, at2_of2 _ _ _ hr' (Finset.mem_range.1 hj), one_mul]
        rw [Finset.sum_congr rfl this]
        by_cases hc : lpos v ≤ c ∧ c < lpos v + (C v.ty).localDim
        · rw [Finset.sum_eq_single (c - lpos v)]
          · rw [if_pos (by omega)]; simp [hc]
          · intro j _ hj
            rw [if_neg (by omega)]
          · intro hj
            exact absurd (Finset.mem_range.2 (by omega)) hj
        · rw [Finset.sum_eq_zero]
          · simp only [decide_eq_true_eq, hc, if_false, Nat.cast_zero]
          · intro j hj
            have := Finset.mem_range.1 hj
            rw [if_neg (by omega)]
    exact key f.vars
  · intro y hy
    simp only [List.mem_flatten, List.mem_map, groupValues] at hy
    obtain ⟨l, ⟨l', ⟨G, hG', rfl⟩, hl⟩, hy⟩ := hy
    obtain ⟨i, hi, rfl⟩ := List.mem_map.1 hl
    obtain ⟨f, hf, hy⟩ := List.mem_flatMap.1 hy
    have hi' : i < f.vars.length := by
      rw [← gVars_eq (hG G hG') hf]; exact List.mem_range.1 hi
    rw [hR, getD_lt _ (by simpa using hi'), List.getElem_map] at hy
    simp [Arr.of2] at hy
    exact hy.2.2

/-- The coordinates of a graph are in range, and each occurs as often as its variable is listed by its factor. -/
structure CoordsOf (C : Ty → VarClass ℝ) (fs : List Factor) (g : Graph) : Prop where
  row : ∀ p ∈ g.jacobianCoords, p.1 < g.residualDim
  col : ∀ p ∈ g.jacobianCoords, p.2 < g.localLayout.dim
  count : ∀ pre f post, evalOrder fs = pre ++ f :: post → ∀ r < rdim f, ∀ v ∈ Graph.variablesOf fs, ∀ c < (C v.ty).localDim,
    g.jacobianCoords.count (total rdim pre + r, posIn g.localLayout v + c) = f.vars.count v

theorem mem_variablesOf {fs : List Factor} {f : Factor} (hf : f ∈ fs) {v : Var} (hv : v ∈ f.vars) : v ∈ Graph.variablesOf fs :=
  ((variablesOf_spec fs).2 v).2 ⟨f, hf, hv⟩

theorem coordsOf {fs : List Factor} {g : Graph} (hg : GraphOf F C fs g) : CoordsOf C fs g := by
  have hnd := (variablesOf_spec fs).1
  have hcount := fun k c => count_coords (C := C) (lpos := posIn g.localLayout) hg.groups.group 0 k c
  have hcoords : g.jacobianCoords = (coordBlocks C (posIn g.localLayout) 0 (groups kind fs)).flatten := by
    rw [hg.localLayout]; exact hg.coords
  rw [← hcoords] at hcount
  simp only [placed_zero] at hcount
  have hflat : (groups kind fs).flatten = evalOrder fs := by rw [evalOrder, groupedBy_eq]
  rw [hflat] at hcount
  set T : Nat → List ℝ := fun c => (evalOrder fs).flatMap fun f => List.replicate (rdim f)
        ((f.vars.countP fun v => posIn g.localLayout v ≤ c ∧ c < posIn g.localLayout v + (C v.ty).localDim : Nat) : ℝ) with hT
  have hTlen : ∀ c, (T c).length = g.residualDim := by
    intro c
    rw [hg.residualDim]
    exact length_flatMap_blocks fun f _ => by simp
  have hpos : ∀ p ∈ g.jacobianCoords, p.1 < g.residualDim ∧ p.2 < g.localLayout.dim := by
    rintro ⟨k, c⟩ hp
    have h1 : 0 < g.jacobianCoords.count (k, c) := List.count_pos_iff.2 hp
    have h2 : (T c).getD k 0 ≠ 0 := by
      rw [← hcount]; exact_mod_cast h1.ne'
    have hk : k < (T c).length := by
      by_contra h
      exact h2 (List.getD_eq_default _ _ (by omega))
    refine ⟨by rw [← hTlen c]; exact hk, ?_⟩
    rw [getD_lt _ hk] at h2
    have hm := List.getElem_mem hk
    obtain ⟨f, hf, hm⟩ := List.mem_flatMap.1 hm
    have he := (List.mem_replicate.1 hm).2
    rw [he] at h2
    have h3 : 0 < f.vars.countP fun v => posIn g.localLayout v ≤ c ∧ c < posIn g.localLayout v + (C v.ty).localDim :=
      Nat.pos_of_ne_zero (by exact_mod_cast h2)
    obtain ⟨v, hv, h4⟩ := List.countP_pos_iff.1 h3
    have h5 := posIn_lt (C := C) hnd (loc := true) (mem_variablesOf (mem_groupedBy.1 hf) hv)
    rw [← hg.localLayout] at h5
    exact lt_of_lt_of_le (of_decide_eq_true h4).2 h5
  refine ⟨fun p hp => (hpos p hp).1, fun p hp => (hpos p hp).2, ?_⟩
  intro pre f post heval r hr v hv c hc
  have h1 := hcount (total rdim pre + r) (posIn g.localLayout v + c)
  rw [← placed_zero, heval, List.flatMap_append, List.flatMap_cons, placed_append, placed_append,
    length_flatMap_blocks (dim := rdim) (fun f _ => by simp)] at h1
  have e1 : ∀ T : List ℝ, T.length = total rdim pre → placed 0 T (total rdim pre + r) = 0 := by
    intro T hT
    rw [placed_zero, List.getD_eq_default _ _ (by omega)]
  have e3 : ∀ T : List ℝ, placed (0 + total rdim pre + rdim f) T (total rdim pre + r) = 0 := by
    intro T
    rw [placed, if_neg (by omega)]
  rw [e1 _ (length_flatMap_blocks fun f _ => by simp), List.length_replicate, e3, zero_add, add_zero, placed, if_pos (by omega),
    getD_lt _ (by simp; omega), List.getElem_replicate] at h1
  have h2 : (f.vars.countP fun w => posIn g.localLayout w ≤ posIn g.localLayout v + c ∧
      posIn g.localLayout v + c < posIn g.localLayout w + (C w.ty).localDim) = f.vars.count v := by
    rw [List.count_eq_countP]
    apply List.countP_congr
    intro w hw
    have hfm : f ∈ fs := mem_groupedBy.1 (show f ∈ evalOrder fs by rw [heval]; simp)
    simp only [decide_eq_true_eq, beq_iff_eq]
    constructor
    · intro h
      rw [hg.localLayout] at h
      exact posIn_unique hnd (loc := true) (mem_variablesOf hfm hw) hv h.1 h.2 (by omega)
        (by simp only [dimOf, if_true]; omega)
    · rintro rfl; omega
  rw [h2] at h1
  exact_mod_cast h1

/-- The Jacobian of a graph as an explicit list of entries, and its product with vectors. -/
theorem jacobian_explicit (hC : GoodClasses C) {fs : List Factor} (hfs : ∀ f ∈ fs, FactorWF F C f) (hne : fs ≠ []) {g : Graph}
    (hg : GraphOf F C fs g) {vars : List Var} {val : Var → Value ℝ} {a : Assign ℝ} (h : Holds C fs vars val a)
    {ρ : Factor → List ℝ} (hρ : ∀ f ∈ fs, (ρ f).length = rdim f) {R : Factor → List (Arr ℝ)}
    (hR : ∀ f ∈ fs, ((F f.cls).jacobians f.self (f.vars.map val)).mapM (fun J => f.noise.whitenJacobian J (ρ f)) = .ok (R f)) :
    ∃ A, g.computeWhitenedResidualJacobian F C a ((evalOrder fs).flatMap ρ) = .ok A ∧
      A = ⟨((groups kind fs).map (groupValues R)).flatten.flatten, g.jacobianCoords.map (·.1), g.jacobianCoords.map (·.2),
        (g.residualDim, g.localLayout.dim)⟩ ∧ CooWF A ∧
      A.shape = (g.residualDim, g.localLayout.dim) ∧ A.rows.zip A.cols = g.jacobianCoords ∧
      A.values.length = g.jacobianCoords.length ∧
      ∀ x : List ℝ, x.length = g.localLayout.dim →
        A.matmul x = .ok ((evalOrder fs).flatMap (facProd C (posIn g.localLayout) R x)) := by
  have hflat : (groups kind fs).flatten = evalOrder fs := by rw [evalOrder, groupedBy_eq]
  have hmem : ∀ G ∈ groups kind fs, ∀ f ∈ G, f ∈ fs := fun G hG f hf => mem_groups_mem hG f hf
  have hvals : ∀ f ∈ fs, ValuesFor C f.vars (f.vars.map val) := fun f hf => h.valuesFor hC hf
  have hJ : ∀ f ∈ fs, ((F f.cls).jacobians f.self (f.vars.map val)).length = f.vars.length := fun f hf =>
    ((hfs f hf).jacobians _ (hvals f hf)).length_eq.symm
  have hRok : ∀ f ∈ fs, JacOK C R f := by
    intro f hf
    obtain ⟨R', h1, h2⟩ := whitenedJacobians_ok (hfs f hf) (hvals f hf) (hρ f hf)
    rw [hR f hf] at h1
    cases h1
    exact h2
  obtain ⟨b, hb, hview⟩ := h.view
  have hfold := linearizeStacks_ok hg.groups hg.factorStacks hview (fun G hG f hf => hρ f (hmem G hG f hf))
    (fun G hG f hf => hJ f (hmem G hG f hf)) (fun G hG f hf => hR f (hmem G hG f hf)) (pre := []) ([], 0) rfl
  rw [hflat] at hfold
  simp only [List.nil_append, Nat.zero_add] at hfold
  have hlenvals : ∀ x k, _ := fun x k => rowSum_groups (lpos := posIn g.localLayout) hg.groups.group (R := R)
    (fun G hG f hf => hRok f (hmem G hG f hf)) x 0 k
  have hcoords : g.jacobianCoords = (coordBlocks C (posIn g.localLayout) 0 (groups kind fs)).flatten := by
    rw [hg.localLayout]; exact hg.coords
  rw [← hcoords] at hlenvals
  set vals := ((groups kind fs).map (groupValues R)).flatten with hvalsdef
  obtain ⟨f₀, hf₀⟩ := List.exists_mem_of_ne_nil fs hne
  have hrdpos : 0 < total rdim (evalOrder fs) := by
    have hm : f₀ ∈ evalOrder fs := mem_groupedBy.2 hf₀
    obtain ⟨as, bs, hab⟩ := List.append_of_mem hm
    rw [hab, total_append, total_cons]
    have := (hfs f₀ hf₀).pos
    omega
  have hvne : vals.isEmpty = false := by
    obtain ⟨f, fs', rfl⟩ := List.exists_cons_of_ne_nil hne
    have hm : f ∈ (groups kind (f :: fs')).flatten := by rw [hflat]; exact mem_groupedBy.2 (by simp)
    obtain ⟨G, hG, hfG⟩ := List.mem_flatten.1 hm
    have : G.flatMap (fun f => ((R f).getD 0 ⟨[], []⟩).data) ∈ vals := by
      rw [hvalsdef, List.mem_flatten]
      refine ⟨groupValues R G, List.mem_map.2 ⟨G, hG, rfl⟩, List.mem_map.2 ⟨0, ?_, rfl⟩⟩
      rw [List.mem_range, gVars_eq (hg.groups.group G hG) hfG]
      exact List.length_pos_of_ne_nil (hfs f (by simp)).vars
    cases hv : vals with
    | nil => rw [hv] at this; cases this
    | cons => rfl
  have hcs := coordsOf hg
  have hrd := hg.residualDim
  have hlen := (hlenvals [] 0).1
  have hwf : CooWF ⟨vals.flatten, g.jacobianCoords.map (·.1), g.jacobianCoords.map (·.2), (g.residualDim, g.localLayout.dim)⟩ := by
    refine ⟨by simpa using hlen, by simpa using hlen, ?_, ?_⟩
    · intro r hr
      obtain ⟨p, hp, rfl⟩ := List.mem_map.1 hr
      exact hcs.row p hp
    · intro r hr
      obtain ⟨p, hp, rfl⟩ := List.mem_map.1 hr
      exact hcs.col p hp
  refine ⟨⟨vals.flatten, g.jacobianCoords.map (·.1), g.jacobianCoords.map (·.2), (g.residualDim, g.localLayout.dim)⟩, ?_, rfl, ?_, rfl, ?_, ?_, ?_⟩
  · unfold Graph.computeWhitenedResidualJacobian
    rw [hg.layout, hb, py_bind_ok, hfold, py_bind_ok]
    simp only [hvne, hrd, ne_eq, hrdpos.ne', not_false_eq_true, decide_true, pyAssert_true, py_bind_ok, Bool.false_eq_true,
      if_false, py_pure]
  · exact hwf
  · rw [List.zip_map']; simp
  · exact hlen.symm
  · intro x hx
    unfold Coo.matmul
    rw [matmul_updates hwf hx]
    have hl1 : vals.flatten.length = (g.jacobianCoords.map (·.2)).length := by simpa using hlen.symm
    have hl2 : (g.jacobianCoords.map (·.1)).length = (g.jacobianCoords.map (·.2)).length := by simp
    simp only [hx, decide_true, pyAssert_true, py_bind_ok, hl1, hl2, ne_eq, not_true_eq_false, if_false, py_pure]
    congr 1
    have hent : entries ⟨vals.flatten, g.jacobianCoords.map (·.1), g.jacobianCoords.map (·.2),
        (g.residualDim, g.localLayout.dim)⟩ = (g.jacobianCoords.zip vals.flatten).map triple := by
      unfold entries
      apply List.ext_getElem
      · simp
      · intro i _ _; simp [triple]
    rw [hent]
    apply List.ext_getElem
    · rw [length_scatterAdd, List.length_replicate, hrd]
      exact (length_flatMap_blocks fun f _ => length_facProd).symm
    · intro k h1 h2
      have hk : k < (List.replicate g.residualDim (0 : ℝ)).length := by rwa [length_scatterAdd] at h1
      rw [getElem_scatterAdd hk, List.getElem_replicate, zero_add, List.filter_map, List.map_map]
      have := (hlenvals x k).2
      rw [placed_zero, hflat, getD_lt _ h2] at this
      rw [← this]
      rfl

/-- The value and the product of the Jacobian of a graph. -/
theorem jacobian_ok (hC : GoodClasses C) {fs : List Factor} (hfs : ∀ f ∈ fs, FactorWF F C f) (hne : fs ≠ []) {g : Graph}
    (hg : GraphOf F C fs g) {vars : List Var} {val : Var → Value ℝ} {a : Assign ℝ} (h : Holds C fs vars val a)
    {ρ : Factor → List ℝ} (hρ : ∀ f ∈ fs, (ρ f).length = rdim f) {R : Factor → List (Arr ℝ)}
    (hR : ∀ f ∈ fs, ((F f.cls).jacobians f.self (f.vars.map val)).mapM (fun J => f.noise.whitenJacobian J (ρ f)) = .ok (R f)) :
    ∃ A, g.computeWhitenedResidualJacobian F C a ((evalOrder fs).flatMap ρ) = .ok A ∧ CooWF A ∧
      A.shape = (g.residualDim, g.localLayout.dim) ∧ A.rows.zip A.cols = g.jacobianCoords ∧
      A.values.length = g.jacobianCoords.length ∧
      ∀ x : List ℝ, x.length = g.localLayout.dim →
        A.matmul x = .ok ((evalOrder fs).flatMap (facProd C (posIn g.localLayout) R x)) := by
  obtain ⟨A, h1, -, h2⟩ := jacobian_explicit hC hfs hne hg h hρ hR
  exact ⟨A, h1, h2⟩
end

end Jaxfg
