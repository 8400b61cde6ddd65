/-
Properties C01-C04: storage layouts (jaxfg/core/_storage_layout.py).
-/
import Verif.Lemmas.Layout

namespace Jaxfg.Props
open Spec
variable {α : Type _}

/-- Size of a variable's block in a layout with the given parameterization: what the user sees as
`get_local_parameter_dim()` (local) or `get_parameter_dim()` (global). -/
abbrev vdim (C : Ty → VarClass α) (loc : Bool) (v : Var) : Nat :=
  if loc then (C v.ty).localDim else (C v.ty).paramDim

/-- A small class table for the non-vacuity examples: type 0 is a 4-parameter, 3-local-parameter manifold (like SE(2)),
type 1 is `RealVectorVariable[2]`, others are `RealVectorVariable[0]`. -/
def exC : Ty → VarClass Int
  | 0 => { default := ⟨7, [⟨[4], [1, 0, 0, 0]⟩]⟩, localDim := 3, retract := fun x d =>
            ⟨7, [⟨[4], (x.flatten.headD 0) :: List.zipWith (· + ·) x.flatten.tail d⟩]⟩ }
  | 1 => .realVector 2
  | _ => .realVector 0

/-- Five variables of three types, interleaved. -/
def exVars : List Var := [⟨1, 10⟩, ⟨0, 11⟩, ⟨1, 12⟩, ⟨5, 13⟩, ⟨0, 14⟩]

/-- **C01.** For every list of distinct variables: each variable gets a block inside the storage vector, variables not in
the list get none, every storage index below `dim` lies in the block of exactly one variable, and `dim` is the sum of the
block sizes. -/
theorem C01_blocks_tile (C : Ty → VarClass α) (vars : List Var) (hn : vars.Nodup) (loc : Bool) :
    let L := Layout.make C vars loc
    (∀ v ∈ vars, ∃ i, L.indexFromVar.get? v = some i ∧ i + vdim C loc v ≤ L.dim) ∧
    (∀ v, v ∉ vars → L.indexFromVar.get? v = none) ∧
    (∀ k < L.dim, ∃! v, v ∈ vars ∧ InBlock L (vdim C loc) v k) ∧
    L.dim = (vars.map (vdim C loc)).sum := by
  intro L
  have hidx : ∀ {as bs v}, grouped vars = as ++ v :: bs → L.indexFromVar.get? v = some (total (vdim C loc) as) :=
    fun hg => make_index C hn loc hg
  have hdim : L.dim = total (vdim C loc) (grouped vars) := make_dim C hn loc
  refine ⟨?_, ?_, ?_, ?_⟩
  · intro v hv
    obtain ⟨as, bs, hg⟩ := List.append_of_mem (mem_grouped.2 hv)
    refine ⟨_, hidx hg, ?_⟩
    rw [hdim, hg, total_append, total_cons]
    omega
  · intro v hv
    rw [PyDict.get?_eq_none_iff]
    have := make_getVariables C hn loc
    unfold Layout.getVariables at this
    rw [this, mem_grouped]; exact hv
  · intro k hk
    rw [hdim] at hk
    -- existence: walk through the grouped order
    have hex : ∀ (bs as : List Var), grouped vars = as ++ bs → total (vdim C loc) as ≤ k →
        k < total (vdim C loc) (as ++ bs) → ∃ as' v bs', grouped vars = as' ++ v :: bs' ∧
          total (vdim C loc) as' ≤ k ∧ k < total (vdim C loc) as' + vdim C loc v := by
      intro bs
      induction bs with
      | nil => intro as _ h1 h2; rw [List.append_nil] at h2; omega
      | cons v bs ih =>
        intro as hg h1 h2
        by_cases hlt : k < total (vdim C loc) as + vdim C loc v
        · exact ⟨as, v, bs, hg, h1, hlt⟩
        · apply ih (as ++ [v]) (by simp [hg])
          · simp only [total_append, total_cons, total_nil]; omega
          · simpa using h2
    obtain ⟨as, v, bs, hg, h1, h2⟩ := hex (grouped vars) [] rfl (by simp) (by simpa using hk)
    refine ⟨v, ⟨mem_grouped.1 (by rw [hg]; simp), _, hidx hg, h1, h2⟩, ?_⟩
    rintro w ⟨hw, j, hj, hj1, hj2⟩
    obtain ⟨cs, ds, hg'⟩ := List.append_of_mem (mem_grouped.2 hw)
    rw [hidx hg'] at hj
    injection hj with hj
    subst hj
    have hcmp := hg.symm.trans hg'
    rcases List.append_eq_append_iff.1 hcmp with ⟨xs, hx1, hx2⟩ | ⟨xs, hx1, hx2⟩
    · cases xs with
      | nil => simp at hx2; exact hx2.1.symm
      | cons x xs =>
        simp only [List.cons_append, List.cons.injEq] at hx2
        rw [hx1, total_append, total_cons, ← hx2.1] at hj1
        omega
    · cases xs with
      | nil => simp at hx2; exact hx2.1
      | cons x xs =>
        simp only [List.cons_append, List.cons.injEq] at hx2
        rw [hx1, total_append, total_cons, ← hx2.1] at h1
        omega
  · rw [hdim]; exact total_perm (grouped_perm vars)

/-- **C02.** For every list of distinct variables: `get_variables()` is a reordering of the input in which each block ends
before the next begins (so storage indices ascend); `get_variable_types()` ascends too and lists each occurring type once;
the `k`-th input variable of type `t` sits at `index_from_variable_type[t] + k * size(t)`, and `count_from_variable_type[t]`
is the number of input variables of type `t`. -/
theorem C02_order (C : Ty → VarClass α) (vars : List Var) (hn : vars.Nodup) (loc : Bool) :
    let L := Layout.make C vars loc
    L.getVariables.Perm vars ∧
    L.getVariables.Pairwise (fun u v => ∀ i j, L.indexFromVar.get? u = some i → L.indexFromVar.get? v = some j →
      i + vdim C loc u ≤ j) ∧
    L.getVariableTypes.Nodup ∧ (∀ t, t ∈ L.getVariableTypes ↔ ∃ v ∈ vars, v.ty = t) ∧
    L.getVariableTypes.Pairwise (fun s t => ∀ i j, L.indexFromType.get? s = some i → L.indexFromType.get? t = some j →
      i ≤ j) ∧
    (∀ t ∈ L.getVariableTypes,
      L.getVariables.filter (·.ty = t) = vars.filter (·.ty = t) ∧
      L.countFromType.get? t = some (vars.filter (·.ty = t)).length ∧
      ∃ i, L.indexFromType.get? t = some i ∧
        ∀ k v, (vars.filter (·.ty = t))[k]? = some v → L.indexFromVar.get? v = some (i + k * vdim C loc v)) := by
  intro L
  have hvars : L.getVariables = grouped vars := make_getVariables C hn loc
  have htypes : L.getVariableTypes = firstTypes vars := make_getVariableTypes C hn loc
  have hidx : ∀ {as bs v}, grouped vars = as ++ v :: bs → L.indexFromVar.get? v = some (total (vdim C loc) as) :=
    fun hg => make_index C hn loc hg
  have hidxT : ∀ {as bs t}, firstTypes vars = as ++ t :: bs → L.indexFromType.get? t =
      some (total (vdim C loc) (as.flatMap fun t => vars.filter (·.ty = t))) :=
    fun hg => make_index_type C hn loc hg
  refine ⟨?_, ?_, ?_, ?_, ?_, ?_⟩
  · rw [hvars]; exact grouped_perm vars
  · rw [hvars, List.pairwise_iff_forall_sublist]
    intro u v hs i j hi hj
    -- split the grouped order at u, then at v
    have : ∃ as bs cs, grouped vars = as ++ u :: bs ++ v :: cs := by
      generalize grouped vars = g at hs
      clear hvars hidx
      induction g with
      | nil => cases hs
      | cons w g ih =>
        cases hs
        · rename_i hs
          obtain ⟨as, bs, cs, h⟩ := ih hs
          exact ⟨w :: as, bs, cs, by simp [h]⟩
        · rename_i hs
          obtain ⟨xs, ys, hx⟩ := List.append_of_mem (List.singleton_sublist.1 hs)
          exact ⟨[], xs, ys, by simp [hx]⟩
    obtain ⟨as, bs, cs, hg⟩ := this
    rw [hidx (as := as) (v := u) (bs := bs ++ v :: cs) (by simp [hg])] at hi
    rw [hidx (as := as ++ u :: bs) (v := v) (bs := cs) hg] at hj
    injection hi with hi
    injection hj with hj
    rw [total_append, total_cons] at hj
    omega
  · rw [htypes]; exact nodup_firstTypes
  · intro t; rw [htypes]; exact mem_firstTypes
  · rw [htypes, List.pairwise_iff_forall_sublist]
    intro s t hs i j hi hj
    have : ∃ as bs cs, firstTypes vars = as ++ s :: bs ++ t :: cs := by
      generalize firstTypes vars = g at hs
      clear htypes hidxT
      induction g with
      | nil => cases hs
      | cons w g ih =>
        cases hs
        · rename_i hs
          obtain ⟨as, bs, cs, h⟩ := ih hs
          exact ⟨w :: as, bs, cs, by simp [h]⟩
        · rename_i hs
          obtain ⟨xs, ys, hx⟩ := List.append_of_mem (List.singleton_sublist.1 hs)
          exact ⟨[], xs, ys, by simp [hx]⟩
    obtain ⟨as, bs, cs, hg⟩ := this
    rw [hidxT (as := as) (t := s) (bs := bs ++ t :: cs) (by simp [hg])] at hi
    rw [hidxT (as := as ++ s :: bs) (t := t) (bs := cs) hg] at hj
    injection hi with hi
    injection hj with hj
    rw [List.flatMap_append, total_append] at hj
    omega
  · intro t ht
    rw [htypes] at ht
    refine ⟨by rw [hvars]; exact filter_grouped, make_count C hn loc ht, ?_⟩
    obtain ⟨as, bs, hg⟩ := List.append_of_mem ht
    refine ⟨_, hidxT hg, ?_⟩
    intro k v hk
    obtain ⟨hklt, hkv⟩ := List.getElem?_eq_some_iff.1 hk
    have hsplit : vars.filter (·.ty = t) =
        (vars.filter (·.ty = t)).take k ++ v :: (vars.filter (·.ty = t)).drop (k + 1) := by
      rw [← hkv, List.getElem_cons_drop, List.take_append_drop]
    have hgr : grouped vars = (as.flatMap (fun t => vars.filter (·.ty = t)) ++ (vars.filter (·.ty = t)).take k) ++ v ::
        ((vars.filter (·.ty = t)).drop (k + 1) ++ bs.flatMap fun t => vars.filter (·.ty = t)) := by
      unfold grouped
      rw [hg, List.flatMap_append, List.flatMap_cons]
      conv_lhs => rw [hsplit]
      simp only [List.append_assoc, List.cons_append]
    rw [hidx hgr, total_append]
    congr 2
    have hv : v.ty = t := by
      have := List.mem_filter.1 (List.mem_of_getElem? hk)
      simpa using this.2
    rw [total_const (d := vdim C loc v)]
    · congr 1
      rw [List.length_take]; omega
    · intro w hw
      have := List.mem_filter.1 (List.mem_of_mem_take hw)
      have hw : w.ty = t := by simpa using this.2
      simp [vdim, hv, hw]

/-- **C03.** The local and the global layout of the same distinct variables list the same variables and types in the same
order, with the same counts. -/
theorem C03_local_global_same_order (C : Ty → VarClass α) (vars : List Var) (hn : vars.Nodup) :
    (Layout.make C vars true).getVariables = (Layout.make C vars false).getVariables ∧
    (Layout.make C vars true).getVariableTypes = (Layout.make C vars false).getVariableTypes ∧
    (Layout.make C vars true).countFromType = (Layout.make C vars false).countFromType := by
  refine ⟨?_, ?_, rfl⟩
  · rw [make_getVariables C hn, make_getVariables C hn]
  · rw [make_getVariableTypes C hn, make_getVariableTypes C hn]

/-- Non-vacuity of C01-C03: five distinct variables of three types, interleaved; blocks are not in input order. -/
example : exVars.Nodup ∧ (Layout.make exC exVars false).getVariables ≠ exVars ∧
    (Layout.make exC exVars false).indexFromVar.get? ⟨0, 14⟩ = some 8 ∧
    (Layout.make exC exVars true).indexFromVar.get? ⟨0, 14⟩ = some 7 ∧
    (Layout.make exC exVars false).dim = 12 ∧ (Layout.make exC exVars true).dim = 10 := by decide

/-! ### C04: repeated variables -/

/-- **C04, negation.** The full statement "for every iterable of variables, `get_variables()` ascends and `dim` is the space
the variables need" is false of the code: with `[a, b, a]` the dictionary order is `a, b` but `b` is stored before `a`, and
`dim` counts `a` twice, so storage index 0 belongs to no variable. -/
theorem C04_repeated_variable_breaks_guarantees :
    ∃ (vars : List Var) (u v : Var) (i j : Nat),
      let L := Layout.make exC vars false
      L.getVariables = [u, v] ∧ L.indexFromVar.get? u = some i ∧ L.indexFromVar.get? v = some j ∧ j < i ∧
      L.dim ≠ (L.getVariables.map (vdim exC false)).sum ∧
      (0 < L.dim ∧ ¬ ∃ w, InBlock L (vdim exC false) w 0) := by
  refine ⟨[⟨1, 0⟩, ⟨1, 1⟩, ⟨1, 0⟩], ⟨1, 0⟩, ⟨1, 1⟩, 4, 2, by decide, by decide, by decide, by decide, by decide,
    by decide, ?_⟩
  rintro ⟨w, i, hi, h0, _⟩
  have hi0 : i = 0 := by omega
  subst hi0
  have := PyDict.mem_of_lookup hi
  revert this
  have he : (Layout.make exC [⟨1, 0⟩, ⟨1, 1⟩, ⟨1, 0⟩] false).indexFromVar.items = [(⟨1, 0⟩, 4), (⟨1, 1⟩, 2)] := by decide
  rw [he]
  simp

theorem foldl_placeVar_next {dim : Ty → Nat} {vs : List Var} {acc : Layout.Acc} :
    (vs.foldl (Layout.placeVar dim) acc).next = acc.next + total (fun v => dim v.ty) vs := by
  induction vs generalizing acc with
  | nil => simp
  | cons v vs ih => rw [List.foldl_cons, ih]; simp [Layout.placeVar, Nat.add_assoc]

theorem foldl_placeType_next {dim : Ty → Nat} {ps : List (Ty × List Var)} {acc : Layout.Acc} :
    (ps.foldl (Layout.placeType dim) acc).next = acc.next + total (fun v => dim v.ty) (ps.flatMap (·.2)) := by
  induction ps generalizing acc with
  | nil => simp
  | cons p ps ih =>
    rw [List.foldl_cons, ih, List.flatMap_cons, total_append]
    simp only [Layout.placeType, foldl_placeVar_next]
    omega

/-- **C04, what does hold.** For every list, repeated variables or not, `dim` is the sum of the block sizes counted with
repetition. (Missing for repeated variables: ascending order and one block per variable, which are false, see above; for
distinct variables they are C01 and C02.) -/
theorem C04_dim_counts_repetitions_partial (C : Ty → VarClass α) (vars : List Var) (loc : Bool) :
    (Layout.make C vars loc).dim = (vars.map (vdim C loc)).sum := by
  have : (Layout.make C vars loc).dim = total (vdim C loc) (grouped vars) := by
    unfold Layout.make
    simp only [bucket_eq, foldl_placeType_next, Nat.zero_add]
    simp [grouped, List.flatMap_map]
    rfl
  rw [this]
  exact total_perm (grouped_perm vars)

end Jaxfg.Props
