/-
Property C04 in full: layouts and assignments for lists in which a variable may be listed more than once
(jaxfg/core/_storage_layout.py, jaxfg/core/_variable_assignments.py).
-/
import Verif.Lemmas.Repeated
import Verif.Props.Assign

namespace Jaxfg.Props
open Spec
variable {α : Type}

/-- **C04, the whole layout of an arbitrary list.** For every list of variables, repetitions included:
`get_variables()` lists each variable once, in the order of first occurrence in the grouped list; the block of a variable
starts where its *last* occurrence in the grouped list starts; the regions of the types, and the number of blocks in them,
count every occurrence. (Missing, because false: ascending order of `get_variables()` and one block per variable.) -/
theorem C04_any_list_partial (C : Ty → VarClass α) (vars : List Var) (loc : Bool) :
    let L := Layout.make C vars loc
    L.localFlag = loc ∧
    L.getVariables = (grouped vars).eraseDups ∧
    (∀ v i, L.indexFromVar.get? v = some i ↔
      ∃ pre post, grouped vars = pre ++ v :: post ∧ v ∉ post ∧ i = (pre.map (vdim C loc)).sum) ∧
    L.getVariableTypes = firstTypes vars ∧
    (∀ t i, L.indexFromType.get? t = some i ↔
      ∃ pre post, grouped vars = pre ++ post ∧ (∀ w ∈ pre, w.ty ≠ t) ∧ (∃ w ∈ post.head?, w.ty = t) ∧
        i = (pre.map (vdim C loc)).sum) ∧
    (∀ t, L.countFromType.get? t = if (∃ v ∈ vars, v.ty = t) then some (vars.countP (·.ty = t)) else none) := by
  obtain ⟨h1, h2, h3, h4, h5, h6⟩ := make_any C vars loc
  refine ⟨h1, h2, h4, make_any_types C vars loc, ?_, ?_⟩
  · have hsplit : ∀ t, (∃ v ∈ vars, v.ty = t) → ∃ as bs, firstTypes vars = as ++ t :: bs ∧
        (∀ w ∈ as.flatMap (fun t => vars.filter (·.ty = t)), w.ty ≠ t) ∧
        ∃ w ∈ ((t :: bs).flatMap fun t => vars.filter (·.ty = t)).head?, w.ty = t := by
      intro t ht
      obtain ⟨as, bs, hg⟩ := List.append_of_mem (mem_firstTypes.2 ht)
      refine ⟨as, bs, hg, ?_, ?_⟩
      · intro w hw
        obtain ⟨s, hs, hw⟩ := List.mem_flatMap.1 hw
        have hws : w.ty = s := by simpa using (List.mem_filter.1 hw).2
        have hn : (as ++ t :: bs).Nodup := hg ▸ nodup_firstTypes
        rw [hws]
        exact (List.nodup_append.1 hn).2.2 s hs t (by simp)
      · obtain ⟨v, hv, hvt⟩ := ht
        rw [List.flatMap_cons]
        cases hf : vars.filter (·.ty = t) with
        | nil => rw [List.filter_eq_nil_iff] at hf; exact absurd hvt (by simpa using hf v hv)
        | cons w ws =>
          refine ⟨w, by simp, ?_⟩
          have : w ∈ vars.filter (·.ty = t) := by rw [hf]; simp
          simpa using (List.mem_filter.1 this).2
    intro t i
    constructor
    · intro hi
      have ht : t ∈ firstTypes vars := by
        by_contra hn
        have hk := make_any_types C vars loc
        unfold Layout.getVariableTypes at hk
        rw [← hk, ← PyDict.get?_eq_none_iff, hi] at hn
        cases hn
      obtain ⟨as, bs, hg, ha, hb⟩ := hsplit t (mem_firstTypes.1 ht)
      refine ⟨_, _, ?_, ha, hb, ?_⟩
      · unfold grouped
        rw [hg, List.flatMap_append]
      · rw [make_any_index_type C vars loc hg] at hi
        injection hi with hi
        exact hi.symm
    · rintro ⟨pre, post, he, hpre, ⟨w, hw, hwt⟩, rfl⟩
      have hwv : w ∈ vars := by
        rw [← mem_grouped, he]
        exact List.mem_append_right _ (List.mem_of_mem_head? hw)
      obtain ⟨as, bs, hg, ha, w', hw', hwt'⟩ := hsplit t ⟨w, hwv, hwt⟩
      rw [make_any_index_type C vars loc hg]
      have he' : grouped vars = (as.flatMap fun t => vars.filter (·.ty = t)) ++
          ((t :: bs).flatMap fun t => vars.filter (·.ty = t)) := by
        unfold grouped
        rw [hg, List.flatMap_append]
      have key : ∀ (a b c d : List Var), a ++ b = c ++ d → (∀ w ∈ a, w.ty ≠ t) → (∀ w ∈ c, w.ty ≠ t) →
          (∃ w ∈ b.head?, w.ty = t) → (∃ w ∈ d.head?, w.ty = t) → a = c := by
        intro a
        induction a with
        | nil =>
          rintro b c d h - hc ⟨w, hw, hwt⟩ -
          cases c with
          | nil => rfl
          | cons x c =>
            simp only [List.nil_append, List.cons_append] at h
            rw [h] at hw
            simp at hw
            exact absurd hwt (by rw [← hw]; exact hc x (by simp))
        | cons x a ih =>
          rintro b c d h ha hc hb ⟨w, hw, hwt⟩
          cases c with
          | nil =>
            simp only [List.nil_append, List.cons_append] at h
            rw [← h] at hw
            simp at hw
            exact absurd hwt (by rw [← hw]; exact ha x (by simp))
          | cons y c =>
            simp only [List.cons_append, List.cons.injEq] at h
            rw [h.1, ih b c d h.2 (fun w hw => ha w (by simp [hw])) (fun w hw => hc w (by simp [hw])) hb ⟨w, hw, hwt⟩]
      rw [key _ _ _ _ (he'.symm.trans he) ha hpre ⟨w', hw', hwt'⟩ ⟨w, hw, hwt⟩]
      rfl
  · intro t
    split
    · rename_i ht
      rw [make_any_count C vars loc (mem_firstTypes.2 ht), List.countP_eq_length_filter]
    · rename_i ht
      rw [PyDict.get?_eq_none_iff, h6]
      simp only [PyDict.keys, List.map_map, Function.comp_def, List.map_id']
      intro h
      exact ht (mem_firstTypes.1 h)

/-- **C03 for an arbitrary list.** Also if variables are listed more than once, the local and the global layout list the same
variables and types in the same order, with the same counts. -/
theorem C03_any_list (C : Ty → VarClass α) (vars : List Var) :
    (Layout.make C vars true).getVariables = (Layout.make C vars false).getVariables ∧
    (Layout.make C vars true).getVariableTypes = (Layout.make C vars false).getVariableTypes ∧
    (Layout.make C vars true).countFromType = (Layout.make C vars false).countFromType :=
  ⟨(C04_any_list_partial C vars true).2.1.trans (C04_any_list_partial C vars false).2.1.symm,
    (C04_any_list_partial C vars true).2.2.2.1.trans (C04_any_list_partial C vars false).2.2.2.1.symm, rfl⟩

/-- Non-vacuity: with `[a, b, a, c]` over two classes the layouts differ, but not in their order. -/
example : let vars : List Var := [⟨0, 3⟩, ⟨1, 1⟩, ⟨0, 3⟩, ⟨0, 2⟩]
    ¬ vars.Nodup ∧ (Layout.make exC vars true).getVariables = [⟨0, 3⟩, ⟨0, 2⟩, ⟨1, 1⟩] ∧
    (Layout.make exC vars true).dim ≠ (Layout.make exC vars false).dim := by decide

/-- **C04, what survives repetition.** For every list: every listed variable has a block, blocks lie inside the vector, and
blocks of different variables never overlap. So repetition wastes space (see the negation in Props/Layout) but never lets two
variables share an entry. -/
theorem C04_no_overlap_partial (C : Ty → VarClass α) (vars : List Var) (loc : Bool) :
    let L := Layout.make C vars loc
    (∀ v, (∃ i, L.indexFromVar.get? v = some i) ↔ v ∈ vars) ∧
    (∀ v k, InBlock L (vdim C loc) v k → k < L.dim) ∧
    (∀ u v k, InBlock L (vdim C loc) u k → InBlock L (vdim C loc) v k → u = v) := by
  obtain ⟨-, h2, h3, h4, -, -⟩ := make_any C vars loc
  refine ⟨?_, ?_, ?_⟩
  · intro v
    rw [← mem_grouped]
    constructor
    · rintro ⟨i, hi⟩
      obtain ⟨pre, post, he, -, -⟩ := (h4 v i).1 hi
      rw [he]; simp
    · intro hv
      obtain ⟨pre, post, he, hp⟩ : ∃ pre post, grouped vars = pre ++ v :: post ∧ v ∉ post := by
        revert hv
        generalize grouped vars = l
        intro hv
        induction l using List.reverseRecOn with
        | nil => cases hv
        | append_singleton l w ih =>
          by_cases hw : v = w
          · exact ⟨l, [], by simp [hw], by simp⟩
          · obtain ⟨pre, post, he, hp⟩ := ih (by simpa [hw] using hv)
            exact ⟨pre, post ++ [w], by simp [he], by simp [hp, hw]⟩
      exact ⟨_, (h4 v _).2 ⟨pre, post, he, hp, rfl⟩⟩
  · rintro v k ⟨i, hi, h1, h2⟩
    obtain ⟨pre, post, he, -, rfl⟩ := (h4 v i).1 hi
    rw [h3, he, total_append, total_cons]
    have : dimOf C loc v.ty = vdim C loc v := rfl
    omega
  · rintro u v k ⟨i, hi, hik, hki⟩ ⟨j, hj, hjk, hkj⟩
    obtain ⟨pre, post, he, -, rfl⟩ := (h4 u i).1 hi
    obtain ⟨pre', post', he', -, rfl⟩ := (h4 v j).1 hj
    have hlt : ∀ (a b c d : List Var) (x y : Var), a ++ x :: b = c ++ y :: d → a.length < c.length →
        total (fun v => dimOf C loc v.ty) a + vdim C loc x ≤ total (fun v => dimOf C loc v.ty) c := by
      intro a b c d x y h hl
      have hp : (a ++ [x]) <+: c := by
        apply List.prefix_of_prefix_length_le (l₃ := c ++ y :: d)
        · rw [← h]; exact ⟨b, by simp⟩
        · exact ⟨_, rfl⟩
        · simp; omega
      obtain ⟨e, rfl⟩ := hp
      have : dimOf C loc x.ty = vdim C loc x := rfl
      simp only [total_append, total_cons, total_nil]
      omega
    rcases Nat.lt_trichotomy pre.length pre'.length with h | h | h
    · have := hlt _ _ _ _ _ _ (he.symm.trans he') h
      omega
    · have := List.append_inj_right (he.symm.trans he') h
      injection this
    · have := hlt _ _ _ _ _ _ (he'.symm.trans he) h
      omega

/-- Summing over a list and over its distinct elements gives the same exactly if the repeated elements have size 0. -/
theorem total_eraseDups (dim : Var → Nat) (l : List Var) :
    total dim l.eraseDups ≤ total dim l ∧
    (total dim l.eraseDups = total dim l ↔ ∀ v, 1 < l.count v → dim v = 0) := by
  induction l using List.reverseRecOn with
  | nil => simp
  | append_singleton l w ih =>
    obtain ⟨ih1, ih2⟩ := ih
    have hd : total dim (l ++ [w]).eraseDups = total dim l.eraseDups + if w ∈ l then 0 else dim w := by
      rw [List.eraseDups_append]
      by_cases hw : w ∈ l <;> simp [List.removeAll, hw, List.eraseDups_cons]
    have ht : total dim (l ++ [w]) = total dim l + dim w := by simp
    rw [hd, ht]
    by_cases hw : w ∈ l
    · rw [if_pos hw]
      refine ⟨by omega, ?_⟩
      have hc : 0 < l.count w := List.count_pos_iff.2 hw
      constructor
      · intro h v hv
        by_cases hvw : v = w
        · subst hvw; omega
        · rw [List.count_append, List.count_singleton, if_neg (by simpa using Ne.symm hvw)] at hv
          exact ih2.1 (by omega) v hv
      · intro h
        have h0 := h w (by rw [List.count_append]; simp; omega)
        have := ih2.2 (fun v hv => h v (by rw [List.count_append]; omega))
        omega
    · rw [if_neg hw]
      refine ⟨by omega, ?_⟩
      rw [Nat.add_right_cancel_iff, ih2]
      have hc : l.count w = 0 := List.count_eq_zero.2 hw
      constructor
      · intro h v hv
        by_cases hvw : v = w
        · subst hvw
          rw [List.count_append] at hv
          simp [hc] at hv
        · rw [List.count_append, List.count_singleton, if_neg (by simpa using Ne.symm hvw)] at hv
          exact h v hv
      · intro h v hv
        exact h v (by rw [List.count_append]; omega)

theorem flatMap_eraseDups (f : Var → List α) (l : List Var) (h : ∀ v, 1 < l.count v → f v = []) :
    l.eraseDups.flatMap f = l.flatMap f := by
  induction l using List.reverseRecOn with
  | nil => simp
  | append_singleton l w ih =>
    rw [List.eraseDups_append, List.flatMap_append, List.flatMap_append,
      ih (fun v hv => h v (by rw [List.count_append]; omega))]
    congr 1
    by_cases hw : w ∈ l
    · have hc : 0 < l.count w := List.count_pos_iff.2 hw
      have := h w (by rw [List.count_append]; simp; omega)
      simp [List.removeAll, hw, this]
    · simp [List.removeAll, hw, List.eraseDups_cons]

/-- Reading a variable from a vector that concatenates blocks in the grouped order, repetitions included. -/
theorem getValue_any (C : Ty → VarClass α) (vars : List Var) (f : Var → List α)
    (hf : ∀ v ∈ vars, (f v).length = (C v.ty).paramDim) (v : Var) (hv : v ∈ vars) :
    Assign.getValue C ⟨(grouped vars).flatMap f, Layout.make C vars false⟩ v =
      .ok (unravel (C v.ty).default (f v)) := by
  obtain ⟨i, hi⟩ := ((C04_no_overlap_partial C vars false).1 v).2 hv
  obtain ⟨pre, post, he, -, rfl⟩ := ((make_any C vars false).2.2.2.1 v _).1 hi
  unfold Assign.getValue
  simp only [PyDict.get_ok_of hi, py_bind_ok]
  have hs := slice_flatMap (dim := fun w : Var => dimOf C false w.ty) (f := f) (as := pre) (bs := post) (v := v)
    (fun w hw => (hf w (by rw [← mem_grouped, he]; exact hw)).trans rfl)
  have hd : dimOf C false v.ty = (C v.ty).paramDim := rfl
  rw [hd] at hs
  rw [he, hs, unflatten_ok (hf v hv)]

/-- **C04, `make_from_defaults` on an arbitrary list.** For every non-empty list, repetitions included, the call succeeds and
every listed variable reads its default; the only visible trace of a repetition is the length of the storage vector, which
counts every occurrence. -/
theorem C04_defaults_partial (C : Ty → VarClass α) (hC : ∀ t, WellShaped (C t).default) (vars : List Var) (hne : vars ≠ []) :
    ∃ a, Assign.makeFromDefaults C vars = .ok a ∧ (∀ v ∈ vars, a.getValue C v = .ok (C v.ty).default) ∧
      a.storage.length = (vars.map fun v => (C v.ty).paramDim).sum := by
  have hdef : ∀ t, unravel (C t).default (C t).default.flatten = (C t).default := fun t =>
    unravel_flatten (c := C t) ⟨rfl, rfl, hC t⟩
  have hlen : ((grouped vars).flatMap fun v => (C v.ty).default.flatten).length = (Layout.make C vars false).dim := by
    rw [(make_any C vars false).2.2.1, List.length_flatMap]
    rfl
  refine ⟨⟨(grouped vars).flatMap fun v => (C v.ty).default.flatten, Layout.make C vars false⟩, ?_, ?_, ?_⟩
  · unfold Assign.makeFromDefaults
    simp only [make_any_types]
    have hm : ((firstTypes vars).mapM fun t => do
        let count ← (Layout.make C vars false).countFromType.get t
        return (List.replicate count (C t).default.flatten).flatten) =
        .ok ((firstTypes vars).map fun t => (vars.filter (·.ty = t)).flatMap fun v => (C v.ty).default.flatten) := by
      apply mapM_ok
      intro t ht
      rw [PyDict.get_ok_of (make_any_count C vars false ht), py_bind_ok]
      change Except.ok _ = _
      congr 1
      have : ∀ l : List Var, (∀ v ∈ l, v.ty = t) → (List.replicate l.length (C t).default.flatten).flatten =
          l.flatMap fun v => (C v.ty).default.flatten := by
        intro l
        induction l with
        | nil => intro _; rfl
        | cons v l ih =>
          intro hl
          rw [List.length_cons, List.replicate_succ, List.flatten_cons, List.flatMap_cons, hl v (by simp),
            ih (fun w hw => hl w (by simp [hw]))]
      exact this _ (fun v hv => by simpa using (List.mem_filter.1 hv).2)
    have hnet : firstTypes vars ≠ [] := by
      obtain ⟨v, hv⟩ := List.exists_mem_of_ne_nil _ hne
      intro h0
      have := mem_firstTypes.2 ⟨v, hv, rfl⟩
      rw [h0] at this; cases this
    have hst : ((firstTypes vars).map fun t => (vars.filter (·.ty = t)).flatMap fun v => (C v.ty).default.flatten).flatten =
        (grouped vars).flatMap fun v => (C v.ty).default.flatten := by
      rw [← List.flatMap_def]
      unfold grouped
      rw [List.flatMap_assoc]
    simp only [hm, py_bind_ok, hst]
    rw [if_neg (by simpa using hnet), decide_eq_true hlen]
    rfl
  · intro v hv
    rw [getValue_any C vars (fun v => (C v.ty).default.flatten) (fun _ _ => rfl) v hv, hdef]
  · rw [hlen]
    exact C04_dim_counts_repetitions_partial C vars false

/-- **C04, `make_from_partial_dict` on an arbitrary list.** For every non-empty list, repetitions included, and every
dictionary whose values have the classes' structure: the call succeeds exactly if no variable with parameters is listed more
than once, and then every listed variable reads its dictionary value or else its default; otherwise it raises
`AssertionError`. So the two constructors disagree on repeated variables. -/
theorem C04_partial_dict_partial (C : Ty → VarClass α) (hC : ∀ t, WellShaped (C t).default) (vars : List Var)
    (hne : vars ≠ []) (d : PyDict Var (Value α)) (hd : ∀ v ∈ vars, ∀ x, d.get? v = some x → IsValueOf (C v.ty) x) :
    ((∀ v, 1 < vars.count v → (C v.ty).paramDim = 0) →
      ∃ a, Assign.makeFromPartialDict C vars d = .ok a ∧
        ∀ v ∈ vars, a.getValue C v = .ok ((d.get? v).getD (C v.ty).default)) ∧
    ((∃ v, 1 < vars.count v ∧ 0 < (C v.ty).paramDim) → Assign.makeFromPartialDict C vars d = .error .assertion) := by
  obtain ⟨f, hf⟩ : ∃ f : Var → List α, f = fun v => (Assign.valueOrDefault C d v).flatten := ⟨_, rfl⟩
  have hval : ∀ v ∈ vars, IsValueOf (C v.ty) (Assign.valueOrDefault C d v) := by
    intro v hv
    unfold Assign.valueOrDefault
    cases hg : d.get? v with
    | none => exact ⟨rfl, rfl, hC v.ty⟩
    | some x => exact hd v hv x hg
  have hlen : ∀ v ∈ vars, (f v).length = (C v.ty).paramDim := by
    intro v hv
    rw [hf]
    exact isValueOf_length (hC v.ty) (hval v hv)
  have hst : (((grouped vars).eraseDups.map fun v => (Assign.valueOrDefault C d v).flatten).flatten).length =
      total (fun v => (C v.ty).paramDim) (grouped vars).eraseDups := by
    rw [List.length_flatten, List.map_map]
    unfold total
    congr 1
    apply List.map_congr_left
    intro v hv
    rw [← hlen v (mem_grouped.1 (List.mem_eraseDups.1 hv)), hf]
    rfl
  have hdim : (Layout.make C vars false).dim = total (fun v => (C v.ty).paramDim) (grouped vars) :=
    (make_any C vars false).2.2.1
  have hcount : ∀ v, (grouped vars).count v = vars.count v := fun v => (grouped_perm vars).count_eq v
  have hnil : ¬ ((grouped vars).eraseDups.map fun v => (Assign.valueOrDefault C d v).flatten).isEmpty := by
    obtain ⟨v, hv⟩ := List.exists_mem_of_ne_nil _ hne
    have hm := List.mem_eraseDups.2 (mem_grouped.2 hv)
    intro h
    rw [List.isEmpty_iff, List.map_eq_nil_iff] at h
    rw [h] at hm
    cases hm
  have htot := (total_eraseDups (fun v => (C v.ty).paramDim) (grouped vars)).2
  simp only [hcount] at htot
  unfold Assign.makeFromPartialDict
  simp only [(make_any C vars false).2.1]
  rw [if_neg hnil]
  constructor
  · intro hz
    have hflat : ((grouped vars).eraseDups.map fun v => (Assign.valueOrDefault C d v).flatten).flatten =
        (grouped vars).flatMap f := by
      rw [← List.flatMap_def, ← hf]
      apply flatMap_eraseDups
      intro v hv
      rw [hcount] at hv
      have hm : v ∈ vars := List.count_pos_iff.1 (by omega)
      exact List.length_eq_zero_iff.1 ((hlen v hm).trans (hz v hv))
    refine ⟨⟨(grouped vars).flatMap f, Layout.make C vars false⟩, ?_, ?_⟩
    · rw [decide_eq_true (by rw [hst, hdim]; exact htot.2 hz), hflat]
      rfl
    · intro v hv
      rw [getValue_any C vars f hlen v hv, hf, unravel_flatten (hval v hv)]
      unfold Assign.valueOrDefault
      cases d.get? v <;> rfl
  · rintro ⟨v, hv, hpos⟩
    rw [decide_eq_false]
    · rfl
    · rw [hst, hdim, htot]
      intro h
      have := h v hv
      omega

/-- Non-vacuity of the C04 theorems: `[a, b, a]` over two-parameter vectors. The defaults constructor gives six entries, the
dictionary constructor raises, and repeating only a zero-parameter variable is harmless. -/
example : let vars : List Var := [⟨1, 0⟩, ⟨1, 1⟩, ⟨1, 0⟩]
    (∀ t, WellShaped (exC t).default) ∧ 1 < vars.count ⟨1, 0⟩ ∧ 0 < (exC 1).paramDim ∧
    (Assign.makeFromDefaults exC vars).map (·.storage) = .ok [0, 0, 0, 0, 0, 0] ∧
    (∀ v : Var, 1 < ([⟨5, 0⟩, ⟨1, 1⟩, ⟨5, 0⟩] : List Var).count v → (exC v.ty).paramDim = 0) ∧
    (Layout.make exC vars false).indexFromVar.items = [(⟨1, 0⟩, 4), (⟨1, 1⟩, 2)] := by
  refine ⟨?_, by decide, by decide, by decide, ?_, by decide⟩
  · intro t
    unfold exC
    split <;> simp [WellShaped, VarClass.realVector, VarClass.euclidean]
  · intro v hv
    have hm : v ∈ ([⟨5, 0⟩, ⟨1, 1⟩, ⟨5, 0⟩] : List Var) := List.count_pos_iff.1 (by omega)
    simp at hm
    rcases hm with rfl | rfl | rfl
    · decide
    · revert hv; decide
    · decide

end Jaxfg.Props
