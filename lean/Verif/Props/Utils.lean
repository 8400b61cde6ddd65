/-
Property C94: helpers, jaxfg/utils.py, `VariableAssignments.__repr__` and `FactorStack.__post_init__`.
-/
import Verif.Lemmas.Utils
import Verif.Props.Assign
import Verif.Lemmas.Solver

namespace Jaxfg.Props
open Spec

section
variable {α : Type}

theorem treeMap_ok {f : List (Arr α) → Py (Arr α)} {trees : List (Value α)} {out : Value α} :
    treeMap f trees = .ok out ↔ ∃ t l, trees = t :: l ∧ (∀ u ∈ trees, u.treedef = t.treedef ∧ u.leaves.length = t.leaves.length) ∧
      out.treedef = t.treedef ∧ (List.range t.leaves.length).mapM (fun j => f (trees.map fun u => u.leaves.getD j ⟨[], []⟩)) = .ok out.leaves := by
  cases trees with
  | nil => simp [treeMap]
  | cons t l =>
    unfold treeMap
    dsimp only
    obtain ⟨bs, hbs⟩ : ∃ bs, bs = t :: l := ⟨_, rfl⟩
    rw [← hbs]
    split
    · rename_i h
      constructor
      · intro h; cases h
      · rintro ⟨t', l', h1, h2, -⟩
        rw [hbs] at h1
        obtain ⟨rfl, rfl⟩ := List.cons.inj h1
        obtain ⟨u, hu, h3⟩ := List.any_eq_true.1 h
        have := h2 u hu
        simp [this] at h3
    · rename_i h
      have h : ∀ u ∈ bs, u.treedef = t.treedef ∧ u.leaves.length = t.leaves.length := by simpa using h
      constructor
      · intro h1
        cases hm : (List.range t.leaves.length).mapM (fun j => f (bs.map fun u => u.leaves.getD j ⟨[], []⟩)) with
        | error e => rw [hm] at h1; cases h1
        | ok r =>
          rw [hm] at h1
          cases Except.ok.inj h1
          exact ⟨t, l, hbs, h, rfl, hm⟩
      · rintro ⟨t', l', h1, h2, h3, h4⟩
        rw [hbs] at h1
        obtain ⟨rfl, rfl⟩ := List.cons.inj h1
        rw [h4]
        show Except.ok _ = _
        rw [← h3]

theorem treeMap_leaves {f : List (Arr α) → Py (Arr α)} {trees : List (Value α)} {out : Value α} (h : treeMap f trees = .ok out) :
    (∀ t ∈ trees, out.treedef = t.treedef ∧ out.leaves.length = t.leaves.length) ∧
      ∀ (j : Nat) b, out.leaves[j]? = some b → ∃ as : List (Arr α), f as = .ok b ∧ as.length = trees.length ∧
        ∀ (i : Nat) a, as[i]? = some a ↔ ∃ t, trees[i]? = some t ∧ t.leaves[j]? = some a := by
  obtain ⟨t, l, h1, h2, h3, h4⟩ := treeMap_ok.1 h
  have h5 := forall₂_of_mapM_ok h4
  have hlen := h5.length_eq
  rw [List.length_range] at hlen
  refine ⟨fun u hu => ⟨h3.trans (h2 u hu).1.symm, by rw [← hlen, (h2 u hu).2]⟩, fun j b hb => ?_⟩
  have hj : j < out.leaves.length := (List.getElem?_eq_some_iff.1 hb).1
  refine ⟨trees.map fun u => u.leaves.getD j ⟨[], []⟩, ?_, List.length_map _, fun i a => ?_⟩
  · have := h5.get (i := j) (by rw [List.length_range, hlen]; exact hj) hj
    rw [List.get_eq_getElem, List.get_eq_getElem, List.getElem_range] at this
    rw [(List.getElem?_eq_some_iff.1 hb).2] at this
    exact this
  · rw [List.getElem?_map]
    constructor
    · intro h
      obtain ⟨u, hu, rfl⟩ := Option.map_eq_some_iff.1 h
      refine ⟨u, hu, ?_⟩
      have hju : j < u.leaves.length := by rw [(h2 u (List.mem_of_getElem? hu)).2, hlen]; exact hj
      rw [List.getD_eq_getElem?_getD, List.getElem?_eq_getElem hju]; rfl
    · rintro ⟨u, hu, ha⟩
      rw [hu, Option.map_some, List.getD_eq_getElem?_getD, ha]; rfl

theorem jnpStack_ok_iff {axis : Int} {as : List (Arr α)} :
    (∃ b, jnpStack axis as = .ok b) ↔ ∃ a l, as = a :: l ∧ (∀ b ∈ as, b.shape = a.shape) ∧ ∃ k, IsAxis axis (a.shape.length + 1) k := by
  cases as with
  | nil => simp [jnpStack]
  | cons a l =>
    unfold jnpStack
    dsimp only
    obtain ⟨bs, hbs⟩ : ∃ bs, bs = a :: l := ⟨_, rfl⟩
    rw [← hbs]
    split
    · rename_i h
      refine iff_of_false (by rintro ⟨b, h⟩; cases h) ?_
      rintro ⟨a', l', h1, h2, -⟩
      rw [hbs] at h1
      obtain ⟨rfl, rfl⟩ := List.cons.inj h1
      obtain ⟨u, hu, h3⟩ := List.any_eq_true.1 h
      simp [h2 u hu] at h3
    · rename_i h
      have h : ∀ b ∈ bs, b.shape = a.shape := by simpa using h
      cases hk : normalizeAxis axis (a.shape.length + 1) with
      | error e =>
        refine iff_of_false (by rintro ⟨b, h⟩; cases h) ?_
        rintro ⟨a', l', h1, h2, k, h3⟩
        rw [hbs] at h1
        obtain ⟨rfl, rfl⟩ := List.cons.inj h1
        rw [normalizeAxis_ok.2 h3] at hk
        cases hk
      | ok k => exact iff_of_true ⟨_, rfl⟩ ⟨a, l, hbs, h, k, normalizeAxis_ok.1 hk⟩

/-- **C94, `pytree_stack`: when it returns.** It needs at least one tree, one structure and the same shapes for all of them, and an axis
that every leaf can get. -/
theorem C94_stack_returns (axis : Int) (trees : List (Value α)) :
    (∃ out, pytreeStack axis trees = .ok out) ↔ trees ≠ [] ∧ (∀ t ∈ trees, ∀ u ∈ trees, t.treedef = u.treedef ∧
      t.leaves.map (·.shape) = u.leaves.map (·.shape)) ∧ ∀ t ∈ trees, ∀ a ∈ t.leaves, ∃ k, IsAxis axis (a.shape.length + 1) k := by
  constructor
  · rintro ⟨out, h⟩
    obtain ⟨h1, h2⟩ := treeMap_leaves h
    have hne : trees ≠ [] := by
      rintro rfl
      cases h
    have hleaf : ∀ t ∈ trees, ∀ u ∈ trees, ∀ (j : Nat) a b, t.leaves[j]? = some a → u.leaves[j]? = some b →
        a.shape = b.shape ∧ ∃ k, IsAxis axis (a.shape.length + 1) k := by
      intro t ht u hu j a b ha hb
      have hj : j < out.leaves.length := by rw [(h1 t ht).2]; exact (List.getElem?_eq_some_iff.1 ha).1
      obtain ⟨as, k1, k2, k3⟩ := h2 j _ (List.getElem?_eq_getElem hj)
      obtain ⟨c, l, -, m2, k, m3⟩ := jnpStack_ok_iff.1 ⟨_, k1⟩
      obtain ⟨i, hi⟩ := List.getElem?_of_mem ht
      obtain ⟨i', hi'⟩ := List.getElem?_of_mem hu
      have ea := m2 a (List.mem_of_getElem? ((k3 i a).2 ⟨t, hi, ha⟩))
      have eb := m2 b (List.mem_of_getElem? ((k3 i' b).2 ⟨u, hi', hb⟩))
      exact ⟨ea.trans eb.symm, k, by rw [ea]; exact m3⟩
    refine ⟨hne, fun t ht u hu => ⟨(h1 t ht).1.symm.trans (h1 u hu).1, ?_⟩, fun t ht a ha => ?_⟩
    · apply List.ext_getElem
      · rw [List.length_map, List.length_map, ← (h1 t ht).2, ← (h1 u hu).2]
      · intro j j1 j2
        rw [List.length_map] at j1 j2
        rw [List.getElem_map, List.getElem_map]
        exact (hleaf t ht u hu j _ _ (List.getElem?_eq_getElem j1) (List.getElem?_eq_getElem j2)).1
    · obtain ⟨j, hj⟩ := List.getElem?_of_mem ha
      exact (hleaf t ht t ht j a a hj hj).2
  · rintro ⟨h1, h2, h3⟩
    obtain ⟨t, l, rfl⟩ := List.exists_cons_of_ne_nil h1
    have ht : t ∈ t :: l := by simp
    have hlen : ∀ u ∈ t :: l, u.leaves.length = t.leaves.length := fun u hu => by
      have := congrArg List.length (h2 u hu t ht).2
      simpa using this
    obtain ⟨bs, hbs⟩ : ∃ bs, bs = t :: l := ⟨_, rfl⟩
    rw [← hbs] at h2 h3 hlen ht ⊢
    have hall : ∀ j ∈ List.range t.leaves.length, ∃ b, jnpStack axis (bs.map fun u => u.leaves.getD j ⟨[], []⟩) = .ok b := by
      intro j hj
      have hj := List.mem_range.1 hj
      refine jnpStack_ok_iff.2 ⟨t.leaves.getD j ⟨[], []⟩, l.map fun u => u.leaves.getD j ⟨[], []⟩, by rw [hbs]; rfl, ?_, ?_⟩
      · intro b hb
        obtain ⟨u, hu, rfl⟩ := List.mem_map.1 hb
        have := congrArg (·[j]?) (h2 u hu t ht).2
        have hju : j < u.leaves.length := by rw [hlen u hu]; exact hj
        simp only [List.getElem?_map, List.getElem?_eq_getElem hj, List.getElem?_eq_getElem hju, Option.map_some, Option.some.injEq] at this
        simpa [List.getD_eq_getElem?_getD, List.getElem?_eq_getElem hj, List.getElem?_eq_getElem hju] using this
      · rw [List.getD_eq_getElem?_getD, List.getElem?_eq_getElem hj]
        exact h3 t ht _ (List.getElem_mem hj)
    have : Inhabited (Arr α) := ⟨⟨[], []⟩⟩
    choose! F hF using hall
    exact ⟨⟨t.treedef, (List.range t.leaves.length).map F⟩, treeMap_ok.2 ⟨t, l, hbs, fun u hu => ⟨(h2 u hu t ht).1, hlen u hu⟩, rfl, mapM_ok hF⟩⟩

/-- **C94, `pytree_stack`: what it returns.** The structure is that of the trees. The entry of a leaf at a multi-index with `i` at the new
axis is the entry of the `i`-th tree's leaf at the multi-index without it. -/
theorem C94_stack (axis : Int) (trees : List (Value α)) (hwf : ∀ t ∈ trees, ∀ a ∈ t.leaves, a.data.length = a.shape.prod) (out : Value α)
    (h : pytreeStack axis trees = .ok out) :
    (∀ t ∈ trees, out.treedef = t.treedef ∧ out.leaves.length = t.leaves.length) ∧
      ∀ (j : Nat) b, out.leaves[j]? = some b → ∃ sp sq, (∀ t ∈ trees, ∀ a, t.leaves[j]? = some a → a.shape = sp ++ sq) ∧
        IsAxis axis (sp.length + 1 + sq.length) sp.length ∧ b.shape = sp ++ trees.length :: sq ∧ b.data.length = b.shape.prod ∧
        ∀ pre (i : Nat) post x, pre.length = sp.length →
          (Arr.At b (pre ++ i :: post) x ↔ ∃ t a, trees[i]? = some t ∧ t.leaves[j]? = some a ∧ Arr.At a (pre ++ post) x) := by
  obtain ⟨h1, h2⟩ := treeMap_leaves h
  refine ⟨h1, fun j b hb => ?_⟩
  obtain ⟨as, k1, k2, k3⟩ := h2 j b hb
  obtain ⟨sp, sq, m1, m2, m3, m4, m5⟩ := jnpStack_entries (fun a ha => by
    obtain ⟨i, hi⟩ := List.getElem?_of_mem ha
    obtain ⟨t, ht, hj⟩ := (k3 i a).1 hi
    exact hwf t (List.mem_of_getElem? ht) a (List.mem_of_getElem? hj)) k1
  refine ⟨sp, sq, fun t ht a ha => ?_, m2, by rw [m3, k2], m4, fun pre i post x hpre => ?_⟩
  · obtain ⟨i, hi⟩ := List.getElem?_of_mem ht
    exact m1 a (List.mem_of_getElem? ((k3 i a).2 ⟨t, hi, ha⟩))
  · rw [m5 pre i post x hpre]
    constructor
    · rintro ⟨a, ha, hx⟩
      obtain ⟨t, ht, hj⟩ := (k3 i a).1 ha
      exact ⟨t, a, ht, hj, hx⟩
    · rintro ⟨t, a, ht, hj, hx⟩
      exact ⟨a, (k3 i a).2 ⟨t, ht, hj⟩, hx⟩

/-- **C94, `pytree_concatenate`: what it returns.** The structure is that of the trees. A leaf's size in the axis is the sum of the sizes,
the other sizes agree, and the entries of the `i`-th tree's leaf are found behind those of the leaves before it. -/
theorem C94_concatenate (axis : Int) (trees : List (Value α)) (hwf : ∀ t ∈ trees, ∀ a ∈ t.leaves, a.data.length = a.shape.prod)
    (out : Value α) (h : pytreeConcatenate axis trees = .ok out) :
    (∀ t ∈ trees, out.treedef = t.treedef ∧ out.leaves.length = t.leaves.length) ∧
      ∀ (j : Nat) b, out.leaves[j]? = some b → ∃ (sp sq sizes : List Nat), IsAxis axis (sp.length + 1 + sq.length) sp.length ∧
        sizes.length = trees.length ∧ b.shape = sp ++ sizes.sum :: sq ∧ b.data.length = b.shape.prod ∧
        ∀ (i : Nat) t a n, trees[i]? = some t → t.leaves[j]? = some a → sizes[i]? = some n → a.shape = sp ++ n :: sq ∧
          ∀ pre y post x, pre.length = sp.length → y < n →
            (Arr.At b (pre ++ ((sizes.take i).sum + y) :: post) x ↔ Arr.At a (pre ++ y :: post) x) := by
  obtain ⟨h1, h2⟩ := treeMap_leaves h
  refine ⟨h1, fun j b hb => ?_⟩
  obtain ⟨as, k1, k2, k3⟩ := h2 j b hb
  obtain ⟨sp, sq, n, m1, m2, m3, m4, m5⟩ := jnpConcatenate_entries (fun a ha => by
    obtain ⟨i, hi⟩ := List.getElem?_of_mem ha
    obtain ⟨t, ht, hj⟩ := (k3 i a).1 hi
    exact hwf t (List.mem_of_getElem? ht) a (List.mem_of_getElem? hj)) k1
  refine ⟨sp, sq, as.map n, m2, by simp [k2], m3, m4, fun i t a N ht ha hN => ?_⟩
  have hia := (k3 i a).2 ⟨t, ht, ha⟩
  rw [List.getElem?_map, hia] at hN
  cases Option.some.inj hN
  refine ⟨m1 a (List.mem_of_getElem? hia), fun pre y post x hpre hy => ?_⟩
  rw [← m5 i a hia pre y post x hpre hy, List.map_take]

theorem jnpConcatenate_ok_iff {axis : Int} {as : List (Arr α)} :
    (∃ b, jnpConcatenate axis as = .ok b) ↔ ∃ a l, as = a :: l ∧ ∃ sp sq : List Nat, IsAxis axis (sp.length + 1 + sq.length) sp.length ∧
      ∀ b ∈ as, ∃ n, b.shape = sp ++ n :: sq := by
  cases as with
  | nil => simp [jnpConcatenate]
  | cons a l =>
    unfold jnpConcatenate
    dsimp only
    obtain ⟨bs, hbs⟩ : ∃ bs, bs = a :: l := ⟨_, rfl⟩
    have ha : a ∈ bs := by rw [hbs]; simp
    rw [← hbs]
    cases hk : normalizeAxis axis a.shape.length with
    | error e =>
      refine iff_of_false (by rintro ⟨b, h⟩; cases h) ?_
      rintro ⟨a', l', h1, sp, sq, h2, h3⟩
      obtain ⟨n, hn⟩ := h3 a ha
      have h4 : normalizeAxis axis a.shape.length = .ok sp.length := by
        rw [hn]; exact normalizeAxis_ok.2 (by simpa [add_comm, add_left_comm] using h2)
      rw [h4] at hk
      cases hk
    | ok k =>
      have hax := normalizeAxis_ok.1 hk
      simp only [bind, Except.bind]
      split
      · rename_i h
        refine iff_of_false (by rintro ⟨b, h⟩; cases h) ?_
        rintro ⟨a', l', h1, sp, sq, h2, h3⟩
        obtain ⟨n, hn⟩ := h3 a ha
        have hks : k = sp.length := by
          have h4 : normalizeAxis axis a.shape.length = .ok sp.length := by
            rw [hn]; exact normalizeAxis_ok.2 (by simpa [add_comm, add_left_comm] using h2)
          rw [h4] at hk
          exact (Except.ok.inj hk).symm
        obtain ⟨u, hu, h5⟩ := List.any_eq_true.1 h
        obtain ⟨m, hm⟩ := h3 u hu
        simp [hm, hn, hks] at h5
      · rename_i h
        have hsh : ∀ b ∈ bs, b.shape.length = a.shape.length ∧ b.shape.take k = a.shape.take k ∧ b.shape.drop (k + 1) = a.shape.drop (k + 1) := by
          simpa using h
        have hsplit : ∀ b ∈ bs, b.shape = a.shape.take k ++ b.shape.getD k 0 :: a.shape.drop (k + 1) := by
          intro b hb
          obtain ⟨h1, h2, h3⟩ := hsh b hb
          have hkb : k < b.shape.length := by rw [h1]; exact hax.1
          rw [← h2, ← h3]
          simp only [List.getD_eq_getElem?_getD, List.getElem?_eq_getElem hkb, Option.getD_some]
          rw [← List.drop_eq_getElem_cons hkb, List.take_append_drop]
        refine iff_of_true ⟨_, rfl⟩ ⟨a, l, hbs, a.shape.take k, a.shape.drop (k + 1), ?_, fun b hb => ⟨_, hsplit b hb⟩⟩
        have hkl : (a.shape.take k).length = k := by have := hax.1; simp; omega
        have h1 := hax.1
        rw [hkl, List.length_drop, show k + 1 + (a.shape.length - (k + 1)) = a.shape.length by omega]
        exact hax

/-- **C94, `pytree_concatenate`: when it returns.** It needs at least one tree, one structure, and leaves whose shapes agree except in the
axis. -/
theorem C94_concatenate_returns (axis : Int) (trees : List (Value α)) :
    (∃ out, pytreeConcatenate axis trees = .ok out) ↔ trees ≠ [] ∧
      (∀ t ∈ trees, ∀ u ∈ trees, t.treedef = u.treedef ∧ t.leaves.length = u.leaves.length) ∧
      ∀ j : Nat, ∃ sp sq : List Nat, ∀ t ∈ trees, ∀ a, t.leaves[j]? = some a →
        IsAxis axis (sp.length + 1 + sq.length) sp.length ∧ ∃ n, a.shape = sp ++ n :: sq := by
  constructor
  · rintro ⟨out, h⟩
    obtain ⟨h1, h2⟩ := treeMap_leaves h
    have hne : trees ≠ [] := by
      rintro rfl
      cases h
    refine ⟨hne, fun t ht u hu => ⟨(h1 t ht).1.symm.trans (h1 u hu).1, (h1 t ht).2.symm.trans (h1 u hu).2⟩, fun j => ?_⟩
    by_cases hj : j < out.leaves.length
    · obtain ⟨as, k1, k2, k3⟩ := h2 j _ (List.getElem?_eq_getElem hj)
      obtain ⟨c, l, -, sp, sq, m2, m3⟩ := jnpConcatenate_ok_iff.1 ⟨_, k1⟩
      refine ⟨sp, sq, fun t ht a ha => ⟨m2, ?_⟩⟩
      obtain ⟨i, hi⟩ := List.getElem?_of_mem ht
      exact m3 a (List.mem_of_getElem? ((k3 i a).2 ⟨t, hi, ha⟩))
    · refine ⟨[], [], fun t ht a ha => ?_⟩
      have := (List.getElem?_eq_some_iff.1 ha).1
      rw [← (h1 t ht).2] at this
      omega
  · rintro ⟨h1, h2, h3⟩
    obtain ⟨t, l, rfl⟩ := List.exists_cons_of_ne_nil h1
    have ht : t ∈ t :: l := by simp
    obtain ⟨bs, hbs⟩ : ∃ bs, bs = t :: l := ⟨_, rfl⟩
    rw [← hbs] at h2 h3 ht ⊢
    have hall : ∀ j ∈ List.range t.leaves.length, ∃ b, jnpConcatenate axis (bs.map fun u => u.leaves.getD j ⟨[], []⟩) = .ok b := by
      intro j hj
      have hj := List.mem_range.1 hj
      obtain ⟨sp, sq, h⟩ := h3 j
      refine jnpConcatenate_ok_iff.2 ⟨t.leaves.getD j ⟨[], []⟩, l.map fun u => u.leaves.getD j ⟨[], []⟩, by rw [hbs]; rfl, sp, sq,
        (h t ht _ (List.getElem?_eq_getElem hj)).1, ?_⟩
      intro b hb
      obtain ⟨u, hu, rfl⟩ := List.mem_map.1 hb
      have hju : j < u.leaves.length := by rw [(h2 u hu t ht).2]; exact hj
      rw [List.getD_eq_getElem?_getD, List.getElem?_eq_getElem hju]
      exact (h u hu _ (List.getElem?_eq_getElem hju)).2
    have : Inhabited (Arr α) := ⟨⟨[], []⟩⟩
    choose! F hF using hall
    exact ⟨⟨t.treedef, (List.range t.leaves.length).map F⟩, treeMap_ok.2 ⟨t, l, hbs, fun u hu => h2 u hu t ht, rfl, mapM_ok hF⟩⟩

/-- **C94, `stopwatch`.** The result of the body, or its exception, is passed on. What the body prints appears in order, after a header with
the label; the time is printed exactly if the body returns. -/
theorem C94_stopwatch (label elapsed : String) (out : List String) (r : Py α) :
    (stopwatch label elapsed (out, r)).2 = r ∧ ∃ tail, (stopwatch label elapsed (out, r)).1 = ["\n========", "Running (" ++ label ++ ")"] ++ out ++ tail ∧
      ((∃ x, r = .ok x) → tail = [elapsed ++ " seconds", "========"]) ∧ ((∃ e, r = .error e) → tail = []) := by
  cases r with
  | ok x => exact ⟨rfl, _, rfl, fun _ => rfl, by simp⟩
  | error e => exact ⟨rfl, [], by simp [stopwatch], by simp, fun _ => rfl⟩

/-- **C94, `__post_init__`.** The assertion of `FactorStack` holds for every stack that `FactorStack.make` builds. -/
theorem C94_post_init (C : Ty → VarClass ℝ) (fs : List Factor) (layout : Layout) (s : FactorStack) (h : FactorStack.make C fs layout = .ok s) :
    s.postInit = .ok () := by
  cases fs with
  | nil => cases h
  | cons f l =>
    unfold FactorStack.make at h
    dsimp only at h
    split at h
    · cases h
    · simp only [py_bind_eq_ok, py_return_eq_ok] at h
      obtain ⟨leaves, -, idx, hidx, h⟩ := h
      unfold FactorStack.indexRows at hidx
      simp only [py_bind_eq_ok, py_return_eq_ok] at hidx
      obtain ⟨rows, -, hidx⟩ := hidx
      subst h hidx
      simp [FactorStack.postInit, pyAssert]

/-- **C94, `__repr__`.** It returns for all assignments of values to at least one variable. If neither names nor texts contain line breaks,
the lines of the text are a header, one line for each variable in storage order, which shows its position, the name of its class and
its value, and a closing parenthesis. -/
theorem C94_repr (C : Ty → VarClass α) (name : Ty → List Char) (text : Value α → List Char) (vars : List Var) (a : Assign α)
    (ha : IsAssignmentOf C vars a) (hl : a.layout.localFlag = false) (hne : vars ≠ []) :
    ∃ s, a.repr C name text = .ok s ∧ ((∀ t, '\n' ∉ name t) → (∀ x, '\n' ∉ text x) → ∃ lines,
      s.splitOn '\n' = "VariableAssignments(".toList :: (lines ++ [")".toList]) ∧ lines.length = a.getVariables.length ∧
        ∀ (i : Nat) v, a.getVariables[i]? = some v → ∃ x, a.getValue C v = .ok x ∧
          lines[i]? = some ("    ".toList ++ (toString i).toList ++ ".".toList ++ name v.ty ++ ": ".toList ++ text x)) := by
  obtain ⟨f, hf⟩ := exists_rep ha
  rw [hl] at hf
  obtain ⟨d, hd1, hd2, hd3⟩ := asDict_of_rep hf
  have hvars : a.getVariables = grouped vars := by
    unfold Assign.getVariables; rw [hf.layout, make_getVariables C hf.nodup]
  refine ⟨_, by unfold Assign.repr; rw [hd1]; rfl, fun hn ht => ?_⟩
  have hdlen : d.items.length = (grouped vars).length := by rw [← hd2]; simp [PyDict.keys]
  have hvne : grouped vars ≠ [] := fun h => hne (by
    have := (grouped_perm vars).length_eq
    rw [h] at this
    exact List.eq_nil_of_length_eq_zero this.symm)
  obtain ⟨L, hL⟩ : ∃ L, L = d.items.zipIdx.map fun p => "    ".toList ++ Nat.toDigits 10 p.2 ++ ".".toList ++ name p.1.1.ty ++ ": ".toList ++ text p.1.2 :=
    ⟨_, rfl⟩
  rw [← hL]
  have hLlen : L.length = (grouped vars).length := by rw [hL]; simp [hdlen]
  have hLne : L ≠ [] := fun h => hvne (by rw [h] at hLlen; exact List.eq_nil_of_length_eq_zero hLlen.symm)
  have hLn : ∀ l ∈ L, '\n' ∉ l := by
    intro l hl
    rw [hL] at hl
    obtain ⟨p, -, rfl⟩ := List.mem_map.1 hl
    have hdig : '\n' ∉ Nat.toDigits 10 p.2 := fun h => by
      have := Nat.isDigit_of_mem_toDigits (by norm_num) (by norm_num) h
      simp [Char.isDigit] at this
    have := hn p.1.1.ty
    have := ht p.1.2
    simp_all
  refine ⟨L, ?_, by rw [hvars, hLlen], fun i v hv => ?_⟩
  · have e : "VariableAssignments(\n".toList ++ ['\n'].intercalate L ++ "\n)".toList =
        ['\n'].intercalate ("VariableAssignments(".toList :: (L ++ [")".toList])) := by
      obtain ⟨x, l, rfl⟩ := List.exists_cons_of_ne_nil hLne
      have aux : ∀ (l : List (List Char)) (x y : List Char), ['\n'].intercalate (x :: (l ++ [y])) = ['\n'].intercalate (x :: l) ++ ('\n' :: y) := by
        intro l
        induction l with
        | nil => intro x y; simp [List.intercalate]
        | cons z l ih =>
          intro x y
          have h2 : ∀ (u v : List Char) w, ['\n'].intercalate (u :: v :: w) = u ++ ('\n' :: ['\n'].intercalate (v :: w)) := by
            intro u v w; simp [List.intercalate]
          rw [List.cons_append, h2, ih, h2]
          simp
      have h2 : ∀ (u v : List Char) w, ['\n'].intercalate (u :: v :: w) = u ++ ('\n' :: ['\n'].intercalate (v :: w)) := by
        intro u v w; simp [List.intercalate]
      rw [List.cons_append, h2, aux]
      rw [show "VariableAssignments(\n".toList = "VariableAssignments(".toList ++ ['\n'] by decide, show "\n)".toList = '\n' :: ")".toList by decide]
      simp
    rw [e]
    refine List.splitOn_intercalate _ ?_ (by simp)
    intro l hl
    rw [List.mem_cons, List.mem_append, List.mem_singleton] at hl
    rcases hl with rfl | hl | rfl
    · decide
    · exact hLn l hl
    · decide
  · rw [hvars] at hv
    have hi : i < (grouped vars).length := (List.getElem?_eq_some_iff.1 hv).1
    have hmem : v ∈ vars := mem_grouped.1 (List.mem_of_getElem? hv)
    refine ⟨_, hf.getValue_ok hmem, ?_⟩
    have hkey : (d.items[i]'(by omega)).1 = v := by
      have := (List.getElem?_eq_some_iff.1 hv).2
      rw [← this]
      simp only [← hd2, PyDict.keys, List.getElem_map]
    have hval := hd3 v
    rw [if_pos hmem, PyDict.get?_eq_some_iff (by rw [hd2]; exact nodup_grouped hf.nodup)] at hval
    obtain ⟨j, hj, hji⟩ := List.getElem_of_mem hval
    have hij : i = j := by
      have hnd := nodup_grouped hf.nodup
      refine (List.Nodup.getElem_inj_iff hnd (hi := hi) (hj := by omega)).1 ?_
      have e1 := (List.getElem?_eq_some_iff.1 hv).2
      rw [e1]
      simp only [← hd2, PyDict.keys, List.getElem_map, hji]
    subst hij
    rw [hL, List.getElem?_map, List.getElem?_eq_getElem (by simpa using hj), List.getElem_zipIdx, Option.map_some, hji]
    simp [Nat.toString_eq_repr, Nat.repr]

end

/-! ### Examples -/

/-- Two trees with a `2 × 3` leaf and a scalar leaf each, stacked along the last axis and along the first one. -/
example : pytreeStack (-1) [⟨7, [⟨[2, 3], [1, 2, 3, 4, 5, 6]⟩, ⟨[], [0]⟩]⟩, ⟨7, [⟨[2, 3], [11, 12, 13, 14, 15, 16]⟩, ⟨[], [10]⟩]⟩] =
      .ok (⟨7, [⟨[2, 3, 2], [1, 11, 2, 12, 3, 13, 4, 14, 5, 15, 6, 16]⟩, ⟨[2], [0, 10]⟩]⟩ : Value ℤ) ∧
    pytreeStack 0 [⟨7, [⟨[2, 3], [1, 2, 3, 4, 5, 6]⟩, ⟨[], [0]⟩]⟩, ⟨7, [⟨[2, 3], [11, 12, 13, 14, 15, 16]⟩, ⟨[], [10]⟩]⟩] =
      .ok (⟨7, [⟨[2, 2, 3], [1, 2, 3, 4, 5, 6, 11, 12, 13, 14, 15, 16]⟩, ⟨[2], [0, 10]⟩]⟩ : Value ℤ) := by
  constructor <;> decide

/-- The axis 1 exists for the matrices, but not for the scalar leaves. -/
example : pytreeStack 1 [⟨7, [⟨[2, 3], [1, 2, 3, 4, 5, 6]⟩, ⟨[], [0]⟩]⟩] = (.error .value : Py (Value ℤ)) := by decide

/-- `C94_stopwatch`, for a body that prints a line and raises: the time is not printed. -/
example : stopwatch "solve" "1.5" (["step"], (.error .value : Py Nat)) = (["\n========", "Running (solve)", "step"], .error .value) := by decide

/-- `C94_repr` for two variables of different classes, whose values are shown as their sums. -/
example : let a : Assign Int := ⟨[3, -4, 1, 2, 3, 4], Layout.make exC [⟨1, 5⟩, ⟨0, 6⟩] false⟩
    IsAssignmentOf exC [⟨1, 5⟩, ⟨0, 6⟩] a ∧
    a.repr exC (fun t => if t = 1 then ['R', '2'] else ['M']) (fun x => (toString x.flatten.sum).toList) =
      .ok "VariableAssignments(\n    0.R2: -1\n    1.M: 10\n)".toList := by
  refine ⟨⟨by decide, rfl, by decide⟩, by decide⟩

/-- Concatenation along the last axis. -/
example : pytreeConcatenate (-1) [⟨7, [⟨[2, 2], [1, 2, 3, 4]⟩]⟩, ⟨7, [⟨[2, 1], [11, 12]⟩]⟩] =
    .ok (⟨7, [⟨[2, 3], [1, 2, 11, 3, 4, 12]⟩]⟩ : Value ℤ) := by decide

end Jaxfg.Props
