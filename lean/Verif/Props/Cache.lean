/- Property C60: canonical types and instances (jaxfg/core/_variables.py). -/
import Verif.Lemmas.Cache
import Mathlib.Data.List.Induction

namespace Jaxfg.Props

/-- Operation `i` of the history `ops`, started after `import jaxfg`, was `op` and had the result `r`. -/
def Did (next : Nat) (ops : List Op) (i : Nat) (op : Op) (r : Py Res) : Prop :=
  ops[i]? = some op ∧ ((Heap.initial next).run ops).2[i]? = some r

section
variable {next : Nat} {ops : List Op}

/-- An operation of a history: the heap before it, and what the final heap keeps. -/
theorem Did.split {i : Nat} {op : Op} {r : Py Res} (h : Did next ops i op r) :
    ∃ g : Heap, (Heap.initial next).run (ops.take i) = (g, ((Heap.initial next).run (ops.take i)).2) ∧ g.Inv ∧
      (Heap.initial next).Ext g ∧ (g.step op).2 = r ∧ (g.step op).1.Inv ∧
      (g.step op).1.Ext ((Heap.initial next).run ops).1 ∧
      ((Heap.initial next).run ops).1 = ((g.step op).1.run (ops.drop (i + 1))).1 := by
  obtain ⟨h1, h2⟩ := h
  obtain ⟨hi, rfl⟩ := List.getElem?_eq_some_iff.1 h1
  obtain ⟨g, e1, e2, e3, e4, e5, e6, e7⟩ := Heap.run_split (Heap.inv_initial next) ops i hi
  rw [h2] at e4
  exact ⟨g, e1, e2, e3, (Option.some.inj e4).symm, e5, e6, e7⟩

/-- A class returned by the template is in the final cache. -/
theorem Did.template_cached {i : Nat} {dim : DimArg} {t : Ty} (h : Did next ops i (.template dim) (.ok (.cls t))) :
    ((Heap.initial next).run ops).1.templates.get? dim.num = some t := by
  obtain ⟨g, -, -, -, e, -, e', -⟩ := h.split
  refine e'.templates _ _ ?_
  change (g.template dim).2 = _ at e
  show (g.template dim).1.templates.get? dim.num = some t
  unfold Heap.template at e ⊢
  rcases hc : g.templates.get? dim.num with _ | t'
  · simp only [hc] at e ⊢
    by_cases h1 : dim.isInt <;> by_cases h2 : dim.num < 0 <;> simp [h1, h2, PyDict.get?_set] at e ⊢
    exact e
  · simp only [hc] at e ⊢
    simpa using e

/-- The part of a history before operation `j`. -/
theorem Did.take {i j : Nat} {op : Op} {r : Py Res} (h : Did next ops i op r) (hij : i < j) : Did next (ops.take j) i op r := by
  refine ⟨by rw [List.getElem?_take, if_pos hij]; exact h.1, ?_⟩
  have e := Heap.run_append (Heap.initial next) (ops.take j) (ops.drop j)
  rw [List.take_append_drop] at e
  have h2 := h.2
  have hi := (List.getElem?_eq_some_iff.1 h.1).1
  rw [e, List.getElem?_append_left (by rw [Heap.run_length, List.length_take]; omega)] at h2
  exact h2

theorem Did.append {i : Nat} {op : Op} {r : Py Res} (h : Did next ops i op r) (more : List Op) : Did next (ops ++ more) i op r := by
  have hi := (List.getElem?_eq_some_iff.1 h.1).1
  refine ⟨by rw [List.getElem?_append_left hi]; exact h.1, ?_⟩
  rw [Heap.run_append, List.getElem?_append_left (by rw [Heap.run_length]; exact hi)]
  exact h.2

/-- What is in the cache was put there by an operation. -/
theorem cached_template {q : Rat} {t : Ty} (h : ((Heap.initial next).run ops).1.templates.get? q = some t) :
    ∃ j dim, dim.num = q ∧ Did next ops j (.template dim) (.ok (.cls t)) := by
  induction ops using List.reverseRecOn with
  | nil => simp [Heap.run, Heap.initial, PyDict.get?_empty] at h
  | append_singleton ops op ih =>
    by_cases h' : ((Heap.initial next).run ops).1.templates.get? q = some t
    · obtain ⟨j, dim, h1, h2⟩ := ih h'
      exact ⟨j, dim, h1, h2.append _⟩
    · rw [Heap.run_append] at h
      have hs : (((Heap.initial next).run ops).1.step op).1.templates.get? q = some t := h
      cases op with
      | template dim =>
        have hr : (((Heap.initial next).run ops).1.template dim).2 = .ok (.cls t) ∧ dim.num = q := by
          change (((Heap.initial next).run ops).1.template dim).1.templates.get? q = some t at hs
          generalize ((Heap.initial next).run ops).1 = g at *
          unfold Heap.template at hs ⊢
          rcases hc : g.templates.get? dim.num with _ | t'
          · simp only [hc] at hs ⊢
            by_cases h1 : dim.isInt <;> by_cases h2 : dim.num < 0 <;> simp [h1, h2, PyDict.get?_set, h'] at hs ⊢
            by_cases hq : q = dim.num
            · rw [if_pos hq] at hs
              exact ⟨Option.some.inj hs, hq.symm⟩
            · rw [if_neg hq] at hs
              exact absurd hs h'
          · simp only [hc] at hs ⊢
            exact absurd hs h'
        refine ⟨ops.length, dim, hr.2, by simp, ?_⟩
        rw [Heap.run_append, List.getElem?_append_right (by rw [Heap.run_length]), Heap.run_length, Nat.sub_self, ← hr.1]
        rfl
      | canonical c =>
        refine absurd ?_ h'
        change (((Heap.initial next).run ops).1.canonical c).1.templates.get? q = some t at hs
        unfold Heap.canonical at hs
        split at hs <;> exact hs
      | create c => exact absurd hs h'
      | define => exact absurd hs h'

/-- A canonical instance is in the final cache. -/
theorem Did.canonical_cached {i : Nat} {t : Ty} {r : Py Res} (h : Did next ops i (.canonical t) r) :
    ∃ v, r = .ok (.var v) ∧ ((Heap.initial next).run ops).1.instances.get? t = some v := by
  obtain ⟨g, -, -, -, e, -, e', -⟩ := h.split
  change (g.canonical t).2 = _ at e
  have e'' : (g.canonical t).1.Ext _ := e'
  unfold Heap.canonical at e e''
  split at e
  · rename_i v hc
    rw [hc] at e''
    exact ⟨v, e.symm, e''.instances _ _ hc⟩
  · rename_i hc
    rw [hc] at e''
    exact ⟨_, e.symm, e''.instances _ _ (by simp [PyDict.get?_set])⟩

end

/-- **C60, classes.** In every history: two uses of `RealVectorVariable[...]` that return give the same class exactly if the
arguments are equal numbers. -/
theorem C60_same_class_iff (next : Nat) (ops : List Op) (i j : Nat) (m n : DimArg) (t u : Ty)
    (hi : Did next ops i (.template m) (.ok (.cls t))) (hj : Did next ops j (.template n) (.ok (.cls u))) :
    t = u ↔ m.num = n.num := by
  have h1 := hi.template_cached
  have h2 := hj.template_cached
  constructor
  · rintro rfl
    exact (Heap.run_spec (Heap.inv_initial next) ops).1.templates_inj _ _ _ h1 h2
  · intro h
    rw [h, h2] at h1
    exact (Option.some.inj h1).symm

/-- **C60, dimension.** For a natural number it always returns, and the class has this dimension; for a negative integer it
always raises. -/
theorem C60_template_dim (next : Nat) (ops : List Op) (i : Nat) (n : Int) (r : Py Res) (h : Did next ops i (.template (.int n)) r) :
    (0 ≤ n → ∃ t, r = .ok (.cls t) ∧ next ≤ t ∧ ((Heap.initial next).run ops).1.dims.get? t = some n.toNat) ∧
    (n < 0 → r = .error .value) := by
  have hI := (Heap.run_spec (Heap.inv_initial next) ops)
  obtain ⟨g, -, gI, -, e, -, -, -⟩ := h.split
  change (g.template (.int n)).2 = r at e
  unfold Heap.template at e
  constructor
  · intro hn
    have hr : ∃ t, r = .ok (.cls t) := by
      split at e
      · exact ⟨_, e.symm⟩
      · split at e
        · rename_i h'; simp [DimArg.isInt] at h'
        split at e
        · rename_i h'
          have : ((n : Rat)) < 0 := h'
          have : n < 0 := by exact_mod_cast this
          omega
        · exact ⟨_, e.symm⟩
    obtain ⟨t, rfl⟩ := hr
    have hc := h.template_cached
    refine ⟨t, rfl, ?_, ?_⟩
    · rcases hI.2.templates_new _ _ hc with h' | h'
      · simp [Heap.initial, PyDict.get?_empty] at h'
      · exact h'
    · exact (hI.1.templates_dim _ _ hc).2
  · intro hn
    have hq : ((n : Rat)) < 0 := by exact_mod_cast hn
    split at e
    · rename_i t hc
      have := (gI.templates_dim _ _ hc).1
      exact absurd hq (not_lt.2 this)
    · rw [if_neg (by simp [DimArg.isInt]), if_pos (show (DimArg.int n).num < 0 from hq)] at e
      exact e.symm

/-- **C60, truth values.** Python's `False` and `True` are the numbers 0 and 1: the brackets always return, and the class has
this dimension, which is the class for this number. -/
theorem C60_truth_value (next : Nat) (ops : List Op) (i : Nat) (b : Bool) (r : Py Res) (h : Did next ops i (.template (.bool b)) r) :
    ∃ t, r = .ok (.cls t) ∧ ((Heap.initial next).run ops).1.dims.get? t = some (if b then 1 else 0) ∧
      ∀ j r', Did next ops j (.template (.int (if b then 1 else 0))) r' → r' = r := by
  have hI := (Heap.run_spec (Heap.inv_initial next) ops)
  obtain ⟨g, -, gI, -, e, -, -, -⟩ := h.split
  change (g.template (.bool b)).2 = r at e
  unfold Heap.template at e
  have hr : ∃ t, r = .ok (.cls t) := by
    split at e
    · exact ⟨_, e.symm⟩
    · rw [if_neg (by simp [DimArg.isInt]), if_neg (by cases b <;> simp [DimArg.num])] at e
      exact ⟨_, e.symm⟩
  obtain ⟨t, rfl⟩ := hr
  refine ⟨t, rfl, ?_, fun j r' hj => ?_⟩
  · rw [(hI.1.templates_dim _ _ h.template_cached).2]
    cases b <;> rfl
  · obtain ⟨u, rfl, -⟩ := (C60_template_dim next ops j _ r' hj).1 (by cases b <;> simp)
    rw [(C60_same_class_iff next ops j i _ _ u t hj h).2 (by cases b <;> simp [DimArg.num])]

/-- **C60, other numbers.** For a float the outcome depends on the history: it returns if the class for this number has been
made before, and raises otherwise. -/
theorem C60_float (next : Nat) (ops : List Op) (i : Nat) (q : Rat) (r : Py Res) (h : Did next ops i (.template (.float q)) r) :
    ((∃ t, r = .ok (.cls t)) ↔ ∃ j < i, ∃ dim t, dim.num = q ∧ Did next ops j (.template dim) (.ok (.cls t))) ∧
    ((∃ t, r = .ok (.cls t)) ∨ r = .error .assertion) := by
  obtain ⟨g, hg, gI, -, e, -, -, -⟩ := h.split
  have hg' : ((Heap.initial next).run (ops.take i)).1 = g := by rw [hg]
  change (g.template (.float q)).2 = r at e
  have key : ∀ t, r = .ok (.cls t) ↔ g.templates.get? q = some t := by
    intro t
    rw [← e]
    unfold Heap.template
    show (match g.templates.get? q with | some t => _ | none => _ : Heap × Py Res).2 = _ ↔ _
    rcases g.templates.get? q with _ | t'
    · simp [DimArg.isInt]
    · simp
  refine ⟨?_, ?_⟩
  · constructor
    · rintro ⟨t, ht⟩
      have hc := (key t).1 ht
      rw [← hg'] at hc
      obtain ⟨j, dim, h1, h2⟩ := cached_template hc
      have hj : j < i := by
        have := (List.getElem?_eq_some_iff.1 h2.1).1
        rw [List.length_take] at this
        omega
      refine ⟨j, hj, dim, t, h1, ?_⟩
      have := h2.append (ops.drop i)
      rwa [List.take_append_drop] at this
    · rintro ⟨j, hj, dim, t, h1, h2⟩
      refine ⟨t, (key t).2 ?_⟩
      have := (h2.take hj).template_cached
      rwa [hg', h1] at this
  · rw [← e]
    unfold Heap.template
    split
    · exact .inl ⟨_, rfl⟩
    · exact .inr (by simp [DimArg.isInt])

/-- **C60, instances.** In every history: `canonical_instance()` returns an instance of the class it is called on, and two calls
return the same object exactly if the classes are the same. -/
theorem C60_same_instance_iff (next : Nat) (ops : List Op) (i j : Nat) (t u : Ty) (r r' : Py Res)
    (hi : Did next ops i (.canonical t) r) (hj : Did next ops j (.canonical u) r') :
    ∃ v w, r = .ok (.var v) ∧ r' = .ok (.var w) ∧ v.ty = t ∧ w.ty = u ∧ (v.uid = w.uid ↔ t = u) := by
  obtain ⟨v, hv, h1⟩ := hi.canonical_cached
  obtain ⟨w, hw, h2⟩ := hj.canonical_cached
  have hI := (Heap.run_spec (Heap.inv_initial next) ops).1
  refine ⟨v, w, hv, hw, (hI.instances_lt _ _ h1).2, (hI.instances_lt _ _ h2).2, fun h => hI.instances_inj _ _ _ _ h1 h2 h, ?_⟩
  rintro rfl
  rw [h1] at h2
  rw [Option.some.inj h2]

/-- **C60, own variables.** A variable that the program makes itself is never a canonical instance, and never another variable
that it makes. -/
theorem C60_created_distinct (next : Nat) (ops : List Op) (i j : Nat) (t u : Ty) (v w : Var)
    (hi : Did next ops i (.create t) (.ok (.var v))) (hij : i ≠ j)
    (hj : Did next ops j (.create u) (.ok (.var w)) ∨ Did next ops j (.canonical u) (.ok (.var w))) : v.uid ≠ w.uid := by
  have created : ∀ {a b : Nat} {t u : Ty} {v w : Var}, a < b → Did next ops a (.create t) (.ok (.var v)) →
      Did next ops b (.create u) (.ok (.var w)) → v.uid < w.uid := by
    intro a b t u v w hab ha hb
    obtain ⟨g, hg, -, -, e, -, -, -⟩ := hb.split
    obtain ⟨g', -, -, -, e', -, hx, -⟩ := (ha.take hab).split
    have hw : g.next = w.uid := by
      have : (⟨u, g.next⟩ : Var) = w := Res.var.inj (Except.ok.inj e)
      rw [← this]
    have hv : g'.next = v.uid := by
      have : (⟨t, g'.next⟩ : Var) = v := Res.var.inj (Except.ok.inj e')
      rw [← this]
    have hg' : ((Heap.initial next).run (ops.take b)).1 = g := by rw [hg]
    have h := hx.next
    rw [hg'] at h
    have h' : g'.next + 1 ≤ g.next := h
    omega
  rcases hj with hj | hj
  · rcases Nat.lt_or_gt_of_ne hij with h | h
    · exact (created h hi hj).ne
    · exact (created h hj hi).ne'
  · obtain ⟨w', hw', hc⟩ := hj.canonical_cached
    obtain rfl : w = w' := Res.var.inj (Except.ok.inj hw')
    obtain ⟨g, -, gI, -, e, -, hx, -⟩ := hi.split
    have hv : g.next = v.uid := by
      have : (⟨t, g.next⟩ : Var) = v := Res.var.inj (Except.ok.inj e)
      rw [← this]
    rcases hx.instances_new _ _ hc with h | h
    · have := (gI.instances_lt _ _ h).1
      omega
    · have h' : g.next + 1 ≤ w.uid := h
      omega

/-- A history: the template with 2, 3, `True`, 2 and 1.0, two canonical instances of one class and one of another, an own
variable, and 4.0, which raises. -/
example : let ops := [.template (.int 2), .template (.int 3), .template (.float 1), .template (.bool true), .template (.int 2),
      .template (.float 1), .canonical 5, .create 5, .canonical 6, .canonical 5, .template (.float 4), .template (.int (-1))]
    ((Heap.initial 10).run ops).2 = [.ok (.cls 10), .ok (.cls 11), .error .assertion, .ok (.cls 12), .ok (.cls 10), .ok (.cls 12),
      .ok (.var ⟨5, 13⟩), .ok (.var ⟨5, 14⟩), .ok (.var ⟨6, 15⟩), .ok (.var ⟨5, 13⟩), .error .assertion, .error .value] := by
  decide +kernel

end Jaxfg.Props
