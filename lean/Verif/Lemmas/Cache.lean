/- Histories of the memoized functions. -/
import Verif.Model.Cache
import Verif.Lemmas.Dict
import Mathlib.Algebra.Order.Ring.Rat
import Mathlib.Tactic.Linarith

namespace Jaxfg

/-- Cached objects exist, and no object is cached twice. -/
structure Heap.Inv (h : Heap) : Prop where
  templates_lt : ∀ q t, h.templates.get? q = some t → t < h.next
  templates_inj : ∀ q q' t, h.templates.get? q = some t → h.templates.get? q' = some t → q = q'
  templates_dim : ∀ q t, h.templates.get? q = some t → 0 ≤ q ∧ h.dims.get? t = some q.num.toNat
  instances_lt : ∀ t v, h.instances.get? t = some v → v.uid < h.next ∧ v.ty = t
  instances_inj : ∀ t t' v v', h.instances.get? t = some v → h.instances.get? t' = some v' → v.uid = v'.uid → t = t'

/-- What later heaps keep. -/
structure Heap.Ext (h h' : Heap) : Prop where
  next : h.next ≤ h'.next
  templates : ∀ q t, h.templates.get? q = some t → h'.templates.get? q = some t
  dims : ∀ t n, h.dims.get? t = some n → t < h.next → h'.dims.get? t = some n
  instances : ∀ t v, h.instances.get? t = some v → h'.instances.get? t = some v
  instances_new : ∀ t v, h'.instances.get? t = some v → h.instances.get? t = some v ∨ h.next ≤ v.uid
  templates_new : ∀ q t, h'.templates.get? q = some t → h.templates.get? q = some t ∨ h.next ≤ t

theorem Heap.Ext.refl (h : Heap) : h.Ext h :=
  ⟨le_rfl, fun _ _ h => h, fun _ _ h _ => h, fun _ _ h => h, fun _ _ h => .inl h, fun _ _ h => .inl h⟩

theorem Heap.Ext.trans {a b c : Heap} (h : a.Ext b) (k : b.Ext c) : a.Ext c where
  next := h.next.trans k.next
  templates _ _ e := k.templates _ _ (h.templates _ _ e)
  dims _ _ e l := k.dims _ _ (h.dims _ _ e l) (l.trans_le h.next)
  instances _ _ e := k.instances _ _ (h.instances _ _ e)
  instances_new _ _ e := (k.instances_new _ _ e).elim (h.instances_new _ _) fun l => .inr (h.next.trans l)
  templates_new _ _ e := (k.templates_new _ _ e).elim (h.templates_new _ _) fun l => .inr (h.next.trans l)

theorem Heap.inv_initial (n : Nat) : (Heap.initial n).Inv := by
  constructor <;> simp [Heap.initial, PyDict.get?_empty]

theorem Heap.step_spec {h : Heap} (hI : h.Inv) (op : Op) : (h.step op).1.Inv ∧ h.Ext (h.step op).1 := by
  cases op with
  | template dim =>
    show (h.template dim).1.Inv ∧ h.Ext (h.template dim).1
    unfold Heap.template
    split
    · exact ⟨hI, .refl h⟩
    · rename_i hnone
      split
      · exact ⟨hI, .refl h⟩
      split
      · exact ⟨hI, .refl h⟩
      rename_i hneg
      refine ⟨⟨?_, ?_, ?_, ?_, hI.instances_inj⟩, ⟨Nat.le_succ _, ?_, ?_, fun _ _ h => h, fun _ _ h => .inl h, ?_⟩⟩
      · intro q t e
        rw [PyDict.get?_set] at e
        split at e
        · cases e; exact Nat.lt_succ_self _
        · exact (hI.templates_lt _ _ e).trans (Nat.lt_succ_self _)
      · intro q q' t e e'
        rw [PyDict.get?_set] at e e'
        split at e <;> split at e'
        · simp_all
        · cases e; exact absurd (hI.templates_lt _ _ e') (lt_irrefl _)
        · cases e'; exact absurd (hI.templates_lt _ _ e) (lt_irrefl _)
        · exact hI.templates_inj _ _ _ e e'
      · intro q t e
        simp only [PyDict.get?_set] at e ⊢
        split at e
        · cases e
          rename_i hq
          rw [if_pos rfl]
          subst hq
          exact ⟨not_lt.1 hneg, rfl⟩
        · have := hI.templates_lt _ _ e
          rw [if_neg this.ne]
          exact hI.templates_dim _ _ e
      · intro t v e
        exact ⟨((hI.instances_lt _ _ e).1).trans (Nat.lt_succ_self _), (hI.instances_lt _ _ e).2⟩
      · intro q t e
        rw [PyDict.get?_set]
        split
        · simp_all
        · exact e
      · intro t n e l
        rw [PyDict.get?_set, if_neg l.ne]
        exact e
      · intro q t e
        rw [PyDict.get?_set] at e
        split at e
        · cases e; exact .inr le_rfl
        · exact .inl e
  | canonical c =>
    show (h.canonical c).1.Inv ∧ h.Ext (h.canonical c).1
    unfold Heap.canonical
    split
    · exact ⟨hI, .refl h⟩
    · rename_i hnone
      refine ⟨⟨?_, hI.templates_inj, hI.templates_dim, ?_, ?_⟩, ⟨Nat.le_succ _, fun _ _ h => h, fun _ _ h _ => h, ?_, ?_, fun _ _ h => .inl h⟩⟩
      · intro q t e
        exact (hI.templates_lt _ _ e).trans (Nat.lt_succ_self _)
      · intro t v e
        rw [PyDict.get?_set] at e
        split at e
        · cases e; rename_i hq; exact ⟨Nat.lt_succ_self _, by simp_all⟩
        · exact ⟨((hI.instances_lt _ _ e).1).trans (Nat.lt_succ_self _), (hI.instances_lt _ _ e).2⟩
      · intro t t' v v' e e' huid
        rw [PyDict.get?_set] at e e'
        split at e <;> split at e'
        · simp_all
        · cases e
          have := (hI.instances_lt _ _ e').1
          simp at huid
          omega
        · cases e'
          have := (hI.instances_lt _ _ e).1
          simp at huid
          omega
        · exact hI.instances_inj _ _ _ _ e e' huid
      · intro t v e
        rw [PyDict.get?_set]
        split
        · simp_all
        · exact e
      · intro t v e
        rw [PyDict.get?_set] at e
        split at e
        · cases e; exact .inr le_rfl
        · exact .inl e
  | create c =>
    exact ⟨⟨fun q t e => (hI.templates_lt _ _ e).trans (Nat.lt_succ_self _), hI.templates_inj, hI.templates_dim,
      fun t v e => ⟨((hI.instances_lt _ _ e).1).trans (Nat.lt_succ_self _), (hI.instances_lt _ _ e).2⟩, hI.instances_inj⟩,
      ⟨Nat.le_succ _, fun _ _ h => h, fun _ _ h _ => h, fun _ _ h => h, fun _ _ h => .inl h, fun _ _ h => .inl h⟩⟩
  | define =>
    exact ⟨⟨fun q t e => (hI.templates_lt _ _ e).trans (Nat.lt_succ_self _), hI.templates_inj, hI.templates_dim,
      fun t v e => ⟨((hI.instances_lt _ _ e).1).trans (Nat.lt_succ_self _), (hI.instances_lt _ _ e).2⟩, hI.instances_inj⟩,
      ⟨Nat.le_succ _, fun _ _ h => h, fun _ _ h _ => h, fun _ _ h => h, fun _ _ h => .inl h, fun _ _ h => .inl h⟩⟩

theorem Heap.run_append (h : Heap) (xs ys : List Op) :
    h.run (xs ++ ys) = (((h.run xs).1.run ys).1, (h.run xs).2 ++ ((h.run xs).1.run ys).2) := by
  induction xs generalizing h with
  | nil => rfl
  | cons x xs ih => simp [Heap.run, ih]

theorem Heap.run_length (h : Heap) (ops : List Op) : (h.run ops).2.length = ops.length := by
  induction ops generalizing h with
  | nil => rfl
  | cons x xs ih => simp [Heap.run, ih]

theorem Heap.run_spec {h : Heap} (hI : h.Inv) (ops : List Op) : (h.run ops).1.Inv ∧ h.Ext (h.run ops).1 := by
  induction ops generalizing h with
  | nil => exact ⟨hI, .refl h⟩
  | cons op ops ih =>
    have h1 := Heap.step_spec hI op
    have h2 := ih h1.1
    exact ⟨h2.1, h1.2.trans h2.2⟩

/-- The heap before operation `i`. -/
theorem Heap.run_at (h : Heap) (ops : List Op) (i : Nat) (hi : i < ops.length) :
    (h.run ops).2[i]? = some ((h.run (ops.take i)).1.step ops[i]).2 := by
  have e := Heap.run_append h (ops.take i) (ops.drop i)
  rw [List.take_append_drop] at e
  rw [e, List.drop_eq_getElem_cons hi]
  have hl : (h.run (ops.take i)).2.length = i := by rw [Heap.run_length, List.length_take, min_eq_left hi.le]
  rw [List.getElem?_append_right (by omega), hl, Nat.sub_self]
  rfl

/-- Splits a history at operation `i`. -/
theorem Heap.run_split {h : Heap} (hI : h.Inv) (ops : List Op) (i : Nat) (hi : i < ops.length) :
    ∃ g, h.run (ops.take i) = (g, (h.run (ops.take i)).2) ∧ g.Inv ∧ h.Ext g ∧ (h.run ops).2[i]? = some (g.step ops[i]).2 ∧
      (g.step ops[i]).1.Inv ∧ (g.step ops[i]).1.Ext (h.run ops).1 ∧
      (h.run ops).1 = ((g.step ops[i]).1.run (ops.drop (i + 1))).1 := by
  have h1 := Heap.run_spec hI (ops.take i)
  refine ⟨(h.run (ops.take i)).1, rfl, h1.1, h1.2, Heap.run_at h ops i hi, (Heap.step_spec h1.1 _).1, ?_⟩
  have e := Heap.run_append h (ops.take i) (ops.drop i)
  rw [List.take_append_drop, List.drop_eq_getElem_cons hi] at e
  have e' : (h.run ops).1 = (((h.run (ops.take i)).1.step ops[i]).1.run (ops.drop (i + 1))).1 := by rw [e]; rfl
  rw [e']
  exact ⟨(Heap.run_spec (Heap.step_spec h1.1 _).1 _).2, rfl⟩

end Jaxfg
