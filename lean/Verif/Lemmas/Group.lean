/- Grouping with a dictionary of lists. -/
import Verif.Spec.Graph
import Verif.Lemmas.Dict
import Verif.Lemmas.Blocks
import Mathlib.Data.List.Induction

namespace Jaxfg
open Spec
variable {β κ : Type _} [DecidableEq κ]

theorem mem_firstKeys {key : β → κ} {xs : List β} {k : κ} : k ∈ firstKeys key xs ↔ ∃ x ∈ xs, key x = k := by
  induction xs with
  | nil => simp [firstKeys]
  | cons v vs ih =>
    simp only [firstKeys, List.mem_cons, List.mem_filter, ih, decide_eq_true_eq, exists_eq_or_imp]
    by_cases h : k = key v
    · simp [h]
    · have : ¬ key v = k := fun e => h e.symm
      simp [h, this]

theorem nodup_firstKeys {key : β → κ} {xs : List β} : (firstKeys key xs).Nodup := by
  induction xs with
  | nil => simp [firstKeys]
  | cons v vs ih =>
    simp only [firstKeys, List.nodup_cons, List.mem_filter, decide_eq_true_eq]
    exact ⟨by simp, ih.filter _⟩

theorem firstKeys_concat {key : β → κ} {xs : List β} {v : β} :
    firstKeys key (xs ++ [v]) = if key v ∈ firstKeys key xs then firstKeys key xs else firstKeys key xs ++ [key v] := by
  induction xs with
  | nil => simp [firstKeys]
  | cons w vs ih =>
    simp only [List.cons_append, firstKeys, ih, List.mem_cons, List.mem_filter, decide_eq_true_eq]
    by_cases h1 : key v = key w
    · simp only [h1]
      by_cases h2 : key w ∈ firstKeys key vs
      · simp [h2]
      · simp [h2, List.filter_append]
    · by_cases h2 : key v ∈ firstKeys key vs
      · simp [h1, h2]
      · simp [h1, h2, List.filter_append]

/-- Grouping with a `defaultdict(list)`. -/
theorem foldl_group_eq (key : β → κ) (xs : List β) :
    (xs.foldl (fun d x => d.set (key x) (((d.get? (key x)).getD []) ++ [x])) (.empty : PyDict κ (List β))).items =
      (firstKeys key xs).map fun k => (k, xs.filter (key · = k)) := by
  induction xs using List.reverseRecOn with
  | nil => rfl
  | append_singleton vs v ih =>
    rw [List.foldl_append, List.foldl_cons, List.foldl_nil]
    set d := vs.foldl (fun d x => d.set (key x) (((d.get? (key x)).getD []) ++ [x])) (.empty : PyDict κ (List β))
    have hkeys : d.keys = firstKeys key vs := by
      simp only [PyDict.keys, ih, List.map_map]
      conv_rhs => rw [← List.map_id (firstKeys key vs)]
      rfl
    by_cases h : key v ∈ firstKeys key vs
    · have hget : d.get? (key v) = some (vs.filter (key · = key v)) := by
        rw [PyDict.get?_eq_some_iff (by rw [hkeys]; exact nodup_firstKeys), ih]
        exact List.mem_map.2 ⟨_, h, rfl⟩
      rw [PyDict.set_of_mem (by rw [hkeys]; exact h), firstKeys_concat, if_pos h]
      simp only [ih, hget, List.map_map, Option.getD_some]
      apply List.map_congr_left
      intro t _
      simp only [Function.comp, List.filter_append]
      by_cases ht : t = key v
      · subst ht; simp
      · have : ¬ key v = t := fun e => ht e.symm
        simp [ht, this]
    · have hget : d.get? (key v) = none := by
        rw [PyDict.get?_eq_none_iff, hkeys]; exact h
      rw [PyDict.set_of_not_mem (by rw [hkeys]; exact h), firstKeys_concat, if_neg h]
      have hnil : vs.filter (key · = key v) = [] := by
        rw [List.filter_eq_nil_iff]
        intro w hw
        simp only [decide_eq_true_eq]
        intro e
        exact h (mem_firstKeys.2 ⟨w, hw, e⟩)
      simp only [ih, hget, List.map_append, Option.getD_none, List.nil_append, List.map_cons, List.map_nil,
        List.filter_append, hnil]
      congr 1
      · apply List.map_congr_left
        intro t ht
        have : ¬ key v = t := by rintro rfl; exact h ht
        simp [this]
      · simp

theorem flatMap_keys_perm {key : β → κ} {xs : List β} {ks : List κ} (hn : ks.Nodup) (hk : ∀ x ∈ xs, key x ∈ ks) :
    (ks.flatMap fun k => xs.filter (key · = k)).Perm xs := by
  induction ks generalizing xs with
  | nil =>
    cases xs with
    | nil => exact List.Perm.refl _
    | cons x xs => exact absurd (hk x (by simp)) (by simp)
  | cons k ks ih =>
    rw [List.nodup_cons] at hn
    have hsplit := List.filter_append_perm (fun x => decide (key x = k)) xs
    rw [List.flatMap_cons]
    refine List.Perm.trans (List.Perm.append_left _ ?_) hsplit
    have := ih (xs := xs.filter fun x => !decide (key x = k)) hn.2 (by
      intro x hx
      simp only [List.mem_filter, Bool.not_eq_true', decide_eq_false_iff_not] at hx
      have := hk x hx.1
      simp only [List.mem_cons] at this
      exact this.resolve_left hx.2)
    refine List.Perm.trans (List.Perm.of_eq ?_) this
    rw [List.flatMap_def, List.flatMap_def]
    congr 1
    apply List.map_congr_left
    intro k' hk'
    rw [List.filter_filter]
    apply List.filter_congr
    intro x _
    by_cases hx : key x = k'
    · have : ¬ key x = k := by rw [hx]; rintro rfl; exact hn.1 hk'
      simp [hx, hx ▸ this]
    · simp [hx]

theorem groupedBy_perm (key : β → κ) (xs : List β) : (groupedBy key xs).Perm xs :=
  flatMap_keys_perm nodup_firstKeys fun x hx => mem_firstKeys.2 ⟨x, hx, rfl⟩

theorem mem_groupedBy {key : β → κ} {xs : List β} {x : β} : x ∈ groupedBy key xs ↔ x ∈ xs := (groupedBy_perm key xs).mem_iff

/-- The groups, in order. -/
def groups (key : β → κ) (xs : List β) : List (List β) := (firstKeys key xs).map fun k => xs.filter (key · = k)

theorem groupedBy_eq (key : β → κ) (xs : List β) : groupedBy key xs = (groups key xs).flatten := by
  unfold groupedBy groups
  rw [List.flatMap_def]

theorem firstKeys_congr {κ' : Type _} [DecidableEq κ'] {key : β → κ} {key' : β → κ'}
    {xs : List β} (h : ∀ x ∈ xs, ∀ y ∈ xs, key x = key y ↔ key' x = key' y) : groups key xs = groups key' xs := by
  -- both are determined by the equivalence relation
  have aux : ∀ (l : List β), (∀ x ∈ l, x ∈ xs) → ∃ reps : List β, (∀ x ∈ reps, x ∈ l) ∧ firstKeys key l = reps.map key ∧
      firstKeys key' l = reps.map key' := by
    intro l
    induction l with
    | nil => intro _; exact ⟨[], by simp, rfl, rfl⟩
    | cons x l ih =>
      intro hl
      obtain ⟨reps, h1, h2, h3⟩ := ih fun y hy => hl y (by simp [hy])
      refine ⟨x :: reps.filter (fun y => key y ≠ key x), ?_, ?_, ?_⟩
      · intro y hy
        simp only [List.mem_cons, List.mem_filter] at hy ⊢
        rcases hy with rfl | ⟨hy, _⟩
        · exact Or.inl rfl
        · exact Or.inr (h1 y hy)
      · simp only [firstKeys, h2, List.map_cons, List.filter_map]
        rfl
      · simp only [firstKeys, h3, List.map_cons, List.filter_map]
        congr 2
        apply List.filter_congr
        intro y hy
        have := h y (hl y (by simp [h1 y hy])) x (hl x (by simp))
        simp only [Function.comp, ne_eq, decide_not, this]
  obtain ⟨reps, h1, h2, h3⟩ := aux xs fun x hx => hx
  unfold groups
  rw [h2, h3, List.map_map, List.map_map]
  apply List.map_congr_left
  intro r hr
  simp only [Function.comp]
  apply List.filter_congr
  intro x hx
  simp only [h x hx r (h1 r hr)]

theorem mem_groups_nonempty {key : β → κ} {xs : List β} {g : List β} (h : g ∈ groups key xs) : g ≠ [] := by
  obtain ⟨k, hk, rfl⟩ := List.mem_map.1 h
  obtain ⟨x, hx, hxk⟩ := mem_firstKeys.1 hk
  intro he
  have : x ∈ xs.filter (key · = k) := List.mem_filter.2 ⟨hx, by simpa using hxk⟩
  rw [he] at this
  cases this

theorem mem_groups_key {key : β → κ} {xs : List β} {g : List β} (h : g ∈ groups key xs) : ∀ x ∈ g, ∀ y ∈ g, key x = key y := by
  obtain ⟨k, hk, rfl⟩ := List.mem_map.1 h
  intro x hx y hy
  simp only [List.mem_filter, decide_eq_true_eq] at hx hy
  rw [hx.2, hy.2]

theorem mem_groups_mem {key : β → κ} {xs : List β} {g : List β} (h : g ∈ groups key xs) : ∀ x ∈ g, x ∈ xs := by
  obtain ⟨k, hk, rfl⟩ := List.mem_map.1 h
  intro x hx
  exact (List.mem_filter.1 hx).1

/-! ### The ordered set of variables -/

theorem keys_foldl_set {K : Type _} [DecidableEq K] (d : PyDict K Unit) (vs : List K) (hd : d.keys.Nodup) :
    (vs.foldl (fun d v => d.set v ()) d).keys.Nodup ∧
      ∀ v, v ∈ (vs.foldl (fun d v => d.set v ()) d).keys ↔ v ∈ d.keys ∨ v ∈ vs := by
  induction vs generalizing d with
  | nil => simp [hd]
  | cons w vs ih =>
    rw [List.foldl_cons]
    obtain ⟨h1, h2⟩ := ih (d.set w ()) (PyDict.nodup_keys_set hd)
    refine ⟨h1, fun v => ?_⟩
    rw [h2, PyDict.keys_set]
    by_cases hw : w ∈ d.keys
    · rw [if_pos hw, List.mem_cons]
      constructor
      · rintro (h | h) <;> simp [h]
      · rintro (h | rfl | h)
        · exact Or.inl h
        · exact Or.inl hw
        · exact Or.inr h
    · rw [if_neg hw]
      simp only [List.mem_append, List.mem_cons, List.not_mem_nil, or_false]
      tauto

theorem variablesOf_spec (fs : List Factor) :
    (Graph.variablesOf fs).Nodup ∧ ∀ v, v ∈ Graph.variablesOf fs ↔ ∃ f ∈ fs, v ∈ f.vars := by
  unfold Graph.variablesOf
  have aux : ∀ (d : PyDict Var Unit), d.keys.Nodup →
      (fs.foldl (fun d f => f.vars.foldl (fun d v => d.set v ()) d) d).keys.Nodup ∧
      ∀ v, v ∈ (fs.foldl (fun d f => f.vars.foldl (fun d v => d.set v ()) d) d).keys ↔
        v ∈ d.keys ∨ ∃ f ∈ fs, v ∈ f.vars := by
    induction fs with
    | nil => intro d hd; simp [hd]
    | cons f fs ih =>
      intro d hd
      rw [List.foldl_cons]
      obtain ⟨h1, h2⟩ := keys_foldl_set d f.vars hd
      obtain ⟨h3, h4⟩ := ih _ h1
      refine ⟨h3, fun v => ?_⟩
      rw [h4, h2]
      simp [or_assoc]
  obtain ⟨h1, h2⟩ := aux .empty (by simp [PyDict.empty, PyDict.keys])
  exact ⟨h1, fun v => by rw [h2]; simp [PyDict.empty, PyDict.keys]⟩

/-! ### Kinds -/

theorem length_leaves_treedef {N N' : Noise} (h : N.treedef = N'.treedef) : N.leaves.length = N'.leaves.length := by
  induction N generalizing N' with
  | gaussian W => cases N' <;> simp_all [Noise.treedef, Noise.leaves]
  | diagonal W => cases N' <;> simp_all [Noise.treedef, Noise.leaves]
  | huber w δ ih =>
    cases N' with
    | huber w' δ' =>
      simp only [Noise.treedef, NoiseDef.huber.injEq] at h
      simp [Noise.leaves, ih h]
    | _ => simp [Noise.treedef] at h

theorem kind_iff {f g : Factor} : f.groupKey = g.groupKey ↔ kind f = kind g := by
  unfold Factor.groupKey kind Factor.treedef Factor.leaves
  simp only [Prod.mk.injEq]
  constructor
  · rintro ⟨⟨h1, h2, h3, h4⟩, h5⟩; exact ⟨h1, h2, h3, h5⟩
  · rintro ⟨h1, h2, h3, h5⟩
    refine ⟨⟨h1, h2, h3, ?_⟩, h5⟩
    have := congrArg List.length h5
    simp only [List.length_map, List.length_append, length_leaves_treedef h3] at this
    omega

theorem factorsFromGroup_eq (fs : List Factor) : (Graph.factorsFromGroup fs).items.map (·.2) = groups kind fs := by
  unfold Graph.factorsFromGroup
  rw [foldl_group_eq, List.map_map]
  exact firstKeys_congr (key := Factor.groupKey) fun x _ y _ => kind_iff

end Jaxfg
