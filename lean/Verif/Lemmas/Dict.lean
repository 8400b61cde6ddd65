/- Lemmas about Python dictionaries. -/
import Verif.Model.Prelude
import Mathlib.Data.List.Nodup
import Mathlib.Data.List.Lookmap
import Mathlib.Data.List.Basic
import Mathlib.Data.List.Perm.Subperm

namespace Jaxfg
namespace PyDict
variable {K V : Type _} [DecidableEq K]

theorem lookup_eq_some_of_mem {l : List (K × V)} (hn : (l.map (·.1)).Nodup) {k : K} {v : V} (h : (k, v) ∈ l) :
    l.lookup k = some v := by
  induction l with
  | nil => cases h
  | cons p l ih =>
    obtain ⟨k', v'⟩ := p
    simp only [List.map_cons, List.nodup_cons] at hn
    rcases List.mem_cons.1 h with h | h'
    · injection h with h1 h2
      subst h1 h2
      simp [List.lookup]
    · have hne : k ≠ k' := by
        rintro rfl
        exact hn.1 (List.mem_map.2 ⟨(k, v), h', rfl⟩)
      have : (k == k') = false := by simpa using hne
      simp only [List.lookup, this]
      exact ih hn.2 h'

theorem mem_of_lookup {l : List (K × V)} {k : K} {v : V} (h : l.lookup k = some v) : (k, v) ∈ l := by
  induction l with
  | nil => simp [List.lookup] at h
  | cons p l ih =>
    obtain ⟨k', v'⟩ := p
    by_cases hk : k = k'
    · subst hk
      simp [List.lookup] at h
      simp [h]
    · have : (k == k') = false := by simpa using hk
      simp only [List.lookup, this] at h
      exact List.mem_cons_of_mem _ (ih h)

theorem lookup_eq_none_iff {l : List (K × V)} {k : K} : l.lookup k = none ↔ k ∉ l.map (·.1) := by
  induction l with
  | nil => simp [List.lookup]
  | cons p l ih =>
    obtain ⟨k', v'⟩ := p
    by_cases hk : k = k'
    · subst hk; simp [List.lookup]
    · have : (k == k') = false := by simpa using hk
      simp only [List.lookup, this, ih]
      simp [hk]

theorem get?_eq_some_iff {d : PyDict K V} (hn : d.keys.Nodup) {k : K} {v : V} :
    d.get? k = some v ↔ (k, v) ∈ d.items :=
  ⟨mem_of_lookup, lookup_eq_some_of_mem hn⟩

theorem get?_eq_none_iff {d : PyDict K V} {k : K} : d.get? k = none ↔ k ∉ d.keys := lookup_eq_none_iff

theorem contains_iff {d : PyDict K V} {k : K} : d.contains k = true ↔ k ∈ d.keys := by
  unfold contains
  rw [Option.isSome_iff_ne_none, Ne, get?_eq_none_iff, not_not]

theorem contains_eq_false_iff {d : PyDict K V} {k : K} : d.contains k = false ↔ k ∉ d.keys := by
  rw [← contains_iff, Bool.not_eq_true]

theorem get_ok_of {d : PyDict K V} {k : K} {v : V} (h : d.get? k = some v) : d.get k = .ok v := by
  simp [get, h]

theorem get_error_of {d : PyDict K V} {k : K} (h : k ∉ d.keys) : d.get k = .error .key := by
  simp [get, get?_eq_none_iff.2 h]

theorem exists_get_of_mem {d : PyDict K V} {k : K} (h : k ∈ d.keys) : ∃ v, d.get k = .ok v ∧ d.get? k = some v := by
  cases hg : d.get? k with
  | none => exact absurd h (get?_eq_none_iff.1 hg)
  | some v => exact ⟨v, get_ok_of hg, rfl⟩

theorem set_of_not_mem {d : PyDict K V} {k : K} {v : V} (h : k ∉ d.keys) : d.set k v = ⟨d.items ++ [(k, v)]⟩ := by
  simp [set, contains_eq_false_iff.2 h]

theorem set_of_mem {d : PyDict K V} {k : K} {v : V} (h : k ∈ d.keys) :
    d.set k v = ⟨d.items.map fun p => if p.1 = k then (k, v) else p⟩ := by
  simp [set, contains_iff.2 h]

theorem keys_set {d : PyDict K V} {k : K} {v : V} :
    (d.set k v).keys = if k ∈ d.keys then d.keys else d.keys ++ [k] := by
  by_cases h : k ∈ d.keys
  · rw [set_of_mem h, if_pos h]
    simp only [keys, List.map_map]
    apply List.map_congr_left
    intro p _
    simp only [Function.comp]
    split <;> simp_all
  · rw [set_of_not_mem h, if_neg h]
    simp [keys]

theorem nodup_keys_set {d : PyDict K V} (hn : d.keys.Nodup) {k : K} {v : V} : (d.set k v).keys.Nodup := by
  rw [keys_set]
  split
  · exact hn
  · rename_i h
    rw [List.nodup_append]
    refine ⟨hn, by simp, ?_⟩
    intro a ha b hb
    simp at hb
    subst hb
    rintro rfl
    exact h ha

theorem get?_set {d : PyDict K V} {k k' : K} {v : V} :
    (d.set k v).get? k' = if k' = k then some v else d.get? k' := by
  by_cases h : k ∈ d.keys
  · rw [set_of_mem h]
    unfold get?
    unfold keys at h
    generalize d.items = l at h ⊢
    induction l with
    | nil => simp at h
    | cons p l ih =>
      obtain ⟨a, b⟩ := p
      by_cases hak : a = k
      · subst hak
        by_cases hk' : k' = a
        · subst hk'; simp
        · have hf : (k' == a) = false := by simpa using hk'
          simp only [List.map_cons, if_true, List.lookup, hf, hk', if_false]
          by_cases hm : a ∈ l.map (·.1)
          · rw [ih hm, if_neg hk']
          · congr 1
            conv_rhs => rw [← List.map_id l]
            apply List.map_congr_left
            intro p hp
            have : p.1 ≠ a := by
              rintro rfl
              exact hm (List.mem_map.2 ⟨_, hp, rfl⟩)
            simp [this]
      · have hm : k ∈ l.map (·.1) := by
          simp only [List.map_cons, List.mem_cons] at h
          rcases h with h | h
          · exact absurd h.symm hak
          · exact h
        by_cases hk' : k' = a
        · subst hk'
          simp [List.lookup, hak]
        · have hf : (k' == a) = false := by simpa using hk'
          simp only [List.map_cons, hak, if_false, List.lookup, hf]
          exact ih hm
  · rw [set_of_not_mem h]
    unfold get?
    unfold keys at h
    generalize d.items = l at h ⊢
    induction l with
    | nil =>
      by_cases hk' : k' = k
      · subst hk'; simp
      · have hf : (k' == k) = false := by simpa using hk'
        simp [List.lookup, hf, hk']
    | cons p l ih =>
      obtain ⟨a, b⟩ := p
      simp only [List.map_cons, List.mem_cons, not_or] at h
      by_cases hk' : k' = a
      · subst hk'
        have : k' ≠ k := fun e => h.1 e.symm
        simp [List.lookup, this]
      · have hf : (k' == a) = false := by simpa using hk'
        simp only [List.cons_append, List.lookup, hf]
        exact ih h.2

theorem get?_empty {k : K} : (empty : PyDict K V).get? k = none := rfl

/-- Python's `==` on dictionaries without repeated keys is extensional equality. -/
theorem eq_iff [DecidableEq V] {d₁ d₂ : PyDict K V} (h₁ : d₁.keys.Nodup) (h₂ : d₂.keys.Nodup) :
    d₁.eq d₂ = true ↔ ∀ k, d₁.get? k = d₂.get? k := by
  have hlen : ∀ d : PyDict K V, d.items.length = d.keys.length := fun d => by simp [keys]
  constructor
  · intro h
    simp only [eq, Bool.and_eq_true, decide_eq_true_eq, List.all_eq_true] at h
    obtain ⟨hl, ha⟩ := h
    have hsub : d₁.keys ⊆ d₂.keys := by
      intro k hk
      obtain ⟨p, hp, rfl⟩ := List.mem_map.1 hk
      have := ha p hp
      by_contra hc
      rw [get?_eq_none_iff.2 hc] at this
      cases this
    have hperm : d₁.keys.Perm d₂.keys :=
      (List.subperm_of_subset h₁ hsub).perm_of_length_le (by rw [← hlen, ← hlen]; omega)
    intro k
    by_cases hk : k ∈ d₁.keys
    · obtain ⟨p, hp, rfl⟩ := List.mem_map.1 hk
      rw [ha p hp]
      exact (get?_eq_some_iff h₁).2 hp
    · have hk2 : k ∉ d₂.keys := fun h => hk (hperm.mem_iff.2 h)
      rw [get?_eq_none_iff.2 hk, get?_eq_none_iff.2 hk2]
  · intro h
    have hmem : ∀ k, k ∈ d₁.keys ↔ k ∈ d₂.keys := by
      intro k
      rw [← not_iff_not, ← get?_eq_none_iff, ← get?_eq_none_iff, h]
    have hperm : d₁.keys.Perm d₂.keys := (List.perm_ext_iff_of_nodup h₁ h₂).2 hmem
    simp only [eq, Bool.and_eq_true, decide_eq_true_eq, List.all_eq_true]
    refine ⟨by rw [hlen, hlen, hperm.length_eq], ?_⟩
    rintro ⟨k, v⟩ hp
    rw [← h k]
    exact (get?_eq_some_iff h₁).2 hp

end PyDict
end Jaxfg
