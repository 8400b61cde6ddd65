/- Lemmas about row-major arrays. -/
import Verif.Model.Utils
import Verif.Spec.Utils
import Verif.Lemmas.Blocks

namespace Jaxfg
open Spec

section
variable {α β : Type _}

theorem getElem?_flatMap_const {f : β → List α} {c : Nat} : ∀ {l : List β}, (∀ x ∈ l, (f x).length = c) → ∀ (o r : Nat), r < c →
    (l.flatMap f)[o * c + r]? = l[o]?.bind fun x => (f x)[r]?
  | [], _, o, r, _ => by simp
  | x :: l, h, o, r, hr => by
    have hx := h x (by simp)
    rw [List.flatMap_cons]
    cases o with
    | zero => rw [List.getElem?_append_left (by omega)]; simp
    | succ o =>
      rw [List.getElem?_append_right (by rw [hx]; nlinarith), hx, show (o + 1) * c + r - c = o * c + r by
        rw [Nat.add_mul, Nat.one_mul, Nat.add_right_comm, Nat.add_sub_cancel], getElem?_flatMap_const (fun y hy => h y (by simp [hy])) o r hr]
      simp

theorem getElem?_flatMap_sum {f : β → List α} : ∀ {l : List β} {i : Nat} {x : β} {r : Nat}, l[i]? = some x → r < (f x).length →
    (l.flatMap f)[((l.take i).map fun y => (f y).length).sum + r]? = (f x)[r]?
  | [], i, x, r, h, _ => by simp at h
  | y :: l, 0, x, r, h, hr => by
    simp at h
    subst h
    rw [List.flatMap_cons, List.getElem?_append_left (by simpa using hr)]
    simp
  | y :: l, i + 1, x, r, h, hr => by
    rw [List.flatMap_cons, List.getElem?_append_right (by simp; omega)]
    rw [← getElem?_flatMap_sum (l := l) (i := i) (by simpa using h) hr]
    congr 1
    simp
    omega

theorem length_flatMap_const {f : β → List α} {c : Nat} {l : List β} (h : ∀ x ∈ l, (f x).length = c) : (l.flatMap f).length = l.length * c := by
  rw [List.length_flatMap, List.map_congr_left h]
  simp

theorem getElem?_slice {l : List α} {i n r : Nat} (h : r < n) : (slice l i n)[r]? = l[i + r]? := by
  simp [slice, h]

theorem rowMajor_append : ∀ {s t i j : List Nat}, i.length = s.length → rowMajor (s ++ t) (i ++ j) = rowMajor s i * t.prod + rowMajor t j
  | [], t, [], j, _ => by simp [rowMajor]
  | _ :: s, t, x :: i, j, h => by
    show x * (s ++ t).prod + rowMajor (s ++ t) (i ++ j) = (x * s.prod + rowMajor s i) * t.prod + rowMajor t j
    rw [rowMajor_append (by simpa using h), List.prod_append]
    ring

theorem rowMajor_lt : ∀ {s i : List Nat}, List.Forall₂ (· < ·) i s → rowMajor s i < s.prod
  | [], [], _ => by simp [rowMajor]
  | n :: s, x :: i, h => by
    obtain ⟨h1, h2⟩ := List.forall₂_cons.1 h
    have := rowMajor_lt h2
    show x * s.prod + rowMajor s i < (n :: s).prod
    rw [List.prod_cons]
    calc x * s.prod + rowMajor s i < x * s.prod + s.prod := by omega
      _ = (x + 1) * s.prod := by ring
      _ ≤ n * s.prod := Nat.mul_le_mul_right _ h1

theorem forall₂_append_iff {R : Nat → Nat → Prop} {s t i j : List Nat} (h : i.length = s.length) :
    List.Forall₂ R (i ++ j) (s ++ t) ↔ List.Forall₂ R i s ∧ List.Forall₂ R j t := by
  constructor
  · intro H
    refine ⟨?_, ?_⟩
    · have := List.forall₂_take i.length H
      rwa [List.take_left, h, List.take_left] at this
    · have := List.forall₂_drop i.length H
      rwa [List.drop_left, h, List.drop_left] at this
  · rintro ⟨h1, h2⟩
    exact List.rel_append h1 h2

/-- Blocks of equal size, for each value of the leading axes. -/
theorem block_at {sp sq : List Nat} {as : List β} {len : β → Nat} {dat : β → List α} (hwf : ∀ b ∈ as, (dat b).length = sp.prod * (len b * sq.prod))
    {pre post : List Nat} {i y : Nat} {b : β} (hb : as[i]? = some b) (hy : y < len b) (hpre : List.Forall₂ (· < ·) pre sp)
    (hpost : List.Forall₂ (· < ·) post sq) :
    ((List.range sp.prod).flatMap fun o => as.flatMap fun b => slice (dat b) (o * (len b * sq.prod)) (len b * sq.prod))[
      rowMajor sp pre * ((as.map len).sum * sq.prod) + ((((as.take i).map len).sum + y) * sq.prod + rowMajor sq post)]? =
      (dat b)[rowMajor sp pre * (len b * sq.prod) + (y * sq.prod + rowMajor sq post)]? := by
  have hp := rowMajor_lt hpre
  have hq := rowMajor_lt hpost
  have hmem := List.mem_of_getElem? hb
  have hsl : ∀ o < sp.prod, ∀ b ∈ as, (slice (dat b) (o * (len b * sq.prod)) (len b * sq.prod)).length = len b * sq.prod := by
    intro o ho b hb
    refine length_slice ?_
    rw [hwf b hb]
    calc o * (len b * sq.prod) + len b * sq.prod = (o + 1) * (len b * sq.prod) := by ring
      _ ≤ _ := Nat.mul_le_mul_right _ ho
  have hsum : ∀ (l : List β), (∀ b ∈ l, b ∈ as) → ∀ o < sp.prod,
      (l.map fun b => (slice (dat b) (o * (len b * sq.prod)) (len b * sq.prod)).length).sum = (l.map len).sum * sq.prod := by
    intro l hl o ho
    rw [List.map_congr_left (fun b hb => hsl o ho b (hl b hb)), List.sum_map_mul_right]
  have hylt : y * sq.prod + rowMajor sq post < len b * sq.prod := by
    calc y * sq.prod + rowMajor sq post < (y + 1) * sq.prod := by rw [Nat.add_mul, Nat.one_mul]; omega
      _ ≤ _ := Nat.mul_le_mul_right _ hy
  rw [getElem?_flatMap_const (c := (as.map len).sum * sq.prod)]
  · rw [List.getElem?_range hp, Option.bind_some]
    have := getElem?_flatMap_sum (f := fun b => slice (dat b) (rowMajor sp pre * (len b * sq.prod)) (len b * sq.prod)) hb
      (r := y * sq.prod + rowMajor sq post) (by rw [hsl _ hp b hmem]; exact hylt)
    rw [hsum _ (fun b hb => List.mem_of_mem_take hb) _ hp] at this
    rw [Nat.add_mul, Nat.add_assoc, this, getElem?_slice hylt]
  · intro o ho
    rw [List.length_flatMap, hsum as (fun b hb => hb) o (List.mem_range.1 ho)]
  · have h1 : ((as.take i).map len).sum + len b ≤ (as.map len).sum := by
      have hi : i < as.length := (List.getElem?_eq_some_iff.1 hb).1
      have hbe : as[i] = b := (List.getElem?_eq_some_iff.1 hb).2
      calc ((as.take i).map len).sum + len b = ((as.take (i + 1)).map len).sum := by
            rw [List.take_add_one, hb]; simp
        _ ≤ (as.map len).sum := by
            conv_rhs => rw [← List.take_append_drop (i + 1) as, List.map_append, List.sum_append]
            omega
    calc (((as.take i).map len).sum + y) * sq.prod + rowMajor sq post
        = ((as.take i).map len).sum * sq.prod + (y * sq.prod + rowMajor sq post) := by ring
      _ < ((as.take i).map len).sum * sq.prod + len b * sq.prod := by omega
      _ = (((as.take i).map len).sum + len b) * sq.prod := by ring
      _ ≤ _ := Nat.mul_le_mul_right _ h1

theorem normalizeAxis_ok {axis : Int} {n k : Nat} : normalizeAxis axis n = .ok k ↔ IsAxis axis n k := by
  unfold normalizeAxis IsAxis
  constructor
  · intro h
    split at h
    · cases Except.ok.inj h; omega
    · split at h
      · cases Except.ok.inj h; omega
      · cases h
  · rintro ⟨h1, h2⟩
    split
    · congr 1; omega
    · split
      · congr 1; omega
      · omega

/-- The entries of `jnp.stack`. -/
theorem jnpStack_entries {axis : Int} {as : List (Arr α)} (hwf : ∀ a ∈ as, a.data.length = a.shape.prod) {b : Arr α} (h : jnpStack axis as = .ok b) :
    ∃ sp sq, (∀ a ∈ as, a.shape = sp ++ sq) ∧ IsAxis axis (sp.length + 1 + sq.length) sp.length ∧ b.shape = sp ++ as.length :: sq ∧
      b.data.length = b.shape.prod ∧ ∀ pre i post x, pre.length = sp.length →
        (Arr.At b (pre ++ i :: post) x ↔ ∃ a, as[i]? = some a ∧ Arr.At a (pre ++ post) x) := by
  obtain ⟨bs, hbs⟩ : ∃ bs, bs = as := ⟨_, rfl⟩
  match as, h with
  | a :: l, h =>
    unfold jnpStack at h
    dsimp only at h
    rw [← hbs] at h hwf ⊢
    split at h
    · cases h
    rename_i hsh
    have hsh : ∀ b ∈ bs, b.shape = a.shape := by simpa using hsh
    cases hk : normalizeAxis axis (a.shape.length + 1) with
    | error e => rw [hk] at h; cases h
    | ok k =>
      rw [hk] at h
      cases Except.ok.inj h
      have hax := normalizeAxis_ok.1 hk
      have hkl : (a.shape.take k).length = k := by have := hax.1; simp; omega
      have hsplit : a.shape.take k ++ a.shape.drop k = a.shape := List.take_append_drop _ _
      obtain ⟨sp, hsp⟩ : ∃ sp, sp = a.shape.take k := ⟨_, rfl⟩
      obtain ⟨sq, hsq⟩ : ∃ sq, sq = a.shape.drop k := ⟨_, rfl⟩
      rw [← hsp, ← hsq] at hsplit
      rw [← hsp] at hkl
      simp only [← hsp, ← hsq]
      have hlen : ∀ b ∈ bs, b.data.length = sp.prod * (1 * sq.prod) := fun b hb => by
        rw [hwf b hb, hsh b hb, ← hsplit, List.prod_append, one_mul]
      have hsum : ∀ l : List (Arr α), (l.map fun _ => 1).sum = l.length := fun l => by simp
      refine ⟨sp, sq, fun b hb => (hsh b hb).trans hsplit.symm, ?_, rfl, ?_, ?_⟩
      · have : sp.length + 1 + sq.length = a.shape.length + 1 := by rw [← hsplit]; simp; omega
        rw [this, hkl]; exact hax
      · rw [length_flatMap_const (c := bs.length * sq.prod), List.length_range]
        · simp
        · intro o ho
          rw [length_flatMap_const (c := sq.prod)]
          intro b hb
          refine length_slice ?_
          rw [hlen b hb, one_mul]
          calc o * sq.prod + sq.prod = (o + 1) * sq.prod := by ring
            _ ≤ _ := Nat.mul_le_mul_right _ (List.mem_range.1 ho)
      · intro pre i post x hpre
        unfold Arr.At
        simp only
        rw [forall₂_append_iff hpre, List.forall₂_cons, rowMajor_append hpre]
        have key : ∀ b, bs[i]? = some b → List.Forall₂ (· < ·) pre sp → List.Forall₂ (· < ·) post sq →
            ((List.range sp.prod).flatMap fun o => bs.flatMap fun b => slice b.data (o * sq.prod) sq.prod)[
              rowMajor sp pre * (bs.length :: sq).prod + rowMajor (bs.length :: sq) (i :: post)]? =
            b.data[rowMajor b.shape (pre ++ post)]? := by
          intro b hb h1 h2
          have := block_at (len := fun _ => 1) (dat := Arr.data) hlen hb (y := 0) (by simp) h1 h2
          simp only [hsum, one_mul, zero_mul, zero_add, add_zero] at this
          have hi : i < bs.length := (List.getElem?_eq_some_iff.1 hb).1
          rw [List.length_take, Nat.min_eq_left hi.le] at this
          rw [(hsh b (List.mem_of_getElem? hb)).trans hsplit.symm, rowMajor_append hpre, ← this]
          rfl
        constructor
        · rintro ⟨⟨h1, h2, h3⟩, h4⟩
          refine ⟨bs[i], List.getElem?_eq_getElem h2, ?_, ?_⟩
          · rw [(hsh _ (List.getElem_mem h2)).trans hsplit.symm, forall₂_append_iff hpre]
            exact ⟨h1, h3⟩
          · rw [← key _ (List.getElem?_eq_getElem h2) h1 h3]; exact h4
        · rintro ⟨b, hb, h1, h2⟩
          rw [(hsh _ (List.mem_of_getElem? hb)).trans hsplit.symm, forall₂_append_iff hpre] at h1
          refine ⟨⟨h1.1, (List.getElem?_eq_some_iff.1 hb).1, h1.2⟩, ?_⟩
          rw [key b hb h1.1 h1.2]; exact h2

/-- The entries of `jnp.concatenate`. -/
theorem jnpConcatenate_entries {axis : Int} {as : List (Arr α)} (hwf : ∀ a ∈ as, a.data.length = a.shape.prod) {b : Arr α}
    (h : jnpConcatenate axis as = .ok b) :
    ∃ (sp sq : List Nat) (n : Arr α → Nat), (∀ a ∈ as, a.shape = sp ++ n a :: sq) ∧ IsAxis axis (sp.length + 1 + sq.length) sp.length ∧
      b.shape = sp ++ (as.map n).sum :: sq ∧ b.data.length = b.shape.prod ∧
      ∀ i a, as[i]? = some a → ∀ pre y post x, pre.length = sp.length → y < n a →
        (Arr.At b (pre ++ (((as.take i).map n).sum + y) :: post) x ↔ Arr.At a (pre ++ y :: post) x) := by
  obtain ⟨bs, hbs⟩ : ∃ bs, bs = as := ⟨_, rfl⟩
  match as, h with
  | a :: l, h =>
    unfold jnpConcatenate at h
    dsimp only at h
    rw [← hbs] at h hwf ⊢
    cases hk : normalizeAxis axis a.shape.length with
    | error e => rw [hk] at h; cases h
    | ok k =>
      rw [hk] at h
      simp only [bind, Except.bind] at h
      split at h
      · cases h
      rename_i hsh
      have hsh : ∀ b ∈ bs, b.shape.length = a.shape.length ∧ b.shape.take k = a.shape.take k ∧ b.shape.drop (k + 1) = a.shape.drop (k + 1) := by
        simpa using hsh
      cases Except.ok.inj h
      have hax := normalizeAxis_ok.1 hk
      have hkl : (a.shape.take k).length = k := by have := hax.1; simp; omega
      obtain ⟨n, hn⟩ : ∃ n : Arr α → Nat, n = fun b => b.shape.getD k 0 := ⟨_, rfl⟩
      have hsplit : ∀ b ∈ bs, b.shape = a.shape.take k ++ n b :: a.shape.drop (k + 1) := by
        intro b hb
        obtain ⟨h1, h2, h3⟩ := hsh b hb
        have hkb : k < b.shape.length := by rw [h1]; exact hax.1
        rw [← h2, ← h3, hn]
        simp only [List.getD_eq_getElem?_getD, List.getElem?_eq_getElem hkb, Option.getD_some]
        rw [← List.drop_eq_getElem_cons hkb, List.take_append_drop]
      obtain ⟨sp, hsp⟩ : ∃ sp, sp = a.shape.take k := ⟨_, rfl⟩
      obtain ⟨sq, hsq⟩ : ∃ sq, sq = a.shape.drop (k + 1) := ⟨_, rfl⟩
      rw [← hsp] at hkl
      simp only [← hsp, ← hsq] at hsplit ⊢
      have hn' : ∀ b : Arr α, b.shape.getD k 0 = n b := fun b => by rw [hn]
      simp only [hn']
      have hlen : ∀ b ∈ bs, b.data.length = sp.prod * (n b * sq.prod) := fun b hb => by
        rw [hwf b hb, hsplit b hb, List.prod_append, List.prod_cons]
      refine ⟨sp, sq, n, hsplit, ?_, rfl, ?_, ?_⟩
      · have := congrArg List.length (hsplit a (by rw [hbs]; simp))
        rw [List.length_append, List.length_cons] at this
        rw [show sp.length + 1 + sq.length = a.shape.length by omega, hkl]
        exact hax
      · rw [length_flatMap_const (c := (bs.map n).sum * sq.prod), List.length_range]
        · simp
        · intro o ho
          rw [List.length_flatMap, ← List.sum_map_mul_right]
          congr 1
          refine List.map_congr_left fun b hb => length_slice ?_
          rw [hlen b hb]
          calc o * (n b * sq.prod) + n b * sq.prod = (o + 1) * (n b * sq.prod) := by ring
            _ ≤ _ := Nat.mul_le_mul_right _ (List.mem_range.1 ho)
      · intro i b hb pre y post x hpre hy
        unfold Arr.At
        have hmem := List.mem_of_getElem? hb
        rw [hsplit b hmem]
        simp only
        rw [forall₂_append_iff hpre, forall₂_append_iff hpre, List.forall₂_cons, List.forall₂_cons, rowMajor_append hpre, rowMajor_append hpre]
        have hle : ((bs.take i).map n).sum + n b ≤ (bs.map n).sum := by
          calc ((bs.take i).map n).sum + n b = ((bs.take (i + 1)).map n).sum := by rw [List.take_add_one, hb]; simp
            _ ≤ (bs.map n).sum := by
                conv_rhs => rw [← List.take_append_drop (i + 1) bs, List.map_append, List.sum_append]
                omega
        have key : List.Forall₂ (· < ·) pre sp → List.Forall₂ (· < ·) post sq → _ := fun h1 h2 =>
          block_at (len := n) (dat := Arr.data) hlen hb hy h1 h2
        simp only [List.prod_cons, rowMajor]
        constructor
        · rintro ⟨⟨h1, h2, h3⟩, h4⟩
          refine ⟨⟨h1, hy, h3⟩, ?_⟩
          rw [← key h1 h3]; exact h4
        · rintro ⟨⟨h1, h2, h3⟩, h4⟩
          refine ⟨⟨h1, lt_of_lt_of_le (Nat.add_lt_add_left hy _) hle, h3⟩, ?_⟩
          rw [key h1 h3]; exact h4

end
end Jaxfg
