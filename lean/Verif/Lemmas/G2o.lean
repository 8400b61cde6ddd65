/- Reading g2o files. -/
import Verif.Spec.G2o
import Verif.Lemmas.Noise
import Verif.Lemmas.LieMotion
import Verif.Lemmas.Dict
import Verif.Lemmas.Cholesky
import Mathlib.Algebra.Order.Star.Real

namespace Jaxfg
open Spec
open Matrix hiding vec

/-! ### Words -/

theorem splitSpace_ne_nil (l : List Char) : splitSpace l ≠ [] := by
  cases l with
  | nil => simp [splitSpace]
  | cons c l =>
    unfold splitSpace
    split
    · simp
    · split <;> simp

theorem splitSpace_space (l : List Char) : splitSpace (' ' :: l) = [] :: splitSpace l := by simp [splitSpace]

theorem isSpace_iff {c : Char} : isSpace c = true ↔ WhiteChar c := by
  constructor
  · intro h
    have hn : c.toNat ∈ [9, 10, 11, 12, 13, 28, 29, 30, 31, 32, 0x85, 0xa0, 0x1680, 0x2000, 0x2001, 0x2002, 0x2003, 0x2004, 0x2005, 0x2006,
        0x2007, 0x2008, 0x2009, 0x200a, 0x2028, 0x2029, 0x202f, 0x205f, 0x3000] := by
      simp only [isSpace, Bool.or_eq_true, Bool.and_eq_true, decide_eq_true_eq, beq_iff_eq] at h
      simp only [List.mem_cons, List.not_mem_nil, or_false]
      omega
    have hc : c = Char.ofNat c.toNat := (Char.ofNat_toNat c).symm
    simp only [List.mem_cons, List.not_mem_nil, or_false] at hn
    rw [hc]
    rcases hn with h | h | h | h | h | h | h | h | h | h | h | h | h | h | h | h | h | h | h | h | h | h | h | h | h | h | h | h | h <;>
      (rw [h]; decide)
  · intro h
    simp only [WhiteChar, List.mem_cons, List.not_mem_nil, or_false] at h
    rcases h with rfl | rfl | rfl | rfl | rfl | rfl | rfl | rfl | rfl | rfl | rfl | rfl | rfl | rfl | rfl | rfl | rfl | rfl | rfl | rfl |
      rfl | rfl | rfl | rfl | rfl | rfl | rfl | rfl | rfl <;> decide

theorem isSpace_false {c : Char} : isSpace c = false ↔ ¬WhiteChar c := by rw [← isSpace_iff, Bool.not_eq_true]

theorem word_no_space {p : List Char} (hp : IsWord p) : ∀ c ∈ p, isSpace c = false := fun c hc => isSpace_false.2 (hp.2 c hc)

theorem splitSpace_word {p : List Char} (hp : ∀ c ∈ p, isSpace c = false) (l : List Char) :
    splitSpace (p ++ ' ' :: l) = p :: splitSpace l := by
  induction p with
  | nil => simp [splitSpace]
  | cons c p ih =>
    have hc : c ≠ ' ' := by
      rintro rfl
      exact absurd (hp ' ' (by simp)) (by decide)
    rw [List.cons_append, splitSpace, if_neg hc, ih fun c h => hp c (by simp [h])]

theorem splitSpace_last {p : List Char} (hp : ∀ c ∈ p, isSpace c = false) : splitSpace p = [p] := by
  induction p with
  | nil => simp [splitSpace]
  | cons c p ih =>
    have hc : c ≠ ' ' := by
      rintro rfl
      exact absurd (hp ' ' (by simp)) (by decide)
    rw [splitSpace, if_neg hc, ih fun c h => hp c (by simp [h])]

theorem splitSpace_spaces (n : Nat) (l : List Char) : (splitSpace (List.replicate n ' ' ++ l)).filter (· ≠ []) = (splitSpace l).filter (· ≠ []) := by
  induction n with
  | zero => simp
  | succ n ih =>
    rw [List.replicate_succ, List.cons_append, splitSpace_space, List.filter_cons]
    simpa using ih

theorem splitSpace_spaced {ps : List (List Char)} {l : List Char} (h : Spaced ps l) : (splitSpace l).filter (· ≠ []) = ps := by
  induction h with
  | one p hp => rw [splitSpace_last (word_no_space hp)]; simp [hp.1]
  | cons p n ps rest hp h ih =>
    rw [List.append_assoc, List.replicate_succ, List.cons_append, splitSpace_word (word_no_space hp), List.filter_cons]
    rw [if_pos (by simpa using hp.1), splitSpace_spaces, ih]

theorem spaced_head {ps : List (List Char)} {l : List Char} (h : Spaced ps l) : ∃ c l', l = c :: l' ∧ isSpace c = false := by
  have aux : ∀ p : List Char, IsWord p → ∀ r, ∃ c l', p ++ r = c :: l' ∧ isSpace c = false := by
    intro p hp r
    cases p with
    | nil => exact absurd rfl hp.1
    | cons c p => exact ⟨c, p ++ r, rfl, (word_no_space hp) c (by simp)⟩
  cases h with
  | one _ hp => simpa using aux _ hp []
  | cons p n ps rest hp h => rw [List.append_assoc]; exact aux p hp _

theorem spaced_last {ps : List (List Char)} {l : List Char} (h : Spaced ps l) : ∃ c l', l = l' ++ [c] ∧ isSpace c = false := by
  induction h with
  | one p hp =>
    refine ⟨p.getLast hp.1, p.dropLast, (List.dropLast_append_getLast hp.1).symm, (word_no_space hp) _ (List.getLast_mem _)⟩
  | cons p n ps rest hp h ih =>
    obtain ⟨c, l', rfl, hc⟩ := ih
    exact ⟨c, p ++ List.replicate (n + 1) ' ' ++ l', by simp, hc⟩

theorem dropWhile_all_append {p : Char → Bool} {w l : List Char} (h : ∀ c ∈ w, p c = true) : (w ++ l).dropWhile p = l.dropWhile p := by
  induction w with
  | nil => rfl
  | cons c w ih => rw [List.cons_append, List.dropWhile_cons_of_pos (h c (by simp)), ih fun c hc => h c (by simp [hc])]

theorem strip_spaced {ps : List (List Char)} {l w w' : List Char} (h : Spaced ps l) (hw : ∀ c ∈ w, isSpace c = true)
    (hw' : ∀ c ∈ w', isSpace c = true) : strip (w ++ l ++ w') = l := by
  unfold strip
  rw [List.append_assoc, dropWhile_all_append hw]
  obtain ⟨c, l', rfl, hc⟩ := spaced_head h
  rw [List.cons_append, List.dropWhile_cons_of_neg (by simp [hc]), ← List.cons_append, List.reverse_append,
    dropWhile_all_append (by simpa using hw')]
  obtain ⟨d, l'', e, hd⟩ := spaced_last h
  rw [e, List.reverse_append]
  simp [hd]

theorem fields_spaced {ps : List (List Char)} {l w w' : List Char} (h : Spaced ps l) (hw : ∀ c ∈ w, isSpace c = true)
    (hw' : ∀ c ∈ w', isSpace c = true) : fields (w ++ l ++ w') = ps := by
  rw [fields, strip_spaced h hw hw', splitSpace_spaced h]

theorem fields_blank {w : List Char} (hw : ∀ c ∈ w, isSpace c = true) : fields w = [] := by
  have := dropWhile_all_append (l := []) hw
  simp only [List.append_nil] at this
  rw [fields, strip, this]
  simp [splitSpace]

/-! ### Precision matrices -/

theorem scatterSet_length (upd : List (Nat × ℝ)) (data : List ℝ) : (scatterSet data upd).length = data.length := by
  induction upd generalizing data with
  | nil => rfl
  | cons p upd ih =>
    have e : scatterSet data (p :: upd) = scatterSet (data.set p.1 p.2) upd := rfl
    rw [e, ih, List.length_set]

/-- An entry after a scatter in which all updates of the entry agree. -/
theorem scatterSet_getD (upd : List (Nat × ℝ)) (data : List ℝ) (k : Nat) (x : ℝ) (hk : k < data.length)
    (h : data.getD k 0 = x ∨ ∃ p ∈ upd, p.1 = k) (hx : ∀ p ∈ upd, p.1 = k → p.2 = x) : (scatterSet data upd).getD k 0 = x := by
  induction upd generalizing data with
  | nil => simpa [scatterSet] using h
  | cons p upd ih =>
    have e : scatterSet data (p :: upd) = scatterSet (data.set p.1 p.2) upd := rfl
    rw [e]
    apply ih _ (by rwa [List.length_set]) _ fun q hq => hx q (by simp [hq])
    by_cases hp : p.1 = k
    · left
      rw [List.getD_eq_getElem?_getD, hp, List.getElem?_set_self hk]
      exact hx p (by simp) hp
    · rcases h with h | ⟨q, hq, hqk⟩
      · left
        rw [List.getD_eq_getElem?_getD, List.getElem?_set_ne hp, ← List.getD_eq_getElem?_getD]
        exact h
      · right
        rcases List.mem_cons.1 hq with rfl | hq
        · exact absurd hqk hp
        · exact ⟨q, hq, hqk⟩

theorem mem_triuIndices {n : Nat} {p : Nat × Nat} : p ∈ triuIndices n ↔ p.1 ≤ p.2 ∧ p.2 < n := by
  obtain ⟨i, j⟩ := p
  simp only [triuIndices, List.mem_flatMap, List.mem_range, List.mem_map, List.mem_filter, decide_eq_true_eq, Prod.mk.injEq]
  constructor
  · rintro ⟨i', _, j', ⟨h1, h2⟩, rfl, rfl⟩
    exact ⟨h2, h1⟩
  · rintro ⟨h1, h2⟩
    exact ⟨i, by omega, j, ⟨h2, h1⟩, rfl, rfl⟩

theorem finRange_map_val (n : Nat) : (List.finRange n).map Fin.val = List.range n := by simp

/-- The entries of the upper triangle, by their indices. -/
theorem upperTriangle_eq {n : Nat} (P : Matrix (Fin n) (Fin n) ℝ) :
    upperTriangle P = (triuIndices n).map fun p => if h : p.1 < n ∧ p.2 < n then P ⟨p.1, h.1⟩ ⟨p.2, h.2⟩ else 0 := by
  rw [upperTriangle, triuIndices, ← finRange_map_val, List.flatMap_map, List.map_flatMap]
  congr 1
  funext i
  rw [List.filter_map, List.map_map, List.map_map]
  have : ((fun j => decide (i.val ≤ j)) ∘ Fin.val : Fin n → Bool) = fun j => decide (i ≤ j) := rfl
  rw [this]
  apply List.map_congr_left
  intro j _
  simp

theorem upperTriangle_length {n : Nat} (P : Matrix (Fin n) (Fin n) ℝ) : (upperTriangle P).length = (triuIndices n).length := by
  rw [upperTriangle_eq, List.length_map]

theorem flat_inj {n i j i' j' : Nat} (hj : j < n) (hj' : j' < n) (h : i * n + j = i' * n + j') : i = i' ∧ j = j' := by
  have hn : 0 < n := by omega
  have h1 : (i * n + j) / n = i := by
    rw [Nat.mul_comm, Nat.mul_add_div hn, Nat.div_eq_of_lt hj, Nat.add_zero]
  have h2 : (i' * n + j') / n = i' := by
    rw [Nat.mul_comm, Nat.mul_add_div hn, Nat.div_eq_of_lt hj', Nat.add_zero]
  have : i = i' := by rw [← h1, ← h2, h]
  subst this
  exact ⟨rfl, by omega⟩

theorem flat_lt {n i j : Nat} (hi : i < n) (hj : j < n) : i * n + j < n * n := by
  have : (i + 1) * n ≤ n * n := Nat.mul_le_mul_right n hi
  rw [Nat.add_mul, Nat.one_mul] at this
  omega

/-- Assigning the upper triangle of an array. -/
theorem setTriu_upperTriangle {n : Nat} (P : Matrix (Fin n) (Fin n) ℝ) {a : Arr ℝ} (ha : IsMat a n n) :
    ∃ b, setTriu n a (upperTriangle P) = .ok b ∧ IsMat b n n ∧
      arrMat b n n = fun i j => if i ≤ j then P i j else arrMat a n n i j := by
  unfold setTriu
  dsimp only
  rw [if_pos (by rw [upperTriangle_length, List.length_map])]
  refine ⟨_, rfl, ⟨ha.1, by rw [scatterSet_length]; exact ha.2⟩, ?_⟩
  funext i j
  have hlen : a.data.length = n * n := ha.2
  rw [upperTriangle_eq, List.zip_map']
  show (scatterSet a.data _).getD (i.val * n + j.val) 0 = _
  have hb := flat_lt i.2 j.2
  split
  · rename_i hij
    apply scatterSet_getD _ _ _ _ (by omega)
    · right
      exact ⟨_, List.mem_map.2 ⟨(i.val, j.val), mem_triuIndices.2 ⟨hij, j.2⟩, rfl⟩, rfl⟩
    · intro q hq hk
      obtain ⟨p, hp, rfl⟩ := List.mem_map.1 hq
      obtain ⟨h1, h2⟩ := mem_triuIndices.1 hp
      obtain ⟨e1, e2⟩ := flat_inj h2 j.2 hk
      dsimp only
      rw [dif_pos ⟨by omega, h2⟩]
      congr 1 <;> exact Fin.ext (by assumption)
  · rename_i hij
    apply scatterSet_getD _ _ _ _ (by omega)
    · left; rfl
    · intro q hq hk
      obtain ⟨p, hp, rfl⟩ := List.mem_map.1 hq
      obtain ⟨h1, h2⟩ := mem_triuIndices.1 hp
      obtain ⟨e1, e2⟩ := flat_inj h2 j.2 hk
      exact absurd (show i ≤ j from Fin.le_def.2 (by omega)) hij

theorem precisionMatrix_upperTriangle {n : Nat} (P : Matrix (Fin n) (Fin n) ℝ) (hP : P.IsSymm) :
    precisionMatrix n (upperTriangle P) = .ok (.ofMat P) := by
  have h0 : IsMat (⟨[n, n], List.replicate (n * n) 0⟩ : Arr ℝ) n n := ⟨rfl, by simp⟩
  obtain ⟨b, hb, hb', hbm⟩ := setTriu_upperTriangle P h0
  obtain ⟨c, hc, hc', hcm⟩ := setTriu_upperTriangle P (isMat_of2 n n fun i j => b.at2 n j i)
  have : precisionMatrix n (upperTriangle P) = .ok c := by
    unfold precisionMatrix
    rw [hb]
    exact hc
  rw [this]
  congr 1
  apply isMat_ext hc' (isMat_ofMat P)
  rw [hcm, arrMat_ofMat, arrMat_of2]
  funext i j
  split
  · rfl
  · rename_i hij
    have hji : j ≤ i := le_of_not_ge hij
    have := congrFun (congrFun hbm j) i
    rw [if_pos hji] at this
    exact this.trans (hP.apply i j)

theorem sqrtPrecision_posDef {n : Nat} (P : Matrix (Fin n) (Fin n) ℝ) (hP : P.PosDef) :
    sqrtPrecision n (.ofMat P) = .ok (.ofMat (cholesky P)ᵀ) := by
  unfold sqrtPrecision
  rw [toMat_eq, arrMat_ofMat, if_pos (exists_isCholesky hP)]

theorem IsCholesky.posDef {n : Nat} {S L : Matrix (Fin n) (Fin n) ℝ} (h : IsCholesky S L) : S.PosDef := by
  have hL : Function.Injective L.vecMul := by
    have := h.isUnit
    exact Matrix.vecMul_injective_iff_isUnit.2 this
  have := Matrix.PosDef.mul_conjTranspose_self L hL
  rwa [Matrix.conjTranspose_eq_transpose_of_trivial, h.mul_self] at this

theorem sqrtPrecision_not_posDef {n : Nat} (P : Matrix (Fin n) (Fin n) ℝ) (hP : ¬P.PosDef) :
    sqrtPrecision n (.ofMat P) = .error .value := by
  unfold sqrtPrecision
  rw [toMat_eq, arrMat_ofMat, if_neg]
  rintro ⟨L, hL⟩
  exact hP hL.posDef

/-- The noise model of an edge weighs a residual by `rᵀ P r`. -/
theorem whiten_cholesky {n : Nat} (P : Matrix (Fin n) (Fin n) ℝ) (hP : P.PosDef) {r : List ℝ} (hr : r.length = n) :
    ∃ w, (Noise.gaussian (.ofMat (cholesky P)ᵀ)).whiten r = .ok w ∧ sqNorm w = vec r n ⬝ᵥ (P *ᵥ vec r n) := by
  obtain ⟨w, hw, hwl, hwv⟩ := whiten_gaussian (N := .gaussian (.ofMat (cholesky P)ᵀ)) (n := n) (m := n) (isMat_ofMat _) trivial hr
  refine ⟨w, hw, ?_⟩
  have e : noiseMat (.gaussian (.ofMat (cholesky P)ᵀ)) n n = (cholesky P)ᵀ := arrMat_ofMat _
  rw [sqNorm_eq hwl, hwv, e, ← (cholesky_spec hP).mul_self, ← Matrix.mulVec_mulVec, (cholesky_spec hP).mul_self,
    Matrix.mulVec_transpose, Matrix.dotProduct_mulVec]

/-! ### One line -/

theorem numbers_mapM {R : Reader} {ws : List (List Char)} {xs : List ℝ} (h : Numbers R ws xs) : ws.mapM R.float = .ok xs := by
  induction h with
  | nil => rfl
  | cons h _ ih => rw [List.mapM_cons, h, ih]; rfl

theorem pyGet_ok {α : Type} {l : List α} {i : Int} (h0 : 0 ≤ i) (h : i < l.length) :
    ∃ x, pyGet l i = .ok x ∧ l[i.toNat]? = some x := by
  have hl : i.toNat < l.length := by omega
  refine ⟨l[i.toNat], ?_, List.getElem?_eq_getElem hl⟩
  unfold pyGet
  simp only [if_neg (show ¬i < 0 by omega), List.getElem?_eq_getElem hl]

theorem pyGet_error {α : Type} {l : List α} {i : Int} (h : (l.length : Int) ≤ i) : pyGet l i = .error .index := by
  have hl : l.length ≤ i.toNat := by omega
  unfold pyGet
  simp only [if_neg (show ¬i < 0 by omega), List.getElem?_eq_none hl]

theorem line_cons (R : Reader) (limit : Int) (s : G2oState) (kind : List Char) (ps : List (List Char)) :
    s.line R limit (kind :: ps) =
      if kind = "VERTEX_SE2".toList then s.vertexSE2 R limit (kind :: ps)
      else if kind = "EDGE_SE2".toList then s.edgeSE2 R limit (kind :: ps)
      else if kind = "VERTEX_SE3:QUAT".toList then s.vertexSE3 R (kind :: ps)
      else if kind = "EDGE_SE3:QUAT".toList then s.edgeSE3 R (kind :: ps)
      else .error .assertion := rfl

theorem line_vertexSE2 (R : Reader) (limit : Int) (s : G2oState) (ps : List (List Char)) :
    s.line R limit ("VERTEX_SE2".toList :: ps) = s.vertexSE2 R limit ("VERTEX_SE2".toList :: ps) := by
  rw [line_cons, if_pos rfl]

theorem line_edgeSE2 (R : Reader) (limit : Int) (s : G2oState) (ps : List (List Char)) :
    s.line R limit ("EDGE_SE2".toList :: ps) = s.edgeSE2 R limit ("EDGE_SE2".toList :: ps) := by
  rw [line_cons, if_neg (by decide), if_pos rfl]

theorem line_vertexSE3 (R : Reader) (limit : Int) (s : G2oState) (ps : List (List Char)) :
    s.line R limit ("VERTEX_SE3:QUAT".toList :: ps) = s.vertexSE3 R ("VERTEX_SE3:QUAT".toList :: ps) := by
  rw [line_cons, if_neg (by decide), if_neg (by decide), if_pos rfl]

theorem line_edgeSE3 (R : Reader) (limit : Int) (s : G2oState) (ps : List (List Char)) :
    s.line R limit ("EDGE_SE3:QUAT".toList :: ps) = s.edgeSE3 R ("EDGE_SE3:QUAT".toList :: ps) := by
  rw [line_cons, if_neg (by decide), if_neg (by decide), if_neg (by decide), if_pos rfl]

theorem line_nil (R : Reader) (limit : Int) (s : G2oState) : s.line R limit [] = .error .index := rfl

theorem line_vertex {R : Reader} {k : LieType} {ps : List (List Char)} {n : Int} {x : List ℝ} (h : Reads R k ps (.vertex n x))
    (limit : Int) (s : G2oState) : s.line R limit ps =
      if k = .se2 ∧ limit < s.poseVariables.length then .ok s
      else if (s.initialPoses.items.length : Int) = n then .ok (s.addPose k.fileTy x) else .error .assertion := by
  cases h with
  | vertex2 hn hx =>
    rcases hx with _ | ⟨ha, _ | ⟨hb, _ | ⟨hc, _ | _⟩⟩⟩
    rw [line_vertexSE2, G2oState.vertexSE2]
    by_cases h1 : limit < s.poseVariables.length
    · rw [if_pos h1, if_pos ⟨rfl, h1⟩]
    · rw [if_neg h1, if_neg fun h => h1 h.2]
      simp only [hn, ha, hb, hc]
      by_cases h2 : (s.initialPoses.items.length : Int) = n
      · rw [if_pos h2, ← h2]; simp [pyAssert, bind, Except.bind, pure, Except.pure, se2FromXyTheta, LieType.fileTy]
      · rw [if_neg h2]; simp [pyAssert, h2, bind, Except.bind]
  | vertex3 hn hx =>
    rcases hx with _ | ⟨ha, _ | ⟨hb, _ | ⟨hc, _ | ⟨h1, _ | ⟨h2, _ | ⟨h3, _ | ⟨h4, _ | _⟩⟩⟩⟩⟩⟩⟩
    rw [line_vertexSE3, G2oState.vertexSE3, if_neg fun h => by cases h.1]
    have := numbers_mapM (R := R) (.cons h4 (.cons h1 (.cons h2 (.cons h3 (.cons ha (.cons hb (.cons hc .nil)))))))
    simp only [hn, this]
    by_cases h2 : (s.initialPoses.items.length : Int) = n
    · rw [if_pos h2, ← h2]; simp [pyAssert, bind, Except.bind, pure, Except.pure, LieType.fileTy]
    · rw [if_neg h2]; simp [pyAssert, h2, bind, Except.bind]

theorem edgeSE2_cons (R : Reader) (limit : Int) (s : G2oState) (k m n : List Char) (ps : List (List Char)) {i j : Int}
    (hm : R.int m = .ok i) (hn : R.int n = .ok j) : s.edgeSE2 R limit (k :: m :: n :: ps) =
      if limit < i ∨ limit < j then .ok s else (ps.take 3).mapM R.float >>= fun xs => match xs with
        | [x, y, θ] => (ps.drop 3).mapM R.float >>= fun u => s.addEdge i j .se2 (se2FromXyTheta x y θ) u
        | _ => .error .type := by
  have e : s.edgeSE2 R limit (k :: m :: n :: ps) = (R.int m >>= fun i => R.int n >>= fun j =>
      if limit < i ∨ limit < j then .ok s else (ps.take 3).mapM R.float >>= fun xs => match xs with
        | [x, y, θ] => (ps.drop 3).mapM R.float >>= fun u => s.addEdge i j .se2 (se2FromXyTheta x y θ) u
        | _ => .error .type) := rfl
  rw [e, hm, hn]
  rfl

theorem edgeSE3_cons (R : Reader) (s : G2oState) (k m n : List Char) (ps : List (List Char)) {i j : Int} {xs : List ℝ}
    (hm : R.int m = .ok i) (hn : R.int n = .ok j) (hx : ps.mapM R.float = .ok xs) (hl : xs.length = 7 + 21) :
    s.edgeSE3 R (k :: m :: n :: ps) = s.addEdge i j .se3 (slice xs 6 1 ++ slice xs 3 3 ++ slice xs 0 3) (xs.drop 7) := by
  have e : s.edgeSE3 R (k :: m :: n :: ps) = (R.int m >>= fun i => R.int n >>= fun j => ps.mapM R.float >>= fun xs =>
      pyAssert (xs.length = 7 + 21) >>= fun _ =>
      s.addEdge i j .se3 (slice xs 6 1 ++ slice xs 3 3 ++ slice xs 0 3) (xs.drop 7)) := rfl
  rw [e, hm, hn, hx]
  show (pyAssert (decide (xs.length = 7 + 21)) >>= fun _ => _) = _
  rw [decide_eq_true hl]
  rfl

theorem upperTriangle_length_se3 (P : Matrix (Fin LieType.se3.ops.tangentDim) (Fin LieType.se3.ops.tangentDim) ℝ) :
    (upperTriangle P).length = 21 := by
  rw [upperTriangle_length]
  show (triuIndices 6).length = 21
  decide

open Classical in
theorem line_edge {R : Reader} {k : LieType} {ps : List (List Char)} {i j : Int} {T : List ℝ}
    {P : Matrix (Fin k.ops.tangentDim) (Fin k.ops.tangentDim) ℝ} (h : Reads R k ps (.edge i j T P))
    (limit : Int) (s : G2oState) : s.line R limit ps =
      if EdgeKept k limit i j then s.addEdge i j k.ops T (upperTriangle P) else .ok s := by
  cases h with
  | edge2 hm hn hx hu hP =>
    have hu' := numbers_mapM hu
    have hx' := numbers_mapM hx
    rcases hx with _ | ⟨ha, _ | ⟨hb, _ | ⟨hc, _ | _⟩⟩⟩
    rw [line_edgeSE2, edgeSE2_cons _ _ _ _ _ _ _ hm hn]
    by_cases h : limit < i ∨ limit < j
    · rw [if_pos h, if_neg fun h' => ?_]
      have := h' rfl
      omega
    · have hk : EdgeKept .se2 limit i j := fun _ => by omega
      rw [if_neg h, if_pos hk]
      simp only [List.cons_append, List.nil_append, List.take_succ_cons, List.take_zero, List.drop_succ_cons, List.drop_zero]
      rw [hx', hu']
      rfl
  | edge3 hm hn hx hu hP =>
    have hxu := numbers_mapM (List.rel_append hx hu)
    have hk : EdgeKept .se3 limit i j := fun h => by cases h
    rw [line_edgeSE3, edgeSE3_cons _ _ _ _ _ _ hm hn hxu (by simp [upperTriangle_length_se3]), if_pos hk]
    rfl

theorem det_cholesky_ne_zero {n : Nat} {P : Matrix (Fin n) (Fin n) ℝ} (hP : P.PosDef) : (cholesky P).det ≠ 0 := by
  intro h
  have e := congrArg Matrix.det (cholesky_spec hP).mul_self
  rw [Matrix.det_mul, h, zero_mul] at e
  exact hP.det_pos.ne e

/-- An edge record with a symmetric matrix: the factor is made iff the matrix is positive definite and both poses exist. -/
theorem addEdge_posDef {k : LieType} (hk : k = .se2 ∨ k = .se3) {s : G2oState} {i j : Int} {T : List ℝ}
    {P : Matrix (Fin k.ops.tangentDim) (Fin k.ops.tangentDim) ℝ} (hP : P.IsSymm) (hpd : P.PosDef) {a b : Var}
    (ha : pyGet s.poseVariables i = .ok a) (hb : pyGet s.poseVariables j = .ok b) (hat : a.ty = k.fileTy) (hbt : b.ty = k.fileTy) :
    ∃ f, s.addEdge i j k.ops T (upperTriangle P) = .ok { s with factors := s.factors ++ [f] } ∧ IsEdgeFactor k a b T P f := by
  refine ⟨⟨betweenCls k.ops.treedef, [a, b], .gaussian (.ofMat (cholesky P)ᵀ), (k.ops.value T).leaves⟩, ?_, ?_⟩
  · unfold G2oState.addEdge
    rw [precisionMatrix_upperTriangle P hP]
    show (sqrtPrecision _ _ >>= fun W => _) = _
    rw [sqrtPrecision_posDef P hpd]
    show (pyGet _ _ >>= fun a => _) = _
    rw [ha]
    show (pyGet _ _ >>= fun b => _) = _
    rw [hb]
    have h1 : a.ty = b.ty := by rw [hat, hbt]
    have h2 : (g2oGroup a.ty).treedef = (k.ops.value T).treedef := by
      rw [hat]
      rcases hk with rfl | rfl <;> rfl
    show (BetweenFactor.make _ _ _ _ _ _ >>= fun f => _) = _
    unfold BetweenFactor.make
    rw [decide_eq_true h1, decide_eq_true h2]
    rfl
  · refine ⟨rfl, ?_, rfl, isMat_ofMat _, trivial, ?_, fun r hr => whiten_cholesky P hpd hr⟩
    · rcases hk with rfl | rfl <;> rfl
    · show (arrMat (.ofMat (cholesky P)ᵀ) _ _).det ≠ 0
      rw [arrMat_ofMat, Matrix.det_transpose]
      exact det_cholesky_ne_zero hpd

theorem addEdge_not_posDef {k : LieType} {s : G2oState} {i j : Int} {T : List ℝ}
    {P : Matrix (Fin k.ops.tangentDim) (Fin k.ops.tangentDim) ℝ} (hP : P.IsSymm) (hpd : ¬P.PosDef) :
    s.addEdge i j k.ops T (upperTriangle P) = .error .value := by
  unfold G2oState.addEdge
  rw [precisionMatrix_upperTriangle P hP]
  show (sqrtPrecision _ _ >>= fun W => _) = _
  rw [sqrtPrecision_not_posDef P hpd]
  rfl

theorem addEdge_missing {k : LieType} {s : G2oState} {i j : Int} {T : List ℝ}
    {P : Matrix (Fin k.ops.tangentDim) (Fin k.ops.tangentDim) ℝ} (hP : P.IsSymm)
    (h : pyGet s.poseVariables i = .error .index ∨ pyGet s.poseVariables j = .error .index) :
    ∃ e, s.addEdge i j k.ops T (upperTriangle P) = .error e := by
  by_cases hpd : P.PosDef
  · unfold G2oState.addEdge
    rw [precisionMatrix_upperTriangle P hP]
    show ∃ e, (sqrtPrecision _ _ >>= fun W => _) = _
    rw [sqrtPrecision_posDef P hpd]
    show ∃ e, (pyGet _ _ >>= fun a => _) = _
    cases ha : pyGet s.poseVariables i with
    | error e => exact ⟨e, rfl⟩
    | ok a =>
      rcases h with h | h
      · rw [ha] at h; cases h
      · show ∃ e, (pyGet _ _ >>= fun b => _) = _
        rw [h]
        exact ⟨_, rfl⟩
  · exact ⟨_, addEdge_not_posDef hP hpd⟩

/-! ### The loop -/

section
variable {k : LieType} {limit : Int} {next : Nat}

/-- The new variables. -/
def fileVars (k : LieType) (next n : Nat) : List Var := (List.range n).map fun i => ⟨k.fileTy, next + i⟩

theorem fileVars_length (n : Nat) : (fileVars k next n).length = n := by simp [fileVars]

theorem fileVars_succ (n : Nat) : fileVars k next (n + 1) = fileVars k next n ++ [⟨k.fileTy, next + n⟩] := by
  simp [fileVars, List.range_succ]

theorem fileVars_nodup (n : Nat) : (fileVars k next n).Nodup := by
  apply List.Nodup.map _ List.nodup_range
  intro a b h
  simpa using h

theorem mem_fileVars {n : Nat} {v : Var} (h : v ∈ fileVars k next n) : v.ty = k.fileTy ∧ v.uid < next + n := by
  obtain ⟨i, hi, rfl⟩ := List.mem_map.1 h
  have := List.mem_range.1 hi
  exact ⟨rfl, by simpa using this⟩

/-- Factors for edges. -/
def EdgeFactors (vars : List Var) (es : List (Int × Int × List ℝ × Matrix (Fin k.ops.tangentDim) (Fin k.ops.tangentDim) ℝ))
    (fs : List Factor) : Prop :=
  List.Forall₂ (fun e f => ∃ a b, vars[e.1.toNat]? = some a ∧ vars[e.2.1.toNat]? = some b ∧
    IsEdgeFactor k a b e.2.2.1 e.2.2.2 f) es fs

theorem EdgeFactors.mono {vars : List Var} {es} {fs : List Factor} (h : EdgeFactors (k := k) vars es fs) (l : List Var) :
    EdgeFactors (k := k) (vars ++ l) es fs := by
  apply List.Forall₂.imp _ h
  rintro e f ⟨a, b, ha, hb, hf⟩
  refine ⟨a, b, ?_, ?_, hf⟩
  · rw [List.getElem?_append_left (List.getElem?_eq_some_iff.1 ha).1]; exact ha
  · rw [List.getElem?_append_left (List.getElem?_eq_some_iff.1 hb).1]; exact hb

/-- The state after the records `rs`. -/
structure StateOf (k : LieType) (limit : Int) (next : Nat) (rs : List (Record k)) (s : G2oState) : Prop where
  next_eq : s.next = next + (keptPoses k limit rs).length
  vars : s.poseVariables = fileVars k next (keptPoses k limit rs).length
  poses : s.initialPoses.items = (fileVars k next (keptPoses k limit rs).length).zip ((keptPoses k limit rs).map k.ops.value)
  factors : EdgeFactors (fileVars k next (keptPoses k limit rs).length) (keptEdges k limit rs) s.factors

theorem vertices_append (rs rs' : List (Record k)) : vertices (rs ++ rs') = vertices rs ++ vertices rs' := List.filterMap_append

theorem keptEdges_append (rs rs' : List (Record k)) :
    keptEdges k limit (rs ++ rs') = keptEdges k limit rs ++ keptEdges k limit rs' := List.filterMap_append

theorem keptPoses_edge (rs : List (Record k)) (i j : Int) (T P) : keptPoses k limit (rs ++ [.edge i j T P]) = keptPoses k limit rs := by
  unfold keptPoses
  rw [vertices_append]
  simp [vertices]

theorem keptEdges_vertex (rs : List (Record k)) (n : Int) (x) : keptEdges k limit (rs ++ [.vertex n x]) = keptEdges k limit rs := by
  rw [keptEdges_append]
  simp [keptEdges]

theorem keptEdges_edge (rs : List (Record k)) {i j : Int} (T P) (h : EdgeKept k limit i j) :
    keptEdges k limit (rs ++ [.edge i j T P]) = keptEdges k limit rs ++ [(i, j, T, P)] := by
  rw [keptEdges_append]
  simp [keptEdges, h]

theorem keptEdges_edge_skip (rs : List (Record k)) {i j : Int} (T P) (h : ¬EdgeKept k limit i j) :
    keptEdges k limit (rs ++ [.edge i j T P]) = keptEdges k limit rs := by
  rw [keptEdges_append]
  simp [keptEdges, h]

/-- The condition under which a vertex is kept. -/
def VertexKept (k : LieType) (limit : Int) (before : List (Record k)) : Prop := k = .se2 → ((vertices before).length : Int) ≤ limit

theorem keptPoses_length (rs : List (Record k)) :
    (keptPoses k limit rs).length = if k = .se2 then min (limit + 1).toNat (vertices rs).length else (vertices rs).length := by
  unfold keptPoses
  split <;> simp

theorem keptPoses_vertex (rs : List (Record k)) (n : Int) (x) (h : VertexKept k limit rs) :
    keptPoses k limit (rs ++ [.vertex n x]) = keptPoses k limit rs ++ [x] ∧ (keptPoses k limit rs).length = (vertices rs).length := by
  have e : vertices (rs ++ [.vertex n x]) = vertices rs ++ [x] := vertices_append _ _
  rw [keptPoses_length]
  unfold keptPoses
  rw [e]
  split
  · rename_i hk
    have := h hk
    rw [List.take_of_length_le (by simp; omega), List.take_of_length_le (by omega)]
    exact ⟨rfl, by omega⟩
  · exact ⟨rfl, rfl⟩

theorem keptPoses_vertex_skip (rs : List (Record k)) (n : Int) (x) (h : ¬VertexKept k limit rs) :
    keptPoses k limit (rs ++ [.vertex n x]) = keptPoses k limit rs := by
  have e : vertices (rs ++ [.vertex n x]) = vertices rs ++ [x] := vertices_append _ _
  obtain ⟨hk, hl⟩ := Classical.not_imp.1 h
  unfold keptPoses
  rw [e, if_pos hk, if_pos hk, List.take_append_of_le_length (by omega)]

theorem vertexKept_iff (rs : List (Record k)) :
    VertexKept k limit rs ↔ ¬(k = .se2 ∧ limit < (keptPoses k limit rs).length) := by
  rw [keptPoses_length]
  unfold VertexKept
  by_cases hk : k = .se2
  · rw [if_pos hk]
    simp only [hk, true_and, forall_const]
    omega
  · simp [hk]

theorem edge_lt_iff (rs : List (Record k)) {i j : Int} (h0 : 0 ≤ i ∧ 0 ≤ j) (h : EdgeKept k limit i j) :
    (i < (keptPoses k limit rs).length ↔ i < (vertices rs).length) ∧ (j < (keptPoses k limit rs).length ↔ j < (vertices rs).length) := by
  rw [keptPoses_length]
  split
  · rename_i hk
    have := h hk
    omega
  · exact ⟨Iff.rfl, Iff.rfl⟩

theorem lookup_zip_none {vars : List Var} {v : Var} (hv : v ∉ vars) (l : List (Value ℝ)) : (vars.zip l).lookup v = none := by
  induction vars generalizing l with
  | nil => rfl
  | cons a vars ih =>
    cases l with
    | nil => rfl
    | cons x l =>
      have : (v == a) = false := beq_eq_false_iff_ne.2 fun h => hv (by simp [h])
      rw [List.zip_cons_cons, List.lookup_cons, this]
      exact ih (fun h => hv (by simp [h])) l

theorem stateOf_addPose {rs : List (Record k)} {s : G2oState} (h : StateOf k limit next rs s) (hk : k = .se2 ∨ k = .se3) (n : Int)
    (x : List ℝ) (hv : VertexKept k limit rs) : StateOf k limit next (rs ++ [.vertex n x]) (s.addPose k.fileTy x) := by
  have hl : (keptPoses k limit (rs ++ [.vertex n x])).length = (keptPoses k limit rs).length + 1 := by
    rw [(keptPoses_vertex rs n x hv).1]; simp
  have hG : g2oGroup k.fileTy = k.ops := by rcases hk with rfl | rfl <;> rfl
  have hnot : (⟨k.fileTy, s.next⟩ : Var) ∉ fileVars k next (keptPoses k limit rs).length := by
    intro hm
    have := (mem_fileVars hm).2
    rw [h.next_eq] at this
    exact lt_irrefl _ this
  constructor
  · rw [hl]
    show s.next + 1 = _
    rw [h.next_eq, Nat.add_assoc]
  · rw [hl, fileVars_succ]
    show s.poseVariables ++ [_] = _
    rw [h.vars, h.next_eq]
  · rw [hl, fileVars_succ, (keptPoses_vertex rs n x hv).1, List.map_append, List.zip_append (by simp [fileVars_length])]
    show (s.initialPoses.set _ _).items = _
    have hc : s.initialPoses.contains (⟨k.fileTy, s.next⟩ : Var) = false := by
      unfold PyDict.contains PyDict.get?
      rw [h.poses, lookup_zip_none hnot]
      rfl
    unfold PyDict.set
    rw [hc]
    show s.initialPoses.items ++ [_] = _
    rw [h.poses, hG, h.next_eq]
    rfl
  · rw [hl, fileVars_succ, keptEdges_vertex]
    exact h.factors.mono _

/-- One line: it is accepted iff the record is well-formed after the ones before it. -/
theorem line_step {R : Reader} {rs : List (Record k)} {s : G2oState} (h : StateOf k limit next rs s) {ps : List (List Char)}
    {r : Record k} (hr : Reads R k ps r) (h0 : ∀ i j T P, r = .edge i j T P → 0 ≤ i ∧ 0 ≤ j) :
    (RecordOK k limit rs r → ∃ s', s.line R limit ps = .ok s' ∧ StateOf k limit next (rs ++ [r]) s') ∧
    (¬RecordOK k limit rs r → ∃ e, s.line R limit ps = .error e) := by
  have hk : k = .se2 ∨ k = .se3 := by cases hr <;> simp
  have hlen : s.poseVariables.length = (keptPoses k limit rs).length := by rw [h.vars, fileVars_length]
  cases r with
  | vertex n x =>
    rw [line_vertex hr, hlen]
    have hpl : s.initialPoses.items.length = (keptPoses k limit rs).length := by
      rw [h.poses]; simp [fileVars_length]
    rw [hpl]
    by_cases hv : VertexKept k limit rs
    · rw [if_neg ((vertexKept_iff rs).1 hv), (keptPoses_vertex rs n x hv).2]
      constructor
      · intro hok
        have : n = (vertices rs).length := hok hv
        rw [if_pos this.symm]
        exact ⟨_, rfl, stateOf_addPose h hk n x hv⟩
      · intro hok
        rw [if_neg fun e => hok fun _ => e.symm]
        exact ⟨_, rfl⟩
    · have hv' : k = .se2 ∧ limit < (keptPoses k limit rs).length := by
        by_contra hc
        exact hv ((vertexKept_iff rs).2 hc)
      rw [if_pos hv']
      constructor
      · intro _
        refine ⟨s, rfl, ?_⟩
        have e := keptPoses_vertex_skip rs n x hv
        constructor <;> rw [e]
        · exact h.next_eq
        · exact h.vars
        · exact h.poses
        · rw [keptEdges_vertex]; exact h.factors
      · intro hok
        exact absurd (fun hv'' => absurd hv'' hv) hok
  | edge i j T P =>
    have hP : P.IsSymm := by cases hr <;> assumption
    rw [line_edge hr]
    have hi := h0 i j T P rfl
    by_cases he : EdgeKept k limit i j
    · rw [if_pos he]
      have hlt := edge_lt_iff rs hi he
      constructor
      · intro hok
        obtain ⟨h1, h2, hpd⟩ := hok he
        obtain ⟨a, ha, ha'⟩ := pyGet_ok (l := s.poseVariables) hi.1 (by rw [hlen]; exact hlt.1.2 h1)
        obtain ⟨b, hb, hb'⟩ := pyGet_ok (l := s.poseVariables) hi.2 (by rw [hlen]; exact hlt.2.2 h2)
        rw [h.vars] at ha' hb'
        obtain ⟨f, hf, hf'⟩ := addEdge_posDef hk (T := T) hP hpd ha hb (mem_fileVars (List.mem_of_getElem? ha')).1
          (mem_fileVars (List.mem_of_getElem? hb')).1
        refine ⟨_, hf, ?_⟩
        have e : keptPoses k limit (rs ++ [.edge i j T P]) = keptPoses k limit rs := keptPoses_edge rs i j T P
        constructor <;> rw [e]
        · exact h.next_eq
        · exact h.vars
        · exact h.poses
        · rw [keptEdges_edge rs T P he]
          exact List.rel_append h.factors (.cons ⟨a, b, ha', hb', hf'⟩ .nil)
      · intro hok
        by_cases hpd : P.PosDef
        · apply addEdge_missing hP
          by_contra hc
          apply hok
          intro _
          refine ⟨?_, ?_, hpd⟩
          · by_contra hn
            exact hc (.inl (pyGet_error (by rw [hlen]; have := mt hlt.1.1 hn; omega)))
          · by_contra hn
            exact hc (.inr (pyGet_error (by rw [hlen]; have := mt hlt.2.1 hn; omega)))
        · exact ⟨_, addEdge_not_posDef hP hpd⟩
    · rw [if_neg he]
      constructor
      · intro _
        refine ⟨s, rfl, ?_⟩
        have e : keptPoses k limit (rs ++ [.edge i j T P]) = keptPoses k limit rs := keptPoses_edge rs i j T P
        constructor <;> rw [e]
        · exact h.next_eq
        · exact h.vars
        · exact h.poses
        · rw [keptEdges_edge_skip rs T P he]; exact h.factors
      · intro hok
        exact absurd (fun he' => absurd he' he) hok

theorem fields_line {ps : List (List Char)} {l : List Char} (h : IsLine ps l) : fields l = ps := by
  obtain ⟨w, b, w', hw, hw', hs, rfl⟩ := h
  exact fields_spaced hs (fun c hc => isSpace_iff.2 (hw c hc)) fun c hc => isSpace_iff.2 (hw' c hc)

/-- All lines: they are accepted iff every record is well-formed after the ones before it. -/
theorem lines_step {R : Reader} {lines : List (List Char)} {rs : List (Record k)} (hf : FileReads R k lines rs)
    (h0 : NonnegIndices rs) {before : List (Record k)} {s : G2oState} (h : StateOf k limit next before s) :
    ((∀ n (hn : n < rs.length), RecordOK k limit (before ++ rs.take n) rs[n]) → ∃ s',
      lines.foldlM (fun s l => s.line R limit (fields l)) s = .ok s' ∧ StateOf k limit next (before ++ rs) s') ∧
    ((¬∀ n (hn : n < rs.length), RecordOK k limit (before ++ rs.take n) rs[n]) →
      ∃ e, lines.foldlM (fun s l => s.line R limit (fields l)) s = .error e) := by
  induction hf generalizing before s with
  | nil => exact ⟨fun _ => ⟨s, rfl, by simpa using h⟩, fun hn => absurd (fun n hn => absurd hn (by simp)) hn⟩
  | @cons l r lines rs hl _ ih =>
    obtain ⟨ps, hps, hr⟩ := hl
    have h0' : NonnegIndices rs := fun i j T P hm => h0 i j T P (by simp [hm])
    have step := line_step h hr fun i j T P e => h0 i j T P (by simp [e])
    have iff : (∀ n (hn : n < (r :: rs).length), RecordOK k limit (before ++ (r :: rs).take n) (r :: rs)[n]) ↔
        RecordOK k limit before r ∧ ∀ n (hn : n < rs.length), RecordOK k limit (before ++ [r] ++ rs.take n) rs[n] := by
      constructor
      · intro hall
        have h1 := hall 0 (by simp)
        rw [List.take_zero, List.append_nil] at h1
        refine ⟨h1, fun n hn => ?_⟩
        have := hall (n + 1) (by simpa using hn)
        simpa using this
      · rintro ⟨h1, h2⟩ n hn
        cases n with
        | zero => rw [List.take_zero, List.append_nil]; exact h1
        | succ n => simpa using h2 n (by simpa using hn)
    rw [iff, List.foldlM_cons, fields_line hps]
    by_cases hok : RecordOK k limit before r
    · obtain ⟨s', hs', hst⟩ := step.1 hok
      have := ih h0' hst
      rw [hs']
      constructor
      · rintro ⟨_, h2⟩
        obtain ⟨s'', e, hst'⟩ := this.1 h2
        exact ⟨s'', e, by simpa using hst'⟩
      · intro hn
        exact this.2 fun h2 => hn ⟨hok, h2⟩
    · obtain ⟨e, he⟩ := step.2 hok
      rw [he]
      exact ⟨fun h => absurd h.1 hok, fun _ => ⟨e, rfl⟩⟩

theorem stateOf_nil : StateOf k limit next [] ⟨next, [], .empty, []⟩ := by
  have e : keptPoses k limit [] = [] := by simp [keptPoses, vertices]
  constructor <;> rw [e]
  · rfl
  · rfl
  · rfl
  · exact .nil

/-- The prior at the end. -/
theorem anchor_spec (hk : k = .se2 ∨ k = .se3) {v : Var} (hv : v.ty = k.fileTy) (x : List ℝ) :
    IsAnchor k v x (PriorFactor.make (priorCls (k.ops.value x).treedef) v (k.ops.value x)
      (.diagonal ⟨[(g2oGroup v.ty).tangentDim], List.replicate (g2oGroup v.ty).tangentDim (1 * 100)⟩)) := by
  have hG : g2oGroup v.ty = k.ops := by rw [hv]; rcases hk with rfl | rfl <;> rfl
  have hw : NoiseWF (.diagonal ⟨[(g2oGroup v.ty).tangentDim], List.replicate (g2oGroup v.ty).tangentDim (1 * 100)⟩)
      k.ops.tangentDim k.ops.tangentDim := by
    rw [hG]
    exact ⟨⟨rfl, by simp⟩, rfl⟩
  refine ⟨rfl, ?_, rfl, hw, trivial, ?_, fun r hr => ?_⟩
  · rcases hk with rfl | rfl <;> rfl
  · intro y hy
    rw [(List.mem_replicate.1 hy).2]
    norm_num
  · refine ⟨r.map (· * 100), ?_, sqNorm_map_mul r 100⟩
    show (Noise.diagonal ⟨[(g2oGroup v.ty).tangentDim], List.replicate (g2oGroup v.ty).tangentDim (1 * 100)⟩).whiten r = _
    rw [hG, ← hr]
    have : List.zipWith (· * ·) (List.replicate r.length (1 * 100 : ℝ)) r = r.map (· * 100) := by
      clear hr hw
      induction r with
      | nil => rfl
      | cons a r ih => rw [List.length_cons, List.replicate_succ, List.zipWith_cons_cons, ih, List.map_cons]; congr 1; ring
    simp [Noise.whiten, pyAssert, ← this]

end

end Jaxfg
