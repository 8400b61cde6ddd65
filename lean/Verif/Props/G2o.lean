/- C61, C62: pose graphs from g2o files. -/
import Verif.Lemmas.G2o

namespace Jaxfg.Props
open Spec
open Matrix hiding vec

/-! ## C61 -/

/-- The precision matrix that is built from the upper triangle of a symmetric matrix is that matrix. -/
theorem C61_precision {n : Nat} (P : Matrix (Fin n) (Fin n) ℝ) (hP : P.IsSymm) :
    precisionMatrix n (upperTriangle P) = .ok (.ofMat P) := precisionMatrix_upperTriangle P hP

/-- The numbers of an edge line are accepted iff their matrix is positive definite, and the noise model made from them then
weighs a residual by `rᵀ P r`. -/
theorem C61_weight {n : Nat} (P : Matrix (Fin n) (Fin n) ℝ) (hP : P.IsSymm) :
    (P.PosDef → ∃ W, (precisionMatrix n (upperTriangle P) >>= sqrtPrecision n) = .ok W ∧ IsMat W n n ∧
      ∀ r : List ℝ, r.length = n → ∃ w, (Noise.gaussian W).whiten r = .ok w ∧ sqNorm w = vec r n ⬝ᵥ (P *ᵥ vec r n)) ∧
    (¬P.PosDef → (precisionMatrix n (upperTriangle P) >>= sqrtPrecision n) = .error .value) := by
  rw [precisionMatrix_upperTriangle P hP]
  constructor
  · intro h
    exact ⟨_, sqrtPrecision_posDef P h, isMat_ofMat _, fun r hr => whiten_cholesky P h hr⟩
  · intro h
    exact sqrtPrecision_not_posDef P h

/-! ## C62 -/

/-- A file whose lines are records of one group and whose edge indices are natural numbers: it is accepted iff it is
well-formed, and the result is what the file describes. Missing: files with records of both groups, and negative edge indices,
for which the claim is false (`C62_negative_index`). -/
theorem C62_file_partial {R : Reader} {k : LieType} {limit : Int} {next : Nat} {lines : List (List Char)} {rs : List (Record k)}
    (hf : FileReads R k lines rs) (h0 : NonnegIndices rs) :
    (FileOK k limit rs → ∃ data, parseG2o R limit next lines = .ok data ∧ Describes k limit rs data) ∧
    (¬FileOK k limit rs → ∃ e, parseG2o R limit next lines = .error e) := by
  have step := lines_step hf h0 (limit := limit) (next := next) stateOf_nil
  simp only [List.nil_append] at step
  by_cases hall : ∀ n (hn : n < rs.length), RecordOK k limit (rs.take n) rs[n]
  · obtain ⟨s, hs, hst⟩ := step.1 hall
    have e : parseG2o R limit next lines = (pyGet s.poseVariables 0 >>= fun v => s.initialPoses.get v >>= fun mu =>
        .ok ⟨s.factors ++ [PriorFactor.make (priorCls mu.treedef) v mu
          (.diagonal ⟨[(g2oGroup v.ty).tangentDim], List.replicate (g2oGroup v.ty).tangentDim (1 * 100)⟩)], s.initialPoses⟩) := by
      unfold parseG2o
      rw [hs]
      rfl
    rw [e]
    constructor
    · rintro ⟨_, hne⟩
      obtain ⟨mu, tl, hcons⟩ := List.exists_cons_of_ne_nil hne
      have hk : k = .se2 ∨ k = .se3 := by
        cases hf with
        | nil => exact absurd (by simp [keptPoses, vertices]) hne
        | cons h _ =>
          obtain ⟨_, _, hr⟩ := h
          cases hr <;> simp
      have hpos : (keptPoses k limit rs).length = tl.length + 1 := by rw [hcons]; rfl
      obtain ⟨vs, hvs⟩ : ∃ vs, fileVars k next (keptPoses k limit rs).length = ⟨k.fileTy, next⟩ :: vs := by
        rw [hpos, fileVars, List.range_succ_eq_map]
        exact ⟨_, rfl⟩
      have hg : pyGet s.poseVariables 0 = .ok ⟨k.fileTy, next⟩ := by rw [hst.vars, hvs]; rfl
      have hm : s.initialPoses.get ⟨k.fileTy, next⟩ = .ok (k.ops.value mu) := by
        unfold PyDict.get PyDict.get?
        rw [hst.poses, hvs, hcons, List.map_cons, List.zip_cons_cons, List.lookup_cons, beq_self_eq_true]
      rw [hg]
      show ∃ data, (s.initialPoses.get ⟨k.fileTy, next⟩ >>= fun mu => _) = _ ∧ _
      rw [hm]
      refine ⟨_, rfl, fileVars k next (keptPoses k limit rs).length, fileVars_nodup _, fun v hv => (mem_fileVars hv).1,
        fileVars_length _, hst.poses, s.factors, _, ⟨k.fileTy, next⟩, mu, rfl, hst.factors, by rw [hvs]; rfl, by rw [hcons]; rfl,
        anchor_spec hk rfl mu⟩
    · intro hn
      have : keptPoses k limit rs = [] := by
        by_contra hc
        exact hn ⟨hall, hc⟩
      rw [hst.vars, this]
      exact ⟨_, rfl⟩
  · obtain ⟨e, he⟩ := step.2 hall
    constructor
    · intro h
      exact absurd h.records hall
    · intro _
      unfold parseG2o
      rw [he]
      exact ⟨e, rfl⟩

/-- A file with a blank line is not accepted. -/
theorem C62_blank (R : Reader) (limit : Int) (next : Nat) (before after : List (List Char)) (w : List Char)
    (hw : ∀ c ∈ w, WhiteChar c) : ∃ e, parseG2o R limit next (before ++ w :: after) = .error e := by
  unfold parseG2o
  rw [List.foldlM_append]
  cases before.foldlM (fun s l => G2oState.line R limit s (fields l)) (⟨next, [], .empty, []⟩ : G2oState) with
  | error e => exact ⟨e, rfl⟩
  | ok s =>
    refine ⟨.index, ?_⟩
    show ((w :: after).foldlM (fun s l => G2oState.line R limit s (fields l)) s >>= fun s => _) = _
    rw [List.foldlM_cons, fields_blank fun c hc => isSpace_iff.2 (hw c hc)]
    rfl

/-- A file with a line of another type is not accepted. -/
theorem C62_other_type (R : Reader) (limit : Int) (next : Nat) (before after : List (List Char)) (l kind : List Char)
    (ps : List (List Char)) (hl : IsLine (kind :: ps) l)
    (hk : kind ∉ ["VERTEX_SE2".toList, "EDGE_SE2".toList, "VERTEX_SE3:QUAT".toList, "EDGE_SE3:QUAT".toList]) :
    ∃ e, parseG2o R limit next (before ++ l :: after) = .error e := by
  simp only [List.mem_cons, List.not_mem_nil, or_false, not_or] at hk
  unfold parseG2o
  rw [List.foldlM_append]
  cases before.foldlM (fun s l => G2oState.line R limit s (fields l)) (⟨next, [], .empty, []⟩ : G2oState) with
  | error e => exact ⟨e, rfl⟩
  | ok s =>
    refine ⟨.assertion, ?_⟩
    show ((l :: after).foldlM (fun s l => G2oState.line R limit s (fields l)) s >>= fun s => _) = _
    rw [List.foldlM_cons, fields_line hl, line_cons, if_neg hk.1, if_neg hk.2.1, if_neg hk.2.2.1, if_neg hk.2.2.2]
    rfl

/-! ### Cases -/

namespace G2oEx

/-- Decimal integers. -/
def readInt (l : List Char) : Py Int :=
  match l with
  | '-' :: l => if l ≠ [] ∧ l.all Char.isDigit then .ok (-(l.foldl (fun n c => 10 * n + (c.toNat - 48)) 0 : Nat)) else .error .value
  | l => if l ≠ [] ∧ l.all Char.isDigit then .ok (l.foldl (fun n c => 10 * n + (c.toNat - 48)) 0 : Nat) else .error .value

noncomputable def reader : Reader := ⟨readInt, fun l => (readInt l).map fun n => (n : ℝ)⟩

theorem word {p : List Char} (h : p ≠ [] ∧ p.all (fun c => !decide (WhiteChar c)) = true) : IsWord p :=
  ⟨h.1, fun c hc => by simpa using List.all_eq_true.1 h.2 c hc⟩

def join : List (List Char) → List Char
  | [] => []
  | [p] => p
  | p :: q :: ps => p ++ List.replicate 1 ' ' ++ join (q :: ps)

theorem spaced_join {ps : List (List Char)} (h : ps ≠ []) (hw : ∀ p ∈ ps, p ≠ [] ∧ p.all (fun c => !decide (WhiteChar c)) = true) :
    Spaced ps (join ps) := by
  induction ps with
  | nil => exact absurd rfl h
  | cons p ps ih =>
    cases ps with
    | nil => exact .one _ (word (hw _ (by simp)))
    | cons q ps => exact .cons p 0 (q :: ps) _ (word (hw _ (by simp))) (ih (by simp) fun p hp => hw p (by simp [hp]))

theorem line_of {ps : List (List Char)} (h : ps ≠ []) (hw : ∀ p ∈ ps, p ≠ [] ∧ p.all (fun c => !decide (WhiteChar c)) = true)
    {l : List Char} (hl : l = join ps ++ ['\n']) : IsLine ps l :=
  ⟨[], join ps, ['\n'], by simp, by decide, spaced_join h hw, by simpa using hl⟩

/-- Three poses and two edges. -/
def lines : List (List Char) :=
  ["VERTEX_SE2 0 0 0 0\n".toList, "VERTEX_SE2 1 5 0 0\n".toList, "EDGE_SE2 0 1 4 0 0 1 0 0 1 0 1\n".toList,
    "VERTEX_SE2 2 5 7 0\n".toList, "EDGE_SE2 1 2 0 6 0 1 0 0 1 0 1\n".toList]

noncomputable def records : List (Record .se2) :=
  [.vertex 0 [Real.cos (0 : Int), Real.sin (0 : Int), (0 : Int), (0 : Int)],
    .vertex 1 [Real.cos (0 : Int), Real.sin (0 : Int), (5 : Int), (0 : Int)],
    .edge 0 1 [Real.cos (0 : Int), Real.sin (0 : Int), (4 : Int), (0 : Int)] 1,
    .vertex 2 [Real.cos (0 : Int), Real.sin (0 : Int), (5 : Int), (7 : Int)],
    .edge 1 2 [Real.cos (0 : Int), Real.sin (0 : Int), (0 : Int), (6 : Int)] 1]

theorem upper_one : upperTriangle (1 : Matrix (Fin LieType.se2.ops.tangentDim) (Fin LieType.se2.ops.tangentDim) ℝ) =
    [((1 : Int) : ℝ), ((0 : Int) : ℝ), ((0 : Int) : ℝ), ((1 : Int) : ℝ), ((0 : Int) : ℝ), ((1 : Int) : ℝ)] := by
  show upperTriangle (1 : Matrix (Fin 3) (Fin 3) ℝ) = _
  simp [upperTriangle, List.finRange_succ]

theorem num (ws : List (List Char)) (ns : List Int) (h : ws.mapM readInt = .ok ns) :
    Numbers reader ws (ns.map fun n : Int => (n : ℝ)) := by
  induction ws generalizing ns with
  | nil => cases h; exact .nil
  | cons w ws ih =>
    rw [List.mapM_cons] at h
    cases hw : readInt w with
    | error e => rw [hw] at h; cases h
    | ok n =>
      cases hws : ws.mapM readInt with
      | error e => rw [hw, hws] at h; cases h
      | ok ns' =>
        rw [hw, hws] at h
        cases h
        exact .cons (by simp only [reader, hw]; rfl) (ih ns' hws)

theorem one : (1 : Matrix (Fin LieType.se2.ops.tangentDim) (Fin LieType.se2.ops.tangentDim) ℝ).IsSymm := Matrix.transpose_one

theorem up : Numbers reader ["1".toList, "0".toList, "0".toList, "1".toList, "0".toList, "1".toList]
    (upperTriangle (1 : Matrix (Fin LieType.se2.ops.tangentDim) (Fin LieType.se2.ops.tangentDim) ℝ)) := by
  rw [upper_one]
  exact num _ [1, 0, 0, 1, 0, 1] (by decide)

theorem reads : FileReads reader .se2 lines records := by
  refine .cons ⟨["VERTEX_SE2".toList, "0".toList, "0".toList, "0".toList, "0".toList], line_of (by simp) (by decide) (by decide),
    .vertex2 (by rfl) (num _ [0, 0, 0] (by decide))⟩ (.cons ⟨["VERTEX_SE2".toList, "1".toList, "5".toList, "0".toList, "0".toList],
    line_of (by simp) (by decide) (by decide), .vertex2 (by rfl) (num _ [5, 0, 0] (by decide))⟩ (.cons
    ⟨"EDGE_SE2".toList :: "0".toList :: "1".toList :: (["4".toList, "0".toList, "0".toList] ++ _),
    line_of (by simp) (by decide) (by decide), .edge2 (by rfl) (by rfl) (num _ [4, 0, 0] (by decide)) up one⟩ (.cons
    ⟨["VERTEX_SE2".toList, "2".toList, "5".toList, "7".toList, "0".toList],
    line_of (by simp) (by decide) (by decide), .vertex2 (by rfl) (num _ [5, 7, 0] (by decide))⟩ (.cons
    ⟨"EDGE_SE2".toList :: "1".toList :: "2".toList :: (["0".toList, "6".toList, "0".toList] ++ _),
    line_of (by simp) (by decide) (by decide), .edge2 (by rfl) (by rfl) (num _ [0, 6, 0] (by decide)) up one⟩ .nil))))

theorem nonneg : NonnegIndices records := by
  intro i j T P h
  simp only [records, List.mem_cons, List.not_mem_nil, or_false, reduceCtorEq, false_or, Record.edge.injEq] at h
  rcases h with ⟨rfl, rfl, _⟩ | ⟨rfl, rfl, _⟩ <;> decide

/-- The file is well-formed for every limit that keeps a pose. -/
theorem fileOK {limit : Int} (hl : 0 ≤ limit) : FileOK .se2 limit records := by
  have pd : (1 : Matrix (Fin LieType.se2.ops.tangentDim) (Fin LieType.se2.ops.tangentDim) ℝ).PosDef := Matrix.PosDef.one
  constructor
  · intro n hn
    have : n < 5 := hn
    interval_cases n
    · exact fun _ => rfl
    · exact fun _ => rfl
    · exact fun _ => ⟨by decide, by decide, pd⟩
    · exact fun _ => rfl
    · exact fun _ => ⟨by decide, by decide, pd⟩
  · have : (limit + 1).toNat = limit.toNat + 1 := by omega
    simp [keptPoses, this, records, vertices]

/-- With limit 1 the first two poses and the edge between them remain. -/
example : ∃ data, parseG2o reader 1 0 lines = .ok data ∧ Describes .se2 1 records data ∧ (keptPoses .se2 1 records).length = 2 ∧
    (keptEdges .se2 1 records).length = 1 := by
  obtain ⟨data, h1, h2⟩ := (C62_file_partial reads nonneg).1 (fileOK (limit := 1) (by decide))
  exact ⟨data, h1, h2, rfl, by simp [keptEdges, records, EdgeKept]⟩

/-- C61: a positive definite matrix with off-diagonal entries, and one that is not positive definite. -/
example : (∃ W, (precisionMatrix 2 [2, 1, 2] >>= sqrtPrecision 2) = .ok W) ∧
    (precisionMatrix 2 [1, 2, 1] >>= sqrtPrecision 2) = .error .value := by
  have e (a b c : ℝ) : upperTriangle !![a, b; b, c] = [a, b, c] := by simp [upperTriangle, List.finRange_succ]
  have sy (a b c : ℝ) : (!![a, b; b, c]).IsSymm := by
    ext i j
    fin_cases i <;> fin_cases j <;> rfl
  constructor
  · rw [← e]
    obtain ⟨W, h, _⟩ := (C61_weight _ (sy 2 1 2)).1 (by
      refine Matrix.PosDef.of_dotProduct_mulVec_pos (by
        ext i j
        fin_cases i <;> fin_cases j <;> simp) fun x hx => ?_
      have hx' : x 0 ≠ 0 ∨ x 1 ≠ 0 := by
        by_contra hc
        push Not at hc
        exact hx (funext fun i => by fin_cases i; exacts [hc.1, hc.2])
      simp only [dotProduct, Matrix.mulVec, Fin.sum_univ_two, star_trivial, Matrix.of_apply, Matrix.cons_val_zero, Matrix.cons_val_one,
        Matrix.cons_val', Matrix.cons_val_fin_one]
      rcases hx' with h | h
      · nlinarith [sq_nonneg (x 0 + x 1), sq_nonneg (x 1), pow_pos (abs_pos.2 h) 2, sq_abs (x 0)]
      · nlinarith [sq_nonneg (x 0 + x 1), sq_nonneg (x 0), pow_pos (abs_pos.2 h) 2, sq_abs (x 1)])
    exact ⟨W, h⟩
  · rw [← e]
    refine (C61_weight _ (sy 1 2 1)).2 fun h => ?_
    have := h.det_pos
    rw [Matrix.det_fin_two_of] at this
    norm_num at this

end G2oEx

/-- An edge with index -1 is accepted and connects the last pose read so far. -/
theorem C62_negative_index : ∃ (R : Reader) (lines : List (List Char)) (data : G2oData), parseG2o R 10 0 lines = .ok data ∧
    IsLine ("EDGE_SE2".toList :: "-1".toList :: "0".toList :: ["0".toList, "0".toList, "0".toList, "1".toList, "0".toList, "0".toList,
      "1".toList, "0".toList, "1".toList]) (lines.getD 2 []) ∧ R.int "-1".toList = .ok (-1) ∧
    ∃ f g, data.factors = [f, g] ∧ f.vars = [⟨se2Ty, 1⟩, ⟨se2Ty, 0⟩] := by
  let neg := "EDGE_SE2 -1 0 0 0 0 1 0 0 1 0 1\n".toList
  have hneg : IsLine ("EDGE_SE2".toList :: "-1".toList :: "0".toList :: (["0".toList, "0".toList, "0".toList] ++ ["1".toList, "0".toList,
      "0".toList, "1".toList, "0".toList, "1".toList])) neg := G2oEx.line_of (by simp) (by decide) (by decide)
  have two : FileReads G2oEx.reader .se2 (G2oEx.lines.take 2) (G2oEx.records.take 2) := List.forall₂_take 2 G2oEx.reads
  obtain ⟨s, hs, hst⟩ := (lines_step (limit := 10) (next := 0) two (by
    intro i j T P h
    exact G2oEx.nonneg i j T P (List.mem_of_mem_take h)) stateOf_nil).1 (by
    intro n hn
    have : n < 2 := hn
    interval_cases n
    · exact fun _ => rfl
    · exact fun _ => rfl)
  have hvars : s.poseVariables = [⟨se2Ty, 0⟩, ⟨se2Ty, 1⟩] := hst.vars
  have hfs : s.factors = [] := by
    have := hst.factors
    rw [show keptEdges .se2 10 ([] ++ G2oEx.records.take 2) = [] by simp [keptEdges, G2oEx.records]] at this
    exact List.forall₂_nil_left_iff.1 this
  obtain ⟨f, hf, hf'⟩ := addEdge_posDef (k := .se2) (.inl rfl) (s := s) (i := -1) (j := 0)
    (T := [Real.cos (0 : Int), Real.sin (0 : Int), (0 : Int), (0 : Int)]) G2oEx.one Matrix.PosDef.one (a := ⟨se2Ty, 1⟩) (b := ⟨se2Ty, 0⟩)
    (by rw [hvars]; rfl) (by rw [hvars]; rfl) rfl rfl
  have hline := line_edge (Reads.edge2 (R := G2oEx.reader) (by rfl) (by rfl)
    (G2oEx.num ["0".toList, "0".toList, "0".toList] [0, 0, 0] (by decide)) G2oEx.up G2oEx.one :
      Reads G2oEx.reader .se2 ("EDGE_SE2".toList :: "-1".toList :: "0".toList :: _) (.edge (-1) 0 _ _)) 10 s
  have hkept : EdgeKept .se2 10 (-1) 0 := fun _ => by decide
  rw [if_pos hkept] at hline
  have hp : s.initialPoses.items = _ := hst.poses
  have hget : s.initialPoses.get ⟨se2Ty, 0⟩ = .ok (LieGroup.se2.value [Real.cos (0 : Int), Real.sin (0 : Int), (0 : Int), (0 : Int)]) := by
    unfold PyDict.get PyDict.get?
    rw [hp]
    rfl
  have hfold : (G2oEx.lines.take 2 ++ [neg]).foldlM (fun s l => G2oState.line G2oEx.reader 10 s (fields l))
      (⟨0, [], .empty, []⟩ : G2oState) = .ok { s with factors := s.factors ++ [f] } := by
    rw [List.foldlM_append, hs]
    show ([neg].foldlM (fun s l => G2oState.line G2oEx.reader 10 s (fields l)) s) = _
    rw [List.foldlM_cons, fields_line hneg, hline]
    erw [hf]
    rfl
  have hres : ∃ g, parseG2o G2oEx.reader 10 0 (G2oEx.lines.take 2 ++ [neg]) = .ok ⟨[f] ++ [g], s.initialPoses⟩ := by
    unfold parseG2o
    rw [hfold]
    show ∃ g, (pyGet s.poseVariables 0 >>= fun v => _) = _
    rw [hvars]
    show ∃ g, (s.initialPoses.get ⟨se2Ty, 0⟩ >>= fun mu => _) = _
    rw [hget, hfs]
    exact ⟨_, rfl⟩
  obtain ⟨g, hg⟩ := hres
  exact ⟨G2oEx.reader, G2oEx.lines.take 2 ++ [neg], _, hg, hneg, rfl, f, g, rfl, hf'.vars⟩

end Jaxfg.Props
