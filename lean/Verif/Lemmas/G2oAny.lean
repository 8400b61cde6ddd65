/- Reading any text as a g2o file. -/
import Verif.Spec.G2oAny
import Verif.Lemmas.G2o

namespace Jaxfg
open Spec
open Matrix hiding vec

/-! ### Pieces -/

theorem of_mem_takeWhile {p : Char → Bool} {l : List Char} {c : Char} (h : c ∈ l.takeWhile p) : p c = true := by
  induction l with
  | nil => simp at h
  | cons d l ih =>
    rw [List.takeWhile_cons] at h
    split at h
    · rcases List.mem_cons.1 h with rfl | h
      · assumption
      · exact ih h
    · simp at h

theorem splitSpace_piece {p : List Char} (hp : ' ' ∉ p) (l : List Char) : splitSpace (p ++ ' ' :: l) = p :: splitSpace l := by
  induction p with
  | nil => simp [splitSpace]
  | cons c p ih =>
    have hc : c ≠ ' ' := fun h => hp (by simp [h])
    rw [List.cons_append, splitSpace, if_neg hc, ih fun h => hp (by simp [h])]

theorem splitSpace_lastPiece {p : List Char} (hp : ' ' ∉ p) : splitSpace p = [p] := by
  induction p with
  | nil => simp [splitSpace]
  | cons c p ih =>
    have hc : c ≠ ' ' := fun h => hp (by simp [h])
    rw [splitSpace, if_neg hc, ih fun h => hp (by simp [h])]

theorem splitSpace_pieces {ps : List (List Char)} {l : List Char} (h : Pieces ps l) : (splitSpace l).filter (· ≠ []) = ps := by
  induction h with
  | one p hp => rw [splitSpace_lastPiece hp.2]; simp [hp.1]
  | cons p n ps rest hp h ih =>
    rw [List.append_assoc, List.replicate_succ, List.cons_append, splitSpace_piece hp.2, List.filter_cons]
    rw [if_pos (by simpa using hp.1), splitSpace_spaces, ih]

theorem pieces_ne_nil {ps : List (List Char)} {l : List Char} (h : Pieces ps l) : l ≠ [] := by
  cases h with
  | one _ hp => exact hp.1
  | cons p n ps rest hp h => simp [hp.1]

/-- A text that neither begins nor ends with a space consists of pieces. -/
theorem exists_pieces (n : Nat) : ∀ b : List Char, b.length ≤ n → b ≠ [] → (∀ c ∈ b.head?, c ≠ ' ') → (∀ c ∈ b.getLast?, c ≠ ' ') →
    ∃ ps, Pieces ps b := by
  induction n with
  | zero =>
    intro b hb hne
    exact absurd (List.length_eq_zero_iff.1 (by omega)) hne
  | succ n ih =>
    intro b hb hne hh hlast
    have hsplit := List.takeWhile_append_dropWhile (p := fun c => decide (c ≠ ' ')) (l := b)
    obtain ⟨p, hp⟩ : ∃ p, p = b.takeWhile fun c => decide (c ≠ ' ') := ⟨_, rfl⟩
    obtain ⟨r, hr⟩ : ∃ r, r = b.dropWhile fun c => decide (c ≠ ' ') := ⟨_, rfl⟩
    rw [← hp, ← hr] at hsplit
    have hpiece : IsPiece p := by
      constructor
      · obtain ⟨c, b', rfl⟩ := List.exists_cons_of_ne_nil hne
        have hc : c ≠ ' ' := hh c (by simp)
        rw [hp, List.takeWhile_cons_of_pos (by simpa using hc)]
        simp
      · intro hm
        rw [hp] at hm
        have := of_mem_takeWhile hm
        simp at this
    by_cases hrn : r = []
    · rw [hrn, List.append_nil] at hsplit
      exact ⟨[p], hsplit ▸ .one p hpiece⟩
    · obtain ⟨c, r', hrc⟩ := List.exists_cons_of_ne_nil hrn
      have hc : c = ' ' := by
        have := List.head_dropWhile_not (fun c => decide (c ≠ ' ')) (l := b) (by rw [← hr]; exact hrn)
        simp only [← hr, hrc, List.head_cons] at this
        simpa using this
      subst hc
      have hsp := List.takeWhile_append_dropWhile (p := fun c => decide (c = ' ')) (l := r')
      obtain ⟨w, hw⟩ : ∃ w, w = r'.takeWhile fun c => decide (c = ' ') := ⟨_, rfl⟩
      obtain ⟨d, hd⟩ : ∃ d, d = r'.dropWhile fun c => decide (c = ' ') := ⟨_, rfl⟩
      rw [← hw, ← hd] at hsp
      have hwr : w = List.replicate w.length ' ' := by
        apply List.eq_replicate_iff.2
        refine ⟨rfl, fun c hc => ?_⟩
        rw [hw] at hc
        simpa using of_mem_takeWhile hc
      have hb' : b = p ++ List.replicate (w.length + 1) ' ' ++ d := by
        rw [← hsplit, hrc, List.replicate_succ, ← hwr, ← hsp]
        simp
      have hdn : d ≠ [] := by
        intro h
        rw [h, List.append_nil, List.replicate_succ', ← List.append_assoc] at hb'
        exact hlast ' ' (by rw [hb']; simp) rfl
      have hdh : ∀ c ∈ d.head?, c ≠ ' ' := by
        intro c hc
        have := List.head?_dropWhile_not (fun c => decide (c = ' ')) r'
        rw [← hd] at this
        rw [Option.mem_def] at hc
        rw [hc] at this
        simpa using this
      have hdl : ∀ c ∈ d.getLast?, c ≠ ' ' := by
        intro c hc
        apply hlast
        rw [hb', List.getLast?_append]
        rw [Option.mem_def] at hc ⊢
        rw [hc]
        rfl
      have hlen : d.length ≤ n := by
        have := congrArg List.length hb'
        simp only [List.length_append, List.length_replicate] at this
        omega
      obtain ⟨ps, hps⟩ := ih d hlen hdn hdh hdl
      exact ⟨p :: ps, hb' ▸ .cons p w.length ps d hpiece hps⟩

theorem strip_spec (l : List Char) : ∃ w w', (∀ c ∈ w, isSpace c = true) ∧ (∀ c ∈ w', isSpace c = true) ∧ l = w ++ strip l ++ w' ∧
    (∀ c ∈ (strip l).head?, isSpace c = false) ∧ (∀ c ∈ (strip l).getLast?, isSpace c = false) := by
  obtain ⟨m, hm⟩ : ∃ m, m = l.dropWhile isSpace := ⟨_, rfl⟩
  have e1 := List.takeWhile_append_dropWhile (p := isSpace) (l := l)
  have e2 := List.takeWhile_append_dropWhile (p := isSpace) (l := m.reverse)
  have hs : strip l = (m.reverse.dropWhile isSpace).reverse := by rw [strip, ← hm]
  have e3 : m = strip l ++ (m.reverse.takeWhile isSpace).reverse := by
    rw [hs, ← List.reverse_append, e2, List.reverse_reverse]
  refine ⟨l.takeWhile isSpace, (m.reverse.takeWhile isSpace).reverse, fun c hc => of_mem_takeWhile hc, fun c hc => ?_, ?_, ?_, ?_⟩
  · exact of_mem_takeWhile (List.mem_reverse.1 hc)
  · rw [List.append_assoc, ← e3, hm, e1]
  · intro c hc
    have := List.head?_dropWhile_not isSpace l
    rw [← hm, e3, List.head?_append] at this
    rw [Option.mem_def] at hc
    rw [hc] at this
    simpa using this
  · intro c hc
    have := List.head?_dropWhile_not isSpace m.reverse
    rw [hs, List.getLast?_reverse, Option.mem_def] at hc
    rw [hc] at this
    simpa using this

theorem strip_unique {l w b w' : List Char} (hw : ∀ c ∈ w, isSpace c = true) (hw' : ∀ c ∈ w', isSpace c = true) (hb : b ≠ [])
    (hh : ∀ c ∈ b.head?, isSpace c = false) (hlast : ∀ c ∈ b.getLast?, isSpace c = false) (hl : l = w ++ b ++ w') : strip l = b := by
  subst hl
  unfold strip
  rw [List.append_assoc, dropWhile_all_append hw]
  obtain ⟨c, b', rfl⟩ := List.exists_cons_of_ne_nil hb
  have hc : isSpace c = false := hh c (by simp)
  rw [List.cons_append, List.dropWhile_cons_of_neg (by simp [hc]), ← List.cons_append, List.reverse_append,
    dropWhile_all_append (by simpa using hw')]
  obtain ⟨d, hd⟩ : ∃ d, (c :: b').getLast? = some d := ⟨_, List.getLast?_eq_some_getLast (by simp)⟩
  have hdn := hlast d hd
  rw [List.getLast?_eq_some_iff] at hd
  obtain ⟨ys, hys⟩ := hd
  rw [hys]
  simp [hdn]

/-- The fields of a line are its pieces. -/
theorem fields_pieces {ps : List (List Char)} {l : List Char} : HasPieces ps l ↔ fields l = ps ∧ ps ≠ [] := by
  constructor
  · rintro ⟨w, b, w', hw, hw', hh, hlast, hp, rfl⟩
    have hb := pieces_ne_nil hp
    refine ⟨by rw [fields, strip_unique (fun c hc => isSpace_iff.2 (hw c hc)) (fun c hc => isSpace_iff.2 (hw' c hc)) hb
      (fun c hc => isSpace_false.2 (hh c hc)) (fun c hc => isSpace_false.2 (hlast c hc)) rfl, splitSpace_pieces hp], ?_⟩
    cases hp <;> simp
  · rintro ⟨rfl, hne⟩
    obtain ⟨w, w', hw, hw', e, hh, hlast⟩ := strip_spec l
    have hb : strip l ≠ [] := by
      intro h
      apply hne
      rw [fields, h]
      simp [splitSpace]
    have sp : isSpace ' ' = true := by decide
    obtain ⟨ps, hps⟩ := exists_pieces _ (strip l) le_rfl hb (fun c hc h => by
      have := hh c hc; rw [h, sp] at this; cases this) fun c hc h => by
      have := hlast c hc; rw [h, sp] at this; cases this
    have : fields l = ps := splitSpace_pieces hps
    rw [this]
    exact ⟨w, strip l, w', fun c hc => isSpace_iff.1 (hw c hc), fun c hc => isSpace_iff.1 (hw' c hc), fun c hc => isSpace_false.1 (hh c hc),
      fun c hc => isSpace_false.1 (hlast c hc), hps, e⟩

/-! ### Precision matrices -/

theorem mapM_numbers {R : Reader} {ws : List (List Char)} {xs : List ℝ} (h : ws.mapM R.float = .ok xs) : Numbers R ws xs := by
  induction ws generalizing xs with
  | nil => cases h; exact .nil
  | cons w ws ih =>
    rw [List.mapM_cons] at h
    cases hw : R.float w with
    | error e => rw [hw] at h; cases h
    | ok x =>
      cases hws : ws.mapM R.float with
      | error e => rw [hw, hws] at h; cases h
      | ok xs' =>
        rw [hw, hws] at h
        cases h
        exact .cons hw (ih hws)

/-- Every list of the right length is the upper triangle of a symmetric matrix. -/
theorem exists_upperTriangle {n : Nat} (hnd : (triuIndices n).Nodup) {u : List ℝ} (hu : u.length = (triuIndices n).length) :
    ∃ P : Matrix (Fin n) (Fin n) ℝ, P.IsSymm ∧ upperTriangle P = u := by
  refine ⟨.of fun i j => u.getD ((triuIndices n).idxOf (min i.val j.val, max i.val j.val)) 0, ?_, ?_⟩
  · ext i j
    simp only [Matrix.transpose_apply, Matrix.of_apply]
    rw [min_comm, max_comm]
  · rw [upperTriangle_eq]
    apply List.ext_getElem (by rw [List.length_map, hu])
    intro m h1 h2
    rw [List.getElem_map]
    have hm : m < (triuIndices n).length := by rwa [List.length_map] at h1
    obtain ⟨hle, hlt⟩ := mem_triuIndices.1 (List.getElem_mem hm)
    rw [dif_pos ⟨by omega, hlt⟩]
    have e : (min (triuIndices n)[m].1 (triuIndices n)[m].2, max (triuIndices n)[m].1 (triuIndices n)[m].2) = (triuIndices n)[m] := by
      rw [min_eq_left hle, max_eq_right hle]
    show u.getD ((triuIndices n).idxOf (min (triuIndices n)[m].1 (triuIndices n)[m].2, max (triuIndices n)[m].1 (triuIndices n)[m].2)) 0 = _
    rw [e, hnd.idxOf_getElem m hm, List.getD_eq_getElem?_getD, List.getElem?_eq_getElem h2]
    rfl

/-- The numbers of an edge that is accepted: a full upper triangle. -/
theorem sqrtPrecision_ok {n : Nat} (hnd : (triuIndices n).Nodup) (hn : 2 ≤ n) {u : List ℝ} {W : Arr ℝ}
    (h : (precisionMatrix n u >>= sqrtPrecision n) = .ok W) :
    ∃ P : Matrix (Fin n) (Fin n) ℝ, P.IsSymm ∧ upperTriangle P = u ∧ P.PosDef := by
  by_cases hu : u.length = (triuIndices n).length
  · obtain ⟨P, hP, hPu⟩ := exists_upperTriangle hnd hu
    refine ⟨P, hP, hPu, ?_⟩
    by_contra hpd
    rw [← hPu, precisionMatrix_upperTriangle P hP] at h
    have h' : sqrtPrecision n (.ofMat P) = .ok W := h
    rw [sqrtPrecision_not_posDef P hpd] at h'
    cases h'
  · exfalso
    by_cases h1 : ∃ x, u = [x]
    · obtain ⟨x, rfl⟩ := h1
      obtain ⟨P, hPd⟩ : ∃ P : Matrix (Fin n) (Fin n) ℝ, P = .of fun _ _ => x := ⟨_, rfl⟩
      have hP : P.IsSymm := by ext i j; simp [hPd]
      have e (a : Arr ℝ) : setTriu n a [x] = setTriu n a (upperTriangle P) := by
        have hrep : upperTriangle P = List.replicate (triuIndices n).length x := by
          rw [upperTriangle_eq]
          apply List.eq_replicate_iff.2
          refine ⟨by simp, fun y hy => ?_⟩
          obtain ⟨p, hp, rfl⟩ := List.mem_map.1 hy
          obtain ⟨hle, hlt⟩ := mem_triuIndices.1 hp
          rw [dif_pos ⟨by omega, hlt⟩, hPd]
          rfl
        unfold setTriu
        dsimp only
        rw [if_neg (by rw [List.length_map]; exact hu), if_pos (by rw [upperTriangle_length, List.length_map]), hrep]
        congr 3
        generalize triuIndices n = t
        induction t with
        | nil => rfl
        | cons p t ih => simp only [List.map_cons, List.length_cons, List.replicate_succ, List.zip_cons_cons, ih]
      have e' : precisionMatrix n [x] = precisionMatrix n (upperTriangle P) := by
        unfold precisionMatrix
        rw [e]
        simp only [e]
      rw [e', precisionMatrix_upperTriangle P hP] at h
      have h' : sqrtPrecision n (.ofMat P) = .ok W := h
      rw [sqrtPrecision_not_posDef P ?_] at h'
      · cases h'
      · intro hpd
        have hne : (Pi.single (⟨0, by omega⟩ : Fin n) 1 - Pi.single (⟨1, by omega⟩ : Fin n) 1 : Fin n → ℝ) ≠ 0 := by
          intro hz
          have := congrFun hz ⟨0, by omega⟩
          simp at this
        have := hpd.dotProduct_mulVec_pos hne
        have hz : P *ᵥ (Pi.single (⟨0, by omega⟩ : Fin n) 1 - Pi.single (⟨1, by omega⟩ : Fin n) 1 : Fin n → ℝ) = 0 := by
          rw [Matrix.mulVec_sub]
          funext i
          simp [hPd]
        rw [hz] at this
        simp at this
    · have e (a : Arr ℝ) : setTriu n a u = .error .value := by
        unfold setTriu
        dsimp only
        rw [if_neg (by rw [List.length_map]; exact hu)]
        match u, h1 with
        | [], _ => rfl
        | [x], h1 => exact absurd ⟨x, rfl⟩ h1
        | _ :: _ :: _, _ => rfl
      unfold precisionMatrix at h
      rw [e] at h
      cases h

/-! ### One line -/

theorem pyGet_refers {α : Type} {l : List α} {i : Int} {x : α} : pyGet l i = .ok x ↔ ∃ a, Refers l.length i a ∧ l[a]? = some x := by
  unfold pyGet
  dsimp only
  constructor
  · intro h
    obtain ⟨m, hm⟩ : ∃ m : Int, m = if i < 0 then i + l.length else i := ⟨_, rfl⟩
    rw [← hm] at h
    by_cases hneg : m < 0
    · rw [if_pos hneg] at h; cases h
    · rw [if_neg hneg] at h
      split at h
      · rename_i y hy
        cases h
        refine ⟨_, ?_, hy⟩
        have hlt := (List.getElem?_eq_some_iff.1 hy).1
        refine ⟨hlt, ?_⟩
        by_cases hi : i < 0
        · rw [if_pos hi] at hm
          right
          omega
        · rw [if_neg hi] at hm
          left
          omega
      · cases h
  · rintro ⟨a, ⟨hlt, h | h⟩, hx⟩
    · subst h
      rw [if_neg (show ¬(a : Int) < 0 by omega), if_neg (show ¬(a : Int) < 0 by omega)]
      simp only [Int.toNat_natCast, hx]
    · have h1 : i < 0 := by omega
      have h2 : i + (l.length : Int) = a := by omega
      rw [if_pos h1, h2, if_neg (show ¬(a : Int) < 0 by omega)]
      simp only [Int.toNat_natCast, hx]

section
variable {limit : Int} {next : Nat}

/-- The variables for poses. -/
def posesVars (next : Nat) (ps : List (LieType × List ℝ)) : List Var := ps.mapIdx fun i p => ⟨p.1.fileTy, next + i⟩

theorem posesVars_length (ps : List (LieType × List ℝ)) : (posesVars next ps).length = ps.length := by simp [posesVars]

theorem posesVars_concat (ps : List (LieType × List ℝ)) (p : LieType × List ℝ) :
    posesVars next (ps ++ [p]) = posesVars next ps ++ [⟨p.1.fileTy, next + ps.length⟩] := by
  simp [posesVars, List.mapIdx_append]

theorem posesVars_getElem? (ps : List (LieType × List ℝ)) (a : Nat) :
    (posesVars next ps)[a]? = ps[a]?.map fun p => ⟨p.1.fileTy, next + a⟩ := by simp [posesVars]

theorem posesVars_nodup (ps : List (LieType × List ℝ)) : (posesVars next ps).Nodup := by
  have e : (posesVars next ps).map Var.uid = (List.range ps.length).map (next + ·) := by
    apply List.ext_getElem (by simp [posesVars])
    intro m h1 h2
    simp [posesVars]
  apply List.Nodup.of_map Var.uid
  rw [e]
  exact List.nodup_range.map fun a b h => Nat.add_left_cancel h

theorem mem_posesVars {ps : List (LieType × List ℝ)} {v : Var} (h : v ∈ posesVars next ps) : v.uid < next + ps.length := by
  obtain ⟨a, ha, rfl⟩ := List.mem_iff_getElem.1 h
  rw [posesVars_length] at ha
  simp only [posesVars, List.getElem_mapIdx]
  omega

theorem posesVars_ty (ps : List (LieType × List ℝ)) : (posesVars next ps).map (·.ty) = ps.map (·.1.fileTy) := by
  apply List.ext_getElem (by simp [posesVars])
  intro m h1 h2
  simp [posesVars]

/-- The state for a pose graph. -/
structure StateFor (next : Nat) (g : PoseGraph) (s : G2oState) : Prop where
  next_eq : s.next = next + g.poses.length
  vars : s.poseVariables = posesVars next g.poses
  groups : ∀ p ∈ g.poses, p.1 = .se2 ∨ p.1 = .se3
  poses : s.initialPoses.items = (posesVars next g.poses).zip (g.poses.map fun p => p.1.ops.value p.2)
  factors : List.Forall₂ (fun e f => ∃ a b, (posesVars next g.poses)[e.a]? = some a ∧ (posesVars next g.poses)[e.b]? = some b ∧
    IsEdgeFactor e.k a b e.T e.P f) g.edges s.factors

theorem StateFor.length {g : PoseGraph} {s : G2oState} (h : StateFor next g s) : s.poseVariables.length = g.poses.length := by
  rw [h.vars, posesVars_length]

theorem StateFor.items_length {g : PoseGraph} {s : G2oState} (h : StateFor next g s) :
    s.initialPoses.items.length = g.poses.length := by
  rw [h.poses]; simp [posesVars_length]

theorem StateFor.addPose {g : PoseGraph} {s : G2oState} (h : StateFor next g s) {k : LieType} (hk : k = .se2 ∨ k = .se3)
    (x : List ℝ) : StateFor next { g with poses := g.poses ++ [(k, x)] } (s.addPose k.fileTy x) := by
  have hG : g2oGroup k.fileTy = k.ops := by rcases hk with rfl | rfl <;> rfl
  have hnot : (⟨k.fileTy, s.next⟩ : Var) ∉ posesVars next g.poses := by
    intro hm
    have := mem_posesVars hm
    rw [h.next_eq] at this
    exact lt_irrefl _ this
  constructor
  · show s.next + 1 = _
    rw [h.next_eq]; simp [Nat.add_assoc]
  · show s.poseVariables ++ [_] = _
    rw [posesVars_concat, h.vars, h.next_eq]
  · intro p hp
    rcases List.mem_append.1 hp with hp | hp
    · exact h.groups p hp
    · rw [List.mem_singleton.1 hp]; exact hk
  · rw [posesVars_concat, List.map_append, List.zip_append (by simp [posesVars_length])]
    show (s.initialPoses.set _ _).items = _
    have hc : s.initialPoses.contains (⟨k.fileTy, s.next⟩ : Var) = false := by
      unfold PyDict.contains PyDict.get?
      rw [h.poses, lookup_zip_none hnot]
      rfl
    unfold PyDict.set
    rw [hc]
    show s.initialPoses.items ++ [_] = _
    rw [h.poses, hG, h.next_eq]
    rfl
  · rw [posesVars_concat]
    apply List.Forall₂.imp _ h.factors
    rintro e f ⟨a, b, ha, hb, hf⟩
    refine ⟨a, b, ?_, ?_, hf⟩
    · rw [List.getElem?_append_left (List.getElem?_eq_some_iff.1 ha).1]; exact ha
    · rw [List.getElem?_append_left (List.getElem?_eq_some_iff.1 hb).1]; exact hb

theorem StateFor.line {R : Reader} {g g' : PoseGraph} {s : G2oState} (h : StateFor next g s) {ps : List (List Char)}
    (hl : LineSays R limit g ps g') : ∃ s', s.line R limit ps = .ok s' ∧ StateFor next g' s' := by
  cases hl with
  | @pose k _ x hr hl =>
    have hk : k = .se2 ∨ k = .se3 := by cases hr <;> simp
    rw [line_vertex hr, h.length, h.items_length, if_neg (by rintro ⟨h1, h2⟩; have := hl h1; omega), if_pos rfl]
    exact ⟨_, rfl, h.addPose hk x⟩
  | skipPose hl =>
    rw [line_vertexSE2]
    unfold G2oState.vertexSE2
    rw [h.length, if_pos hl]
    exact ⟨s, rfl, h⟩
  | @edge k _ i j T P a b x y hr hl hP ha hb hx hy =>
    have hk : k = .se2 ∨ k = .se3 := by cases hr <;> simp
    have hs : P.IsSymm := by cases hr <;> assumption
    rw [line_edge hr, if_pos hl]
    have ha' : (posesVars next g.poses)[a]? = some ⟨k.fileTy, next + a⟩ := by rw [posesVars_getElem?, hx]; rfl
    have hb' : (posesVars next g.poses)[b]? = some ⟨k.fileTy, next + b⟩ := by rw [posesVars_getElem?, hy]; rfl
    obtain ⟨f, hf, hf'⟩ := addEdge_posDef hk (s := s) (i := i) (j := j) (T := T) hs hP
      (pyGet_refers.2 ⟨a, by rw [h.length]; exact ha, by rw [h.vars]; exact ha'⟩)
      (pyGet_refers.2 ⟨b, by rw [h.length]; exact hb, by rw [h.vars]; exact hb'⟩) rfl rfl
    exact ⟨_, hf, h.next_eq, h.vars, h.groups, h.poses, List.rel_append h.factors (.cons ⟨_, _, ha', hb', hf'⟩ .nil)⟩
  | skipEdge hm hn hl =>
    rw [line_edgeSE2, edgeSE2_cons _ _ _ _ _ _ _ hm hn, if_pos hl]
    exact ⟨s, rfl, h⟩

theorem StateFor.edge_ok {R : Reader} {g : PoseGraph} {s s' : G2oState} (h : StateFor next g s) {k : LieType} (hk : k = .se2 ∨ k = .se3)
    {i j : Int} {T u : List ℝ} (hs : s.addEdge i j k.ops T u = .ok s') (hl : EdgeKept k limit i j) {ps : List (List Char)}
    (hr : ∀ P : Matrix (Fin k.ops.tangentDim) (Fin k.ops.tangentDim) ℝ, P.IsSymm → upperTriangle P = u →
      Reads R k ps (.edge i j T P)) : ∃ g', LineSays R limit g ps g' := by
  have hnd : (triuIndices k.ops.tangentDim).Nodup := by
    rcases hk with rfl | rfl
    · show (triuIndices 3).Nodup
      decide
    · show (triuIndices 6).Nodup
      decide
  have h2 : 2 ≤ k.ops.tangentDim := by
    rcases hk with rfl | rfl
    · show 2 ≤ 3
      decide
    · show 2 ≤ 6
      decide
  unfold G2oState.addEdge at hs
  rw [← bind_assoc] at hs
  cases hW : (precisionMatrix k.ops.tangentDim u >>= sqrtPrecision k.ops.tangentDim) with
  | error e => rw [hW] at hs; cases hs
  | ok W =>
    obtain ⟨P, hP, hPu, hpd⟩ := sqrtPrecision_ok hnd h2 hW
    rw [hW] at hs
    cases ha : pyGet s.poseVariables i with
    | error e => 
      have hs' : (pyGet s.poseVariables i >>= fun a => pyGet s.poseVariables j >>= fun b => _) = _ := hs
      rw [ha] at hs'; cases hs'
    | ok a =>
      have hs' : (pyGet s.poseVariables i >>= fun a => pyGet s.poseVariables j >>= fun b => _) = _ := hs
      rw [ha] at hs'
      cases hb : pyGet s.poseVariables j with
      | error e =>
        have hs'' : (pyGet s.poseVariables j >>= fun b => _) = _ := hs'
        rw [hb] at hs''; cases hs''
      | ok b =>
        have hs'' : (pyGet s.poseVariables j >>= fun b => _) = _ := hs'
        rw [hb] at hs''
        have hm : (BetweenFactor.make (betweenCls k.ops.treedef) (fun t => (g2oGroup t).treedef) a b (k.ops.value T) (.gaussian W) >>=
          fun f => (.ok { s with factors := s.factors ++ [f] } : Py G2oState)) = .ok s' := hs''
        obtain ⟨na, hra, hna⟩ := pyGet_refers.1 ha
        obtain ⟨nb, hrb, hnb⟩ := pyGet_refers.1 hb
        rw [h.length] at hra hrb
        rw [h.vars, posesVars_getElem?] at hna hnb
        obtain ⟨⟨ka, x⟩, hx, hax⟩ := Option.map_eq_some_iff.1 hna
        obtain ⟨⟨kb, y⟩, hy, hby⟩ := Option.map_eq_some_iff.1 hnb
        have hka := h.groups _ (List.mem_of_getElem? hx)
        have hkb := h.groups _ (List.mem_of_getElem? hy)
        have h1 : a.ty = b.ty := by
          by_contra hc
          unfold BetweenFactor.make at hm
          rw [decide_eq_false hc] at hm
          cases hm
        have h2 : (g2oGroup a.ty).treedef = k.ops.treedef := by
          by_contra hc
          unfold BetweenFactor.make at hm
          rw [decide_eq_true h1, decide_eq_false (show ¬(g2oGroup a.ty).treedef = (k.ops.value T).treedef from hc)] at hm
          cases hm
        have hat : a.ty = ka.fileTy := by rw [← hax]
        have hbt : b.ty = kb.fileTy := by rw [← hby]
        have e1 : ka = k := by
          rw [hat] at h2
          rcases hka with h | h <;> rcases hk with h' | h' <;> simp only at h <;> subst h h' <;>
            first | rfl | (exact absurd h2 (by simp [g2oGroup, LieType.fileTy, LieType.ops, se2Ty, se3Ty, LieGroup.se2, LieGroup.se3]))
        have e2 : kb = k := by
          rw [← e1]
          rw [hat, hbt] at h1
          rcases hka with h | h <;> rcases hkb with h' | h' <;> simp only at h h' <;> subst h h' <;>
            first | rfl | (exact absurd h1 (by simp [LieType.fileTy, se2Ty, se3Ty]))
        subst e1
        subst e2
        exact ⟨_, .edge (hr P hP hPu) hl hpd hra hrb hx hy⟩

theorem StateFor.line_ok {R : Reader} {g : PoseGraph} {s s' : G2oState} (h : StateFor next g s) {ps : List (List Char)}
    (hs : s.line R limit ps = .ok s') : ∃ g', LineSays R limit g ps g' := by
  cases ps with
  | nil => cases hs
  | cons kind ps =>
    rw [line_cons] at hs
    split at hs
    · rename_i hkind
      subst hkind
      unfold G2oState.vertexSE2 at hs
      rw [h.length] at hs
      split at hs
      · rename_i hl
        exact ⟨g, .skipPose hl⟩
      · rename_i hl
        split at hs
        · rename_i _ _ index x y θ e
          obtain ⟨rfl⟩ : ps = [index, x, y, θ] := by cases e; rfl
          cases hi : R.int index with
          | error e => rw [hi] at hs; cases hs
          | ok i =>
            cases hx : R.float x with
            | error e => rw [hi, hx] at hs; cases hs
            | ok x' =>
              cases hy : R.float y with
              | error e => rw [hi, hx, hy] at hs; cases hs
              | ok y' =>
                cases hθ : R.float θ with
                | error e => rw [hi, hx, hy, hθ] at hs; cases hs
                | ok θ' =>
                  have he : (g.poses.length : Int) = i := by
                    by_contra hc
                    rw [hi, hx, hy, hθ] at hs
                    have hs' : (pyAssert (decide ((s.initialPoses.items.length : Int) = i)) >>= fun _ => _) = _ := hs
                    rw [h.items_length, decide_eq_false hc] at hs'
                    cases hs'
                  subst he
                  exact ⟨_, .pose (.vertex2 hi (.cons hx (.cons hy (.cons hθ .nil)))) fun _ => by omega⟩
        · cases hs
    · split at hs
      · rename_i hkind
        subst hkind
        match ps, hs with
        | [], hs => cases hs
        | [m], hs =>
          exfalso
          have hs' : (R.int m >>= fun i => (.error .index : Py G2oState)) = _ := hs
          cases hm : R.int m with
          | error e => rw [hm] at hs'; cases hs'
          | ok i => rw [hm] at hs'; cases hs'
        | m :: n :: ps, hs =>
          have hs0 : (R.int m >>= fun i => R.int n >>= fun j => _) = _ := hs
          cases hm : R.int m with
          | error e => rw [hm] at hs0; cases hs0
          | ok i =>
            cases hn : R.int n with
            | error e => rw [hm] at hs0; have hs1 : (R.int n >>= fun j => _) = _ := hs0; rw [hn] at hs1; cases hs1
            | ok j =>
              rw [edgeSE2_cons _ _ _ _ _ _ _ hm hn] at hs
              split at hs
              · rename_i hl
                exact ⟨g, .skipEdge hm hn hl⟩
              · rename_i hl
                cases hxs : (ps.take 3).mapM R.float with
                | error e => rw [hxs] at hs; cases hs
                | ok xs =>
                  rw [hxs] at hs
                  match xs, hs with
                  | [], hs => cases hs
                  | [_], hs => cases hs
                  | [_, _], hs => cases hs
                  | _ :: _ :: _ :: _ :: _, hs => cases hs
                  | [x, y, θ], hs =>
                    have hs' : ((ps.drop 3).mapM R.float >>= fun u => s.addEdge i j .se2 (se2FromXyTheta x y θ) u) = .ok s' := hs
                    cases hus : (ps.drop 3).mapM R.float with
                    | error e => rw [hus] at hs'; cases hs'
                    | ok u =>
                      rw [hus] at hs'
                      have hs'' : s.addEdge i j LieType.se2.ops (se2FromXyTheta x y θ) u = .ok s' := hs'
                      refine h.edge_ok (.inl rfl) hs'' (fun _ => by omega) fun P hP hPu => ?_
                      rw [← List.take_append_drop 3 ps]
                      exact .edge2 hm hn (mapM_numbers hxs) (hPu ▸ mapM_numbers hus) hP
      · split at hs
        · rename_i hkind
          subst hkind
          unfold G2oState.vertexSE3 at hs
          split at hs
          · rename_i _ _ index x y z qx qy qz qw e
            obtain ⟨rfl⟩ : ps = [index, x, y, z, qx, qy, qz, qw] := by cases e; rfl
            cases hi : R.int index with
            | error e => rw [hi] at hs; cases hs
            | ok i =>
              have he : (g.poses.length : Int) = i := by
                by_contra hc
                rw [hi] at hs
                have hs' : (pyAssert (decide ((s.initialPoses.items.length : Int) = i)) >>= fun _ => _) = _ := hs
                rw [h.items_length, decide_eq_false hc] at hs'
                cases hs'
              have hs' : (pyAssert (decide ((s.initialPoses.items.length : Int) = i)) >>= fun _ =>
                [qw, qx, qy, qz, x, y, z].mapM R.float >>= fun p => .ok (s.addPose se3Ty p)) = .ok s' := by rw [hi] at hs; exact hs
              rw [h.items_length, decide_eq_true he] at hs'
              have hs'' : ([qw, qx, qy, qz, x, y, z].mapM R.float >>= fun p => .ok (s.addPose se3Ty p)) = .ok s' := hs'
              cases hp : [qw, qx, qy, qz, x, y, z].mapM R.float with
              | error e => rw [hp] at hs''; cases hs''
              | ok p =>
                have := mapM_numbers hp
                rcases this with _ | ⟨h4, _ | ⟨h1, _ | ⟨h2, _ | ⟨h3, _ | ⟨ha, _ | ⟨hb, _ | ⟨hc, _ | _⟩⟩⟩⟩⟩⟩⟩
                subst he
                exact ⟨_, .pose (.vertex3 hi (.cons ha (.cons hb (.cons hc (.cons h1 (.cons h2 (.cons h3 (.cons h4 .nil))))))))
                  fun h => by cases h⟩
          · cases hs
        · split at hs
          · rename_i hkind
            subst hkind
            match ps, hs with
            | [], hs => cases hs
            | [m], hs =>
              exfalso
              have hs' : (R.int m >>= fun i => (.error .index : Py G2oState)) = _ := hs
              cases hm : R.int m with
              | error e => rw [hm] at hs'; cases hs'
              | ok i => rw [hm] at hs'; cases hs'
            | m :: n :: ps, hs =>
              have hs0 : (R.int m >>= fun i => R.int n >>= fun j => ps.mapM R.float >>= fun xs =>
                pyAssert (xs.length = 7 + 21) >>= fun _ =>
                s.addEdge i j .se3 (slice xs 6 1 ++ slice xs 3 3 ++ slice xs 0 3) (xs.drop 7)) = .ok s' := hs
              cases hm : R.int m with
              | error e => rw [hm] at hs0; cases hs0
              | ok i =>
                rw [hm] at hs0
                cases hn : R.int n with
                | error e => have hs1 : (R.int n >>= fun j => _) = _ := hs0; rw [hn] at hs1; cases hs1
                | ok j =>
                  have hs1 : (R.int n >>= fun j => _) = _ := hs0
                  rw [hn] at hs1
                  cases hx : ps.mapM R.float with
                  | error e => have hs2 : (ps.mapM R.float >>= fun j => _) = _ := hs1; rw [hx] at hs2; cases hs2
                  | ok xs =>
                    have hs2 : (ps.mapM R.float >>= fun j => _) = _ := hs1
                    rw [hx] at hs2
                    have hs3 : (pyAssert (decide (xs.length = 7 + 21)) >>= fun _ =>
                      s.addEdge i j .se3 (slice xs 6 1 ++ slice xs 3 3 ++ slice xs 0 3) (xs.drop 7)) = .ok s' := hs2
                    by_cases hlen : xs.length = 7 + 21
                    · rw [decide_eq_true hlen] at hs3
                      have hs4 : s.addEdge i j LieType.se3.ops (slice xs 6 1 ++ slice xs 3 3 ++ slice xs 0 3) (xs.drop 7) = .ok s' := hs3
                      refine h.edge_ok (.inr rfl) hs4 (fun h => by cases h) fun P hP hPu => ?_
                      have hnum := mapM_numbers hx
                      match xs, hlen, hnum with
                      | x0 :: x1 :: x2 :: x3 :: x4 :: x5 :: x6 :: u, hlen, hnum =>
                        rcases hnum with _ | ⟨h0, _ | ⟨h1, _ | ⟨h2, _ | ⟨h3, _ | ⟨h4, _ | ⟨h5, _ | ⟨h6, hu⟩⟩⟩⟩⟩⟩⟩
                        exact .edge3 (xs := [_, _, _, _, _, _, _]) hm hn (.cons h0 (.cons h1 (.cons h2 (.cons h3 (.cons h4 (.cons h5 (.cons h6 .nil)))))))
                          (hPu ▸ hu) hP
                    · rw [decide_eq_false hlen] at hs3
                      cases hs3
          · cases hs

/-! ### The loop -/

theorem StateFor.lines {R : Reader} {g g' : PoseGraph} {lines : List (List Char)} (hl : LinesSay R limit g lines g')
    {s : G2oState} (h : StateFor next g s) :
    ∃ s', lines.foldlM (fun s l => s.line R limit (fields l)) s = .ok s' ∧ StateFor next g' s' := by
  induction hl generalizing s with
  | nil g => exact ⟨s, rfl, h⟩
  | cons hp hl _ ih =>
    obtain ⟨s', hs', h'⟩ := h.line hl
    obtain ⟨s'', hs'', h''⟩ := ih h'
    refine ⟨s'', ?_, h''⟩
    rw [List.foldlM_cons, (fields_pieces.1 hp).1, hs']
    exact hs''

theorem StateFor.lines_ok {R : Reader} (lines : List (List Char)) {g : PoseGraph} {s s' : G2oState} (h : StateFor next g s)
    (hs : lines.foldlM (fun s l => s.line R limit (fields l)) s = .ok s') :
    ∃ g', LinesSay R limit g lines g' ∧ StateFor next g' s' := by
  induction lines generalizing g s with
  | nil => cases hs; exact ⟨g, .nil g, h⟩
  | cons l lines ih =>
    rw [List.foldlM_cons] at hs
    cases h1 : s.line R limit (fields l) with
    | error e => rw [h1] at hs; cases hs
    | ok s1 =>
      rw [h1] at hs
      obtain ⟨g1, hg1⟩ := h.line_ok h1
      obtain ⟨s1', hs1', hst⟩ := h.line hg1
      obtain rfl : s1' = s1 := Except.ok.inj (hs1'.symm.trans h1)
      obtain ⟨g', hg', hst'⟩ := ih hst hs
      refine ⟨g', .cons (fields_pieces.2 ⟨rfl, ?_⟩) hg1 hg', hst'⟩
      intro hn
      rw [hn] at h1
      cases h1

theorem stateFor_nil : StateFor next ⟨[], []⟩ ⟨next, [], .empty, []⟩ := ⟨rfl, rfl, by simp, rfl, .nil⟩

end

end Jaxfg
