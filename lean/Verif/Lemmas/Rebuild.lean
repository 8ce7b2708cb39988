import Verif.Spec.Rebuild
import Verif.Props.Presentation
import Verif.Props.Encode

/-! Arrays that are in normal form already, and codes whose circuits agree. -/

namespace PyQ

open Spec

variable {n k r : ℕ}

theorem elimColumn_fixed {rows : List ℕ} {p col : ℕ} {A : Arr ℤ} (h : ∀ i ∈ rows, i ≠ p → A.get i col = 0) :
    elimColumn rows p col A = A := by
  unfold elimColumn
  induction rows with
  | nil => rfl
  | cons a rows ih =>
    rw [List.foldl_cons, if_neg]
    · exact ih fun i hi => h i (by simp [hi])
    · rintro ⟨h1, h2⟩
      exact h2 (h a (by simp) h1)

theorem foldl_fixed {α β : Type} {f : α → β → α} {l : List β} {a : α} (h : ∀ b ∈ l, f a b = a) : l.foldl f a = a := by
  induction l with
  | nil => rfl
  | cons b l ih => rw [List.foldl_cons, h b (by simp)]; exact ih fun x hx => h x (by simp [hx])

theorem firstBlock_fixed {A : Arr ℤ} (h : NormalShape n k r A) : firstBlock n r A = A := by
  have h1 := h.rank_le
  have h2 := h.rows
  apply foldl_fixed
  intro j hj
  rw [List.mem_range] at hj
  have hp : pivotSwap1 n j A = A := by
    unfold pivotSwap1
    rw [if_neg]
    rw [h.upperI j hj j hj, if_pos rfl]; decide
  unfold firstBlockStep
  rw [hp]
  apply elimColumn_fixed
  intro i hi hne
  rw [List.mem_range] at hi
  by_cases hir : i < r
  · rw [h.upperI i hir j hj, if_neg hne]
  · exact h.lowerX i (by omega) hi j (by omega)

theorem secondBlockLoops_fixed {A : Arr ℤ} {e : ℕ} (h : NormalShape n k r A) (he : r + e ≤ A.rows) :
    secondBlockLoops n k r e A = A := by
  have h2 := h.rows
  have hone : ∀ t, r ≤ t → t < r + e → A.get t (n + t) ≠ 0 := by
    intro t h1 h2
    rw [h.lowerI t h1 (by omega) t h1 (by omega), if_pos rfl]; decide
  have e1 : (List.range' r e).foldl (rowSwap2 n) A = A := by
    apply foldl_fixed
    intro t ht
    rw [List.mem_range'_1] at ht
    unfold rowSwap2
    rw [if_neg (hone t ht.1 ht.2)]
  unfold secondBlockLoops
  rw [e1]
  apply foldl_fixed
  intro t ht
  rw [List.mem_range'_1] at ht
  have hc : colSwap2 n A t = A := by
    unfold colSwap2
    rw [if_neg (hone t ht.1 ht.2)]
  unfold secondBlockStep
  rw [hc]
  apply elimColumn_fixed
  intro i hi hne
  rw [List.mem_range'_1] at hi
  rw [h.lowerI i hi.1 (by omega) t ht.1 (by omega), if_neg hne]

theorem normalShape_xRank {A : Arr ℤ} (h : NormalShape n k r A) : xRankQ n A = r ∧ xRank2 n A = r := by
  have h1 := h.rank_le
  have h2 := h.rows
  have a := xRankQ_le_of_zero h.lowerX
  have b := le_xRank2_of_topLeft (n := n) h1 (by omega) h.upperI
  have c := xRank2_le_Q (n := n) A
  omega

theorem standardNormalForm_fixed {A : Arr ℤ} (h : NormalShape n k r A) (hp : 0 < A.rows) :
    standardNormalForm n k A = .ok (A, r) := by
  have h1 := h.rank_le
  have h2 := h.rows
  have h3 := h.cols
  unfold standardNormalForm
  rw [matrixRank_ok (A := A.slice 0 A.rows 0 n) (show 0 < A.rows - 0 by omega) (show 0 < n - 0 by omega)]
  simp only [npRank_x, ok_bind', (normalShape_xRank h).1]
  rw [firstBlock_fixed h]
  have : secondBlock n k r A = .ok A := by
    unfold secondBlock
    by_cases hr : r = A.rows
    · rw [if_pos hr]
    · rw [if_neg hr, matrixRank_ok (A := A.slice r A.rows (n + r) A.cols) (show 0 < A.rows - r by omega)
        (show 0 < A.cols - (n + r) by omega)]
      simp only [ok_bind']
      rw [if_neg (by omega), secondBlockLoops_fixed h]
      have : npRank (A.slice r A.rows (n + r) A.cols) ≤ A.rows - r := by
        unfold npRank
        exact (Matrix.rank_le_card_height _).trans (Fintype.card_fin _).le
      omega
  rw [this]
  rfl

/-- The array of the rows of an array. -/
theorem ofRows_same {A : Arr ℤ} {m : ℕ} (hm : A.cols = m) : Arr.Same (Arr.ofRows m ((List.range A.rows).map A.row)) A := by
  subst hm
  refine ⟨by simp [Arr.ofRows], rfl, fun i hi j hj => ?_⟩
  simp only [Arr.ofRows, List.length_map, List.length_range] at hi hj
  simp only [Arr.ofRows]
  have : ((List.range A.rows).map A.row).getD i [] = A.row i := by
    rw [List.getD_eq_getElem _ _ (by simpa using hi)]
    simp
  rw [this, List.getD_eq_getElem _ _ (by simpa [Arr.row] using hj)]
  simp [Arr.row]

theorem normalShape_congr {A B : Arr ℤ} (h : NormalShape n k r A) (hs : Arr.Same B A) : NormalShape n k r B := by
  obtain ⟨s1, s2, s3⟩ := hs
  have h1 := h.rank_le
  have h2 := h.rows
  have h3 := h.cols
  refine ⟨by omega, by omega, by omega, ?_, ?_, ?_, ?_⟩
  · intro i hi j hj
    rw [s3 i hi j hj]
    exact h.binary i (by omega) j (by omega)
  · intro i hi j hj
    rw [s3 i (by omega) j (by omega)]
    exact h.upperI i hi j hj
  · intro i hi hi2 j hj
    rw [s3 i (by omega) j (by omega)]
    exact h.lowerX i hi (by omega) j hj
  · intro i hi hi2 j hj hj2
    rw [s3 i (by omega) _ (by omega)]
    exact h.lowerI i hi (by omega) j hj (by omega)

theorem rowVec_congr {A B : Arr ℤ} (hs : Arr.Same B A) (hc : A.cols = 2 * n) {i : ℕ} (hi : i < A.rows) :
    rowVec n B i = rowVec n A i := by
  obtain ⟨s1, s2, s3⟩ := hs
  unfold rowVec
  congr 1
  · funext j
    rw [s3 i (by omega) j (by omega)]
  · funext j
    rw [s3 i (by omega) _ (by omega)]

theorem commuting_congr {A B : Arr ℤ} (hs : Arr.Same B A) (hc : A.cols = 2 * n) (h : Commuting n A) : Commuting n B := by
  intro i hi j hj
  rw [hs.1] at hi hj
  rw [rowVec_congr hs hc hi, rowVec_congr hs hc hj]
  exact h i hi j hj

theorem row_congr {A B : Arr ℤ} (hs : Arr.Same B A) {i : ℕ} (hi : i < A.rows) : B.row i = A.row i := by
  obtain ⟨s1, s2, s3⟩ := hs
  unfold Arr.row
  rw [s2]
  apply List.map_congr_left
  intro j hj
  rw [List.mem_range] at hj
  exact s3 i (by omega) j (by omega)

/-- Rows in normal form are independent. -/
theorem normalShape_independent {A : Arr ℤ} (h : NormalShape n k r A) : Independent n A := by
  have h1 := h.rank_le
  have h2 := h.rows
  unfold Independent
  rw [Fintype.linearIndependent_iff]
  intro g hg i
  have hX : ∀ i : Fin A.rows, i.val < r → g i = 0 := by
    intro i hi
    have := congrFun (congrArg Prod.fst hg) ⟨i, by omega⟩
    rw [Prod.fst_sum, Finset.sum_apply, Finset.sum_eq_single i] at this
    · simpa [rowVec, h.upperI i hi i hi] using this
    · intro b _ hb
      show g b * ((A.get b i : ℤ) : ZMod 2) = 0
      by_cases hbr : b.val < r
      · rw [h.upperI b hbr i hi, if_neg (fun e => hb (Fin.ext e))]; simp
      · rw [h.lowerX b (by omega) b.2 i (by omega)]; simp
    · intro hh; exact absurd (Finset.mem_univ _) hh
  by_cases hi : i.val < r
  · exact hX i hi
  · have := congrFun (congrArg Prod.snd hg) ⟨i, by omega⟩
    rw [Prod.snd_sum, Finset.sum_apply, Finset.sum_eq_single i] at this
    · simpa [rowVec, h.lowerI i (by omega) i.2 i (by omega) i.2] using this
    · intro b _ hb
      show g b * ((A.get b (n + i) : ℤ) : ZMod 2) = 0
      by_cases hbr : b.val < r
      · rw [hX b hbr, zero_mul]
      · rw [h.lowerI b (by omega) b.2 i (by omega) i.2, if_neg (fun e => hb (Fin.ext e))]; simp
    · intro hh; exact absurd (Finset.mem_univ _) hh

theorem logicalZOf_same {A B : Arr ℤ} (h : NormalShape n k r A) (hB : NormalShape n k r B)
    (hu : ∀ i < r, ∀ j < 2 * n, B.get i j = A.get i j) : Arr.Same (logicalZOf n k r B) (logicalZOf n k r A) := by
  have h1 := h.rank_le
  have h2 := h.rows
  have h3 := hB.rows
  refine ⟨by rw [(lz_shape hB).1, (lz_shape h).1], by rw [(lz_shape hB).2, (lz_shape h).2], fun i hi j hj => ?_⟩
  rw [(lz_shape hB).1] at hi
  rw [(lz_shape hB).2] at hj
  by_cases hjn : j < n
  · rw [lz_x hjn, lz_x hjn]
  · obtain ⟨t, rfl⟩ : ∃ t, j = n + t := ⟨j - n, by omega⟩
    rw [lz_z hB (by omega), lz_z h (by omega), show B.rows = A.rows by omega]
    split_ifs with a
    · exact hu t a _ (by omega)
    all_goals rfl

theorem logicalXOf_same {A B : Arr ℤ} (h : NormalShape n k r A) (hB : NormalShape n k r B)
    (hu : ∀ i < r, ∀ j < 2 * n, B.get i j = A.get i j)
    (hl : ∀ i, r ≤ i → i < A.rows → ∀ j, n + A.rows ≤ j → j < 2 * n → B.get i j = A.get i j) :
    Arr.Same (logicalXOf n k r B) (logicalXOf n k r A) := by
  have h1 := h.rank_le
  have h2 := h.rows
  have h3 := hB.rows
  have hr : B.rows = A.rows := by omega
  refine ⟨by rw [(lx_shape hB).1, (lx_shape h).1], by rw [(lx_shape hB).2, (lx_shape h).2], fun i hi j hj => ?_⟩
  rw [(lx_shape hB).1] at hi
  rw [(lx_shape hB).2] at hj
  by_cases hjn : j < n
  · rw [lx_x hB hjn, lx_x h hjn, hr]
    split_ifs with a b
    · rfl
    · exact hl j (by omega) b _ (by omega) (by omega)
    all_goals rfl
  · obtain ⟨t, rfl⟩ : ∃ t, j = n + t := ⟨j - n, by omega⟩
    by_cases ht : t < r
    · rw [lx_z_low hB ht, lx_z_low h ht, hr, hu t ht _ (by omega)]
      congr 2
      apply Finset.sum_congr rfl
      intro u hu'
      rw [Finset.mem_range] at hu'
      rw [hl (r + u) (by omega) (by omega) _ (by omega) (by omega), hu t ht _ (by omega)]
    · rw [lx_z_high hB (by omega), lx_z_high h (by omega)]

theorem mapM_congr_mem {α β : Type} {f g : α → Except PyErr β} {l : List α} (h : ∀ x ∈ l, f x = g x) :
    l.mapM f = l.mapM g := by
  induction l with
  | nil => rfl
  | cons a l ih => rw [List.mapM_cons, List.mapM_cons, h a (by simp), ih fun x hx => h x (by simp [hx])]

/-- Codes that agree on what the circuit builders read have the same circuits. -/
theorem sameCircuits_of {c c' : StabCode} (hn : c.n = c'.n) (hk : c.k = c'.k) (hr : c.rank = c'.rank)
    (hs : c.stab.rows = c'.stab.rows) (hrow : ∀ i < c.rank, c.normalForm.row i = c'.normalForm.row i)
    (hX : Arr.Same c.logicalX c'.logicalX) (hZ : Arr.Same c.logicalZ c'.logicalZ) (hc : c.n ≤ c.logicalX.cols) :
    SameCircuits c c' := by
  obtain ⟨x1, x2, x3⟩ := hX
  have hrX : ∀ i, rowAt c.logicalX i = rowAt c'.logicalX i := by
    intro i
    unfold rowAt
    rw [x1]
    split_ifs with h
    · rw [row_congr ⟨x1, x2, x3⟩ h]
    · rfl
  have hrZ : ∀ i, rowAt c.logicalZ i = rowAt c'.logicalZ i := by
    intro i
    unfold rowAt
    rw [hZ.1]
    split_ifs with h
    · rw [row_congr hZ h]
    · rfl
  refine ⟨fun len δ => ?_, fun len add => ?_, fun len op => ?_, fun active len s => ?_⟩
  · unfold encodingCircuit
    have e1 : (List.range c.rank).mapM (generatorGates c len) = (List.range c'.rank).mapM (generatorGates c' len) := by
      rw [← hr]
      apply mapM_congr_mem
      intro i hi
      unfold generatorGates
      rw [hrow i (List.mem_range.mp hi)]
    have e2 : (if c.rank < c.stab.rows then
        if c.logicalX.rows < c.k then .error .index else .ok ((List.range c.k).reverse.flatMap (logicalXGates c))
        else .ok [] : Except PyErr (List Gate)) = (if c'.rank < c'.stab.rows then
        if c'.logicalX.rows < c'.k then .error .index else .ok ((List.range c'.k).reverse.flatMap (logicalXGates c'))
        else .ok []) := by
      rw [← hr, ← hs, ← hk, ← x1]
      split_ifs with h1 h2
      · rfl
      · congr 1
        apply List.flatMap_congr
        intro i hi
        rw [List.mem_reverse, List.mem_range] at hi
        unfold logicalXGates
        rw [← hn, ← hk, ← hr]
        apply List.flatMap_congr
        intro q hq
        rw [List.mem_range'_1] at hq
        rw [x3 i (by omega) q (by omega)]
      · rfl
    rw [e1, e2, hn, hk]
  · unfold decodingCircuit
    have e1 : copyGates c = copyGates c' := by
      funext len base total i
      unfold copyGates
      rw [hrZ, hn]
    have e2 : uncomputeGates c = uncomputeGates c' := by
      funext len base total i
      unfold uncomputeGates
      rw [hrX]
    rw [e1, e2, hn, hk]
  · have e : logicalRow c = logicalRow c' := by
      funext p i
      unfold logicalRow
      rw [hrX, hrZ]
    unfold logicalCircuit
    rw [e, hk]
  · unfold syndromeCircuit
    rw [hn]

/-- The constructor given the rows of an array in normal form. -/
theorem stabInit_fixed {A : Arr ℤ} (h : NormalShape n k r A) (hcom : Commuting n A) (hp : 0 < A.rows) :
    ∃ c, stabInit (.rows ((List.range A.rows).map A.row)) n k none = .ok c ∧ Arr.Same c.normalForm A ∧ c.rank = r ∧
      BinaryArr c.stab ∧ Independent n c.stab ∧ Arr.Same c.stab A ∧ c.n = n ∧ c.k = k ∧
      c.logicalX = logicalXOf n k r c.normalForm ∧ c.logicalZ = logicalZOf n k r c.normalForm := by
  have h2 := h.rows
  have h3 := h.cols
  have hs := ofRows_same h3
  set l := (List.range A.rows).map A.row with hl
  set B := Arr.ofRows (2 * n) l with hB
  have hBs := normalShape_congr h hs
  have hA : initArray (.rows l) n k = .ok B := by
    apply initArray_rows_ok
    · intro e
      have := congrArg List.length e
      simp [hl] at this
      omega
    · intro q hq
      obtain ⟨i, -, rfl⟩ := List.mem_map.mp hq
      simp [Arr.row, h3]
    · simp [hl]; omega
  have hBp : 0 < B.rows := by rw [hs.1]; exact hp
  obtain ⟨strs, hS⟩ := pauliStab_ok hBs.cols hBs.binary
  have hN := standardNormalForm_fixed hBs hBp
  have hcomB := commuting_congr hs h3 hcom
  refine ⟨⟨n, k, B, strs, B, r, logicalXOf n k r B, logicalZOf n k r B⟩, ?_, hs, rfl, hBs.binary, normalShape_independent hBs, hs, rfl, rfl,
    rfl, rfl⟩
  unfold stabInit
  simp only [hA, ok_bind', isStabilizerCode_eq hBs.cols, pyAssert, hcomB, decide_true, if_true, hS, hN]
  unfold logicalOperators pyAssert
  rw [if_pos (show topLeftIdentity B r from hBs.upperI)]
  simp only [ok_bind']
  rw [if_neg (by have := hBs.rows; omega)]
  rfl

end PyQ
