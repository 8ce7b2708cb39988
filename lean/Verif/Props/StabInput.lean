import Verif.Model.StabInput
import Verif.Props.Constructor
import Verif.Lemmas.Examples

/-! # C74: generators that do not match `n` and `k` -/

namespace PyQ

open Spec

variable {n k rank : ℕ}

theorem find?_congr_mem {α : Type} {p q : α → Bool} {l : List α} (h : ∀ a ∈ l, p a = q a) : l.find? p = l.find? q := by
  induction l with
  | nil => rfl
  | cons a l ih =>
    rw [List.find?_cons, List.find?_cons, h a (by simp), ih fun b hb => h b (by simp [hb])]

theorem pivotSwap1_cols (A : Arr ℤ) (j : ℕ) : (pivotSwap1 n j A).cols = A.cols ∧ (pivotSwap1 n j A).rows = A.rows := by
  unfold pivotSwap1
  split_ifs
  · rcases findPivot A n j with _ | ⟨c, r⟩ <;> exact ⟨rfl, rfl⟩
  · exact ⟨rfl, rfl⟩

theorem pivotSwapAny_eq {A : Arr ℤ} (hc : A.cols = 2 * n) (j : ℕ) : pivotSwapAny n j A = .ok (pivotSwap1 n j A) := by
  unfold pivotSwapAny pivotSwap1
  split_ifs with h1 h2
  · omega
  · rcases h : findPivot A n j with _ | ⟨c, r⟩
    · rfl
    · obtain ⟨-, h3, -⟩ := findPivot_some h
      simp only
      rw [if_neg (by omega)]
  · rfl

theorem firstBlockStepAny_eq {A : Arr ℤ} (hc : A.cols = 2 * n) (j : ℕ) :
    firstBlockStepAny n A j = .ok (firstBlockStep n A j) := by
  unfold firstBlockStepAny firstBlockStep
  rw [pivotSwapAny_eq hc]
  simp only [ok_bind', pure_ok', (pivotSwap1_cols A j).2]

theorem firstBlockStep_cols (A : Arr ℤ) (j : ℕ) : (firstBlockStep n A j).cols = A.cols := by
  unfold firstBlockStep
  rw [elimColumn_cols, (pivotSwap1_cols A j).1]

theorem firstBlockAny_eq {A : Arr ℤ} (hc : A.cols = 2 * n) (rank : ℕ) : firstBlockAny n rank A = .ok (firstBlock n rank A) := by
  unfold firstBlockAny firstBlock
  generalize List.range rank = l
  induction l generalizing A with
  | nil => rfl
  | cons j l ih =>
    rw [List.foldlM_cons, firstBlockStepAny_eq hc, List.foldl_cons]
    simp only [ok_bind']
    exact ih (by rw [firstBlockStep_cols]; exact hc)

theorem colSwapAny_eq {A : Arr ℤ} (hc : A.cols = 2 * n) (t : ℕ) : colSwapAny n A t = .ok (colSwap2 n A t) := by
  unfold colSwapAny colSwap2
  split_ifs with h1
  · have hf : (List.range' (n + t + 1) (2 * n - (n + t + 1))).find? (fun c => decide (A.cols ≤ c ∨ A.get t c = 1)) =
        (List.range' (n + t + 1) (2 * n - (n + t + 1))).find? (fun c => decide (A.get t c = 1)) := by
      apply find?_congr_mem
      intro a ha
      rw [List.mem_range'_1] at ha
      have : ¬ A.cols ≤ a := by omega
      simp [this]
    rw [hf]
    rcases h : (List.range' (n + t + 1) (2 * n - (n + t + 1))).find? (fun c => decide (A.get t c = 1)) with _ | c
    · rfl
    · have h2 := List.mem_of_find?_eq_some h
      rw [List.mem_range'_1] at h2
      simp only
      rw [if_neg (by omega)]
  · rfl

theorem colSwap2_cols (A : Arr ℤ) (t : ℕ) : (colSwap2 n A t).cols = A.cols ∧ (colSwap2 n A t).rows = A.rows := by
  unfold colSwap2
  split_ifs
  · split <;> exact ⟨rfl, rfl⟩
  · exact ⟨rfl, rfl⟩

theorem rowSwap2_shape (A : Arr ℤ) (t : ℕ) : (rowSwap2 n A t).cols = A.cols ∧ (rowSwap2 n A t).rows = A.rows := by
  unfold rowSwap2
  split_ifs
  · split <;> exact ⟨rfl, rfl⟩
  · exact ⟨rfl, rfl⟩

theorem rowSwaps_shape (l : List ℕ) (A : Arr ℤ) :
    (l.foldl (rowSwap2 n) A).cols = A.cols ∧ (l.foldl (rowSwap2 n) A).rows = A.rows := by
  induction l generalizing A with
  | nil => exact ⟨rfl, rfl⟩
  | cons t l ih =>
    rw [List.foldl_cons]
    obtain ⟨h1, h2⟩ := ih (rowSwap2 n A t)
    obtain ⟨h3, h4⟩ := rowSwap2_shape (n := n) A t
    exact ⟨h1.trans h3, h2.trans h4⟩

theorem secondBlockStepAny_eq {A : Arr ℤ} (hc : A.cols = 2 * n) (k rank t : ℕ) :
    secondBlockStepAny n k rank A t = if A.rows + k < n then .error .index else .ok (secondBlockStep n k rank A t) := by
  unfold secondBlockStepAny secondBlockStep
  rw [colSwapAny_eq hc]
  simp only [ok_bind', (colSwap2_cols A t).2]
  split_ifs <;> rfl

theorem secondBlockStep_shape (A : Arr ℤ) (k rank t : ℕ) :
    (secondBlockStep n k rank A t).cols = A.cols ∧ (secondBlockStep n k rank A t).rows = A.rows := by
  unfold secondBlockStep
  rw [elimColumn_cols, elimColumn_rows]
  exact colSwap2_cols A t

theorem secondLoopAny_eq {A : Arr ℤ} (hc : A.cols = 2 * n) (k rank : ℕ) (l : List ℕ) :
    l.foldlM (secondBlockStepAny n k rank) A =
      if 0 < l.length ∧ A.rows + k < n then .error .index else .ok (l.foldl (secondBlockStep n k rank) A) := by
  induction l generalizing A with
  | nil => simp [pure_ok']
  | cons t l ih =>
    rw [List.foldlM_cons, secondBlockStepAny_eq hc, List.foldl_cons]
    by_cases h : A.rows + k < n
    · rw [if_pos h, if_pos ⟨by simp, h⟩]; rfl
    · rw [if_neg h, if_neg (fun hh => h hh.2)]
      simp only [ok_bind']
      obtain ⟨h1, h2⟩ := secondBlockStep_shape (n := n) A k rank t
      rw [ih (by rw [h1]; exact hc), h2, if_neg (fun hh => h hh.2)]

theorem sliceBound_nat (len i : ℕ) : sliceBound len (i : ℤ) = min i len := by
  unfold sliceBound
  rw [if_neg (by omega), Int.toNat_natCast]

theorem secondBlockAny_eq {A : Arr ℤ} (hc : A.cols = 2 * n) (k : ℕ) {rank : ℕ} (hr : rank ≤ n) :
    secondBlockAny n k rank A = secondBlock n k rank A := by
  unfold secondBlockAny secondBlock
  split_ifs with h
  · rfl
  · have hs : A.pySlice rank A.rows (n + rank : ℕ) A.cols = A.slice rank A.rows (n + rank) A.cols := by
      unfold Arr.pySlice
      rw [sliceBound_nat, sliceBound_nat, min_eq_left (by omega), min_self]
    rw [hs]
    rcases matrixRank (A.slice rank A.rows (n + rank) A.cols) with e | rE
    · rfl
    · simp only [ok_bind']
      obtain ⟨h1, h2⟩ := rowSwaps_shape (n := n) (List.range' rank rE) A
      rw [secondLoopAny_eq (by rw [h1]; exact hc), h2, List.length_range']
      rfl

theorem standardNormalFormAny_eq {A : Arr ℤ} (hc : A.cols = 2 * n) (k : ℕ) :
    standardNormalFormAny n k A = standardNormalForm n k A := by
  unfold standardNormalFormAny standardNormalForm
  have hs : A.pySlice 0 A.rows 0 (n : ℕ) = A.slice 0 A.rows 0 n := by
    unfold Arr.pySlice
    rw [sliceBound_nat, show (0 : ℤ) = ((0 : ℕ) : ℤ) from rfl, sliceBound_nat, min_eq_left (by omega), min_eq_left (by omega)]
  rw [hs]
  by_cases h0 : (A.slice 0 A.rows 0 n).rows = 0 ∨ (A.slice 0 A.rows 0 n).cols = 0
  · rw [matrixRank_error h0]; rfl
  · rw [matrixRank_ok (by omega) (by omega)]
    simp only [ok_bind', npRank_x]
    rw [firstBlockAny_eq hc]
    simp only [ok_bind']
    have e1 := equi_firstBlock (n := n) A (xRankQ_le_n (n := n) A) (xRankQ_le_rows (n := n) A)
    rw [secondBlockAny_eq (by rw [e1.cols]; exact hc) k (xRankQ_le_n (n := n) A)]

theorem sliceBound_self (len : ℕ) : sliceBound len (len : ℤ) = len := by rw [sliceBound_nat, min_self]

/-- The shapes `logical_operators` needs. -/
def FitShapes (n k rank : ℕ) (nf : Arr ℤ) : Prop :=
  nf.rows - rank = sliceBound nf.cols (2 * n - k) - sliceBound nf.cols ((n : ℤ) + rank) ∧
  nf.cols - sliceBound nf.cols (2 * n - k) = k ∧ k + rank ≤ n ∧
  sliceBound nf.cols n - sliceBound nf.cols ((n : ℤ) - k) = k

theorem logicalOperatorsAny_eq (n k rank : ℕ) (nf : Arr ℤ) :
    ((¬ topLeftIdentity nf rank) → logicalOperatorsAny n k rank nf = .error .assertion) ∧
    (topLeftIdentity nf rank → ¬ FitShapes n k rank nf → logicalOperatorsAny n k rank nf = .error .value) ∧
    (topLeftIdentity nf rank → FitShapes n k rank nf → 
      logicalOperatorsAny n k rank nf =
        let a2 := nf.pySlice 0 rank ((n : ℤ) - k) n
        let c1 := nf.pySlice 0 rank ((n : ℤ) + rank) (2 * n - k)
        let c2 := nf.pySlice 0 rank (2 * n - k) nf.cols
        let e := nf.pySlice rank nf.rows (2 * n - k) nf.cols
        .ok (((((Arr.zeros k rank).hstack e.transpose).hstack (Arr.eye k)).hstack
            ((e.transpose.mul c1.transpose).add c2.transpose).mod2).hstack (Arr.zeros k (n - rank)),
          (((Arr.zeros k n).hstack a2.transpose).hstack (Arr.zeros k (n - k - rank))).hstack (Arr.eye k))) := by
  refine ⟨?_, ?_, ?_⟩
  · intro h
    unfold logicalOperatorsAny pyAssert
    rw [if_neg h]; rfl
  · intro h hf
    unfold logicalOperatorsAny pyAssert
    rw [if_pos h]
    simp only [ok_bind']
    by_cases h1 : nf.rows - rank = sliceBound nf.cols (2 * n - k) - sliceBound nf.cols ((n : ℤ) + rank)
    swap
    · rw [Arr.dot, if_neg (show ¬ (nf.pySlice rank nf.rows (2 * n - k) nf.cols).transpose.cols = (nf.pySlice 0 rank ((n : ℤ) + rank) (2 * n - k)).transpose.rows
        from h1)]; rfl
    rw [Arr.dot, if_pos (show (nf.pySlice rank nf.rows (2 * n - k) nf.cols).transpose.cols = (nf.pySlice 0 rank ((n : ℤ) + rank) (2 * n - k)).transpose.rows
        from h1)]
    simp only [ok_bind']
    by_cases h2 : nf.cols - sliceBound nf.cols (2 * n - k) = k
    swap
    · rw [hstackAll, if_neg]
      · rfl
      · intro hh
        refine h2 ?_
        have h3 := hh _ (List.mem_cons_self)
        have h4 : sliceBound nf.cols (nf.cols : ℤ) - sliceBound nf.cols (2 * n - k) = k := h3
        rwa [sliceBound_self] at h4
    have h2' : sliceBound nf.cols (nf.cols : ℤ) - sliceBound nf.cols (2 * n - k) = k := by rw [sliceBound_self]; exact h2
    rw [hstackAll, if_pos]
    swap
    · intro B hB
      simp only [List.mem_cons, List.not_mem_nil, or_false] at hB
      rcases hB with rfl | rfl | rfl | rfl
      · exact h2'
      · rfl
      · exact h2'
      · rfl
    simp only [ok_bind']
    by_cases h3 : n < k + rank
    · rw [if_pos h3]
    rw [if_neg h3, hstackAll, if_neg]
    · rfl
    · intro hh
      have h5 := hh _ (List.mem_cons_self)
      exact hf ⟨h1, h2, by omega, h5⟩
  · rintro h ⟨h1, h2, h3, h4⟩
    have h2' : sliceBound nf.cols (nf.cols : ℤ) - sliceBound nf.cols (2 * n - k) = k := by rw [sliceBound_self]; exact h2
    unfold logicalOperatorsAny pyAssert
    rw [if_pos h]
    simp only [ok_bind']
    rw [Arr.dot, if_pos (show (nf.pySlice rank nf.rows (2 * n - k) nf.cols).transpose.cols = (nf.pySlice 0 rank ((n : ℤ) + rank) (2 * n - k)).transpose.rows
        from h1)]
    simp only [ok_bind']
    rw [hstackAll, if_pos]
    swap
    · intro B hB
      simp only [List.mem_cons, List.not_mem_nil, or_false] at hB
      rcases hB with rfl | rfl | rfl | rfl
      · exact h2'
      · rfl
      · exact h2'
      · rfl
    simp only [ok_bind']
    rw [if_neg (by omega), hstackAll, if_pos]
    · rfl
    · intro B hB
      simp only [List.mem_cons, List.not_mem_nil, or_false] at hB
      rcases hB with rfl | rfl | rfl
      · exact h4
      · rfl
      · rfl


theorem sliceBound_of {len : ℕ} {i : ℤ} {m : ℕ} (h : i = m) (hm : m ≤ len) : sliceBound len i = m := by
  rw [h, sliceBound_nat, min_eq_left hm]

/-- The width of the slice from column `2 n - k` on. -/
theorem tail_width {L n k : ℕ} (hn : 0 < n) (h : 2 * L - sliceBound (2 * L) (2 * n - k) = k) : L = n ∨ k = 0 ∧ L < n := by
  unfold sliceBound at h
  split_ifs at h with h1 <;> omega

theorem logicalAny_agrees {nf : Arr ℤ} (hc : nf.cols = 2 * n) (hn : 0 < n) (hr : rank ≤ nf.rows) (hrn : rank ≤ n) :
    logicalOperatorsAny n k rank nf = logicalOperators n k rank nf := by
  obtain ⟨l1, l2, l3⟩ := logicalOperatorsAny_eq n k rank nf
  unfold logicalOperators pyAssert
  by_cases ht : topLeftIdentity nf rank
  swap
  · rw [l1 ht, if_neg ht]; rfl
  rw [if_pos ht]
  simp only [ok_bind']
  by_cases hk : nf.rows + k = n
  · have b1 : sliceBound nf.cols (2 * n - k) = 2 * n - k := sliceBound_of (by omega) (by omega)
    have b2 : sliceBound nf.cols ((n : ℤ) + rank) = n + rank := sliceBound_of (by omega) (by omega)
    have b3 : sliceBound nf.cols (n : ℤ) = n := sliceBound_of rfl (by omega)
    have b4 : sliceBound nf.cols ((n : ℤ) - k) = n - k := sliceBound_of (by omega) (by omega)
    have b5 := sliceBound_self nf.cols
    rw [if_neg (by omega), l3 ht ⟨by rw [b1, b2]; omega, by rw [b1]; omega, by omega, by rw [b3, b4]; omega⟩]
    unfold Arr.pySlice
    rw [b1, b2, b3, b4, b5, hc]
    rfl
  · rw [if_pos hk, l2 ht]
    rintro ⟨f1, f2, f3, -⟩
    have b1 : sliceBound nf.cols (2 * n - k) = 2 * n - k := sliceBound_of (by omega) (by omega)
    have b2 : sliceBound nf.cols ((n : ℤ) + rank) = n + rank := sliceBound_of (by omega) (by omega)
    rw [b1, b2] at f1
    omega

/-- What the model of the constructor for strings of length `n` is: the one for all strings. -/
theorem C74_agrees (s : StabInput) (n k : ℕ) (lo : Option (Arr ℤ × Arr ℤ))
    (h : ∀ l, s = .strs l → (l.headD []).length = n) : stabInitAny s n k lo = stabInit s n k lo := by
  have hA : initArrayAny s n k = initArray s n k := by
    cases s with
    | rows l => rfl
    | strs l =>
      unfold initArrayAny initArray
      have := h l rfl
      simp only
      rcases pauliStrToBinaryRepresentation l with e | rows
      · rfl
      · simp only [ok_bind']
        rw [if_neg (by omega)]
  unfold stabInitAny stabInit
  rw [hA]
  rcases hi : initArray s n k with e | A
  · rfl
  have hc := initArray_cols hi
  simp only [ok_bind']
  rw [standardNormalFormAny_eq hc]
  rcases hN : standardNormalForm n k A with e | ⟨nf, rank⟩
  · rfl
  obtain ⟨e, hr⟩ := standardNormalForm_equi hc hN
  have hn : 0 < n := by
    by_contra h0
    have h0 : n = 0 := by omega
    subst h0
    unfold standardNormalForm at hN
    rw [matrixRank_error (Or.inr rfl)] at hN
    simp at hN
  have hl : logicalOperatorsAny n k rank nf = logicalOperators n k rank nf :=
    logicalAny_agrees (by rw [e.cols]; exact hc) hn (by rw [hr, e.rows]; exact xRankQ_le_rows (n := n) A)
      (by rw [hr]; exact xRankQ_le_n (n := n) A)
  simp only [ok_bind', hl]
  rfl

theorem firstBlockAny_cols {A B : Arr ℤ} {l : List ℕ} (h : l.foldlM (firstBlockStepAny n) A = .ok B) : B.cols = A.cols := by
  induction l generalizing A with
  | nil => simp only [List.foldlM_nil, pure_ok', Except.ok.injEq] at h; rw [h]
  | cons j l ih =>
    rw [List.foldlM_cons] at h
    rcases hs : firstBlockStepAny n A j with e | C
    · rw [hs] at h; simp at h
    rw [hs] at h
    simp only [ok_bind'] at h
    rw [ih h]
    unfold firstBlockStepAny pivotSwapAny at hs
    split_ifs at hs with h1 h2
    · simp at hs
    · rcases hf : findPivot A n j with _ | ⟨c, r⟩
      · simp only [hf, ok_bind', pure_ok', Except.ok.injEq] at hs
        rw [← hs, elimColumn_cols]
      · simp only [hf] at hs
        split_ifs at hs
        · simp at hs
        · simp only [ok_bind', pure_ok', Except.ok.injEq] at hs
          rw [← hs, elimColumn_cols]; rfl
    · simp only [ok_bind', pure_ok', Except.ok.injEq] at hs
      rw [← hs, elimColumn_cols]

theorem secondBlockAny_cols {A B : Arr ℤ} {l : List ℕ} (h : l.foldlM (secondBlockStepAny n k rank) A = .ok B) :
    B.cols = A.cols := by
  induction l generalizing A with
  | nil => simp only [List.foldlM_nil, pure_ok', Except.ok.injEq] at h; rw [h]
  | cons t l ih =>
    rw [List.foldlM_cons] at h
    rcases hs : secondBlockStepAny n k rank A t with e | C
    · rw [hs] at h; simp at h
    rw [hs] at h
    simp only [ok_bind'] at h
    rw [ih h]
    unfold secondBlockStepAny at hs
    rcases hq : colSwapAny n A t with e | D
    · rw [hq] at hs; simp at hs
    rw [hq] at hs
    simp only [ok_bind'] at hs
    split_ifs at hs
    simp only [pure_ok', Except.ok.injEq] at hs
    rw [← hs, elimColumn_cols]
    unfold colSwapAny at hq
    split_ifs at hq
    · split at hq
      · simp only [Except.ok.injEq] at hq; rw [hq]
      · split_ifs at hq
        simp only [Except.ok.injEq] at hq
        rw [← hq]; rfl
    · simp only [Except.ok.injEq] at hq; rw [hq]

theorem standardNormalFormAny_cols {A nf : Arr ℤ} (h : standardNormalFormAny n k A = .ok (nf, rank)) :
    nf.cols = A.cols ∧ 0 < n := by
  unfold standardNormalFormAny at h
  have hn : 0 < n := by
    by_contra h0
    have h0 : n = 0 := by omega
    subst h0
    rw [matrixRank_error (Or.inr ?_)] at h
    · simp at h
    · show sliceBound A.cols ((0 : ℕ) : ℤ) - _ = 0
      rw [sliceBound_nat]; omega
  refine ⟨?_, hn⟩
  rcases hm : matrixRank (A.pySlice 0 A.rows 0 (n : ℕ)) with e | r
  · rw [hm] at h; simp at h
  rw [hm] at h
  simp only [ok_bind'] at h
  rcases hb : firstBlockAny n r A with e | B
  · rw [hb] at h; simp at h
  rw [hb] at h
  simp only [ok_bind'] at h
  rcases hs : secondBlockAny n k r B with e | C
  · rw [hs] at h; simp at h
  rw [hs] at h
  simp only [ok_bind', pure_ok', Except.ok.injEq, Prod.mk.injEq] at h
  rw [← h.1, ← firstBlockAny_cols hb]
  unfold secondBlockAny at hs
  split_ifs at hs
  · simp only [Except.ok.injEq] at hs; rw [hs]
  · rcases hE : matrixRank (B.pySlice r B.rows (n + r : ℕ) B.cols) with e | rE
    · rw [hE] at hs; simp at hs
    rw [hE] at hs
    simp only [ok_bind'] at hs
    rw [secondBlockAny_cols hs, (rowSwaps_shape _ _).1]

/-- **C74, partial**.  Strings, no logical operators supplied: an accepted code has strings of length `n` (the first one, see
`C74_longer_refuted` for the others) and `n - k` of them, except that `k = 0` and strings shorter than `n` can be accepted. -/
theorem C74_strings_partial (l : List (List Char)) (n k : ℕ) (c : StabCode) (h : stabInitAny (.strs l) n k none = .ok c) :
    ((l.headD []).length = n ∧ l.length + k = n) ∨ (k = 0 ∧ (l.headD []).length < n) := by
  by_cases hL : (l.headD []).length = n
  · left
    refine ⟨hL, ?_⟩
    rw [C74_agrees (.strs l) n k none (by intro l' h'; cases h'; exact hL)] at h
    obtain ⟨hA, -, -, hN, -, -, hl, -⟩ := stabInit_ok h
    have hrows : c.stab.rows = l.length := by
      unfold initArray at hA
      simp only at hA
      rcases hp : pauliStrToBinaryRepresentation l with e | rows
      · rw [hp] at hA; simp at hA
      rw [hp] at hA
      simp only [ok_bind'] at hA
      rw [if_neg (by omega)] at hA
      simp only [pure_ok', Except.ok.injEq] at hA
      rw [← hA]
      show rows.length = l.length
      cases l with
      | nil => simp [pauliStrToBinaryRepresentation] at hp
      | cons p0 ps =>
        unfold pauliStrToBinaryRepresentation at hp
        exact (mapM_ok_iff.mp hp).length_eq.symm
    have hl := hl rfl
    unfold logicalOperators pyAssert at hl
    split_ifs at hl with h1 h2 <;>
      first
      | (have := (standardNormalForm_equi (initArray_cols hA) hN).1.rows; omega)
      | simp at hl
  · unfold stabInitAny initArrayAny at h
    simp only at h
    rcases hp : pauliStrToBinaryRepresentation l with e | rows
    · rw [hp] at h; simp at h
    rw [hp] at h
    simp only [ok_bind', pure_ok'] at h
    generalize hA : Arr.ofRows (2 * (l.headD []).length) rows = A at h
    have hc : A.cols = 2 * (l.headD []).length := by rw [← hA]; rfl
    rcases hs : isStabilizerCode A with e | b
    · rw [hs] at h; simp at h
    rw [hs] at h
    simp only [ok_bind', pyAssert] at h
    split_ifs at h with hb
    swap
    · simp at h
    simp only [ok_bind'] at h
    rcases ht : (List.range A.rows).mapM (fun i => binaryRepToPauliStr (A.row i)) with e | strs
    · rw [ht] at h; simp at h
    rw [ht] at h
    simp only [ok_bind'] at h
    rcases hN : standardNormalFormAny n k A with e | ⟨nf, rank⟩
    · rw [hN] at h; simp at h
    rw [hN] at h
    simp only [ok_bind'] at h
    obtain ⟨hcols, hn⟩ := standardNormalFormAny_cols hN
    obtain ⟨l1, l2, -⟩ := logicalOperatorsAny_eq n k rank nf
    by_cases htop : topLeftIdentity nf rank
    swap
    · rw [l1 htop] at h; simp at h
    by_cases hf : FitShapes n k rank nf
    swap
    · rw [l2 htop hf] at h; simp at h
    obtain ⟨-, f2, -⟩ := hf
    rw [hcols, hc] at f2
    rcases tail_width hn f2 with h1 | h1
    · exact absurd h1 hL
    · exact Or.inr h1

/-- **C74, partial**.  Rows of one length that do not match `n` and `k` give `AssertionError`, whatever logical operators are
supplied. -/
theorem C74_arrays_partial (l : List (List ℤ)) (m n k : ℕ) (lo : Option (Arr ℤ × Arr ℤ)) (hne : l ≠ [])
    (hl : ∀ r ∈ l, r.length = m) (hbad : m ≠ 2 * n ∨ l.length + k ≠ n) :
    stabInitAny (.rows l) n k lo = .error .assertion := by
  rw [C74_agrees (.rows l) n k lo (by intro l' h'; cases h')]
  exact C05_array_wrong_shape l m n k lo hne hl hbad

/-- **C74 refuted (short strings)**.  `StabilizerCode(["X"], 2, 0)` is accepted: one generator on one qubit for a code that
is said to have two generators on two qubits. -/
theorem C74_short_refuted : ∃ c, stabInitAny (.strs [['X']]) 2 0 none = .ok c ∧ c.n = 2 ∧ c.stab.rows = 1 ∧ c.stab.cols = 2 := by
  have hr : matrixRank ((Arr.ofRows 2 [[1, 0]] : Arr ℤ).pySlice 0 1 0 (2 : ℕ)) = .ok 1 := by
    have e : (Arr.ofRows 2 [[1, 0]] : Arr ℤ).pySlice 0 1 0 (2 : ℕ) = (Arr.ofRows 2 [[1, 0]]).slice 0 1 0 2 :=
      congrArg₂ ((Arr.ofRows 2 [[1, 0]] : Arr ℤ).slice 0 1) (by decide) (by decide)
    rw [e, matrixRank_ok (by decide) (by decide)]
    congr 1
    exact rank_cert (M := Matrix.of fun (i : Fin 1) (j : Fin 2) => ((Arr.ofRows 2 [[1, 0]] : Arr ℤ).slice 0 1 0 2).get i j)
      !![1] !![1, 0] !![1] !![1; 0] (by decide) (by decide) ℚ
  have hN : standardNormalFormAny 2 0 (Arr.ofRows 2 [[1, 0]]) = .ok (elimColumn [0] 0 0 (Arr.ofRows 2 [[1, 0]]), 1) := by
    unfold standardNormalFormAny
    rw [show (Arr.ofRows 2 [[1, 0]] : Arr ℤ).rows = 1 from rfl, hr]
    rfl
  have hl : ∃ l', logicalOperatorsAny 2 0 1 (elimColumn [0] 0 0 (Arr.ofRows 2 [[1, 0]])) = .ok l' :=
    ⟨_, (logicalOperatorsAny_eq 2 0 1 _).2.2 (by decide) (by unfold FitShapes; decide)⟩
  obtain ⟨⟨lx, lz⟩, hl⟩ := hl
  refine ⟨⟨2, 0, Arr.ofRows 2 [[1, 0]], [['X']], elimColumn [0] 0 0 (Arr.ofRows 2 [[1, 0]]), 1, lx, lz⟩, ?_, rfl, rfl, rfl⟩
  have hA : initArrayAny (.strs [['X']]) 2 0 = .ok (Arr.ofRows 2 [[1, 0]]) := rfl
  unfold stabInitAny
  rw [hA]
  have hi : isStabilizerCode (Arr.ofRows 2 [[1, 0]]) = .ok true := rfl
  have hp : (List.range (Arr.ofRows 2 [[1, 0]] : Arr ℤ).rows).mapM (fun i => binaryRepToPauliStr ((Arr.ofRows 2 [[1, 0]]).row i)) =
      .ok [['X']] := rfl
  simp only [ok_bind', hi, pyAssert, if_true, hp, hN, hl]
  rfl

/-- **C74 (short strings that are noticed)**.  For the one generator `IX`, said to act on three or on five qubits, the
elimination leaves the array: `IndexError`, for every `k` and all logical operators.  (With three qubits the column to be
swapped is found and its partner is outside; with five the search itself leaves the array.) -/
theorem C74_index (k : ℕ) (lo : Option (Arr ℤ × Arr ℤ)) :
    stabInitAny (.strs [['I', 'X']]) 3 k lo = .error .index ∧ stabInitAny (.strs [['I', 'X']]) 5 k lo = .error .index := by
  have hp : (List.range (Arr.ofRows 4 [[0, 1, 0, 0]] : Arr ℤ).rows).mapM
      (fun i => binaryRepToPauliStr ((Arr.ofRows 4 [[0, 1, 0, 0]]).row i)) = .ok [['I', 'X']] := rfl
  have hi : isStabilizerCode (Arr.ofRows 4 [[0, 1, 0, 0]]) = .ok true := rfl
  have main : ∀ n, matrixRank ((Arr.ofRows 4 [[0, 1, 0, 0]] : Arr ℤ).pySlice 0 1 0 (n : ℕ)) = .ok 1 →
      pivotSwapAny n 0 (Arr.ofRows 4 [[0, 1, 0, 0]]) = .error .index →
      stabInitAny (.strs [['I', 'X']]) n k lo = .error .index := by
    intro n hr hq
    have hA : initArrayAny (.strs [['I', 'X']]) n k = .ok (Arr.ofRows 4 [[0, 1, 0, 0]]) := rfl
    have hN : standardNormalFormAny n k (Arr.ofRows 4 [[0, 1, 0, 0]]) = .error .index := by
      unfold standardNormalFormAny
      rw [show (Arr.ofRows 4 [[0, 1, 0, 0]] : Arr ℤ).rows = 1 from rfl, hr]
      have hb : firstBlockAny n 1 (Arr.ofRows 4 [[0, 1, 0, 0]]) = .error .index := by
        unfold firstBlockAny
        rw [show List.range 1 = [0] from rfl, List.foldlM_cons]
        unfold firstBlockStepAny
        rw [hq]
        rfl
      simp only [ok_bind', hb]
      rfl
    unfold stabInitAny
    rw [hA]
    simp only [ok_bind', hi, pyAssert, if_true, hp, hN]
    rfl
  have e3 : (Arr.ofRows 4 [[0, 1, 0, 0]] : Arr ℤ).pySlice 0 1 0 (3 : ℕ) = (Arr.ofRows 4 [[0, 1, 0, 0]]).slice 0 1 0 3 :=
    congrArg₂ ((Arr.ofRows 4 [[0, 1, 0, 0]] : Arr ℤ).slice 0 1) (by decide) (by decide)
  have e5 : (Arr.ofRows 4 [[0, 1, 0, 0]] : Arr ℤ).pySlice 0 1 0 (5 : ℕ) = (Arr.ofRows 4 [[0, 1, 0, 0]]).slice 0 1 0 4 :=
    congrArg₂ ((Arr.ofRows 4 [[0, 1, 0, 0]] : Arr ℤ).slice 0 1) (by decide) (by decide)
  refine ⟨main 3 ?_ (by rfl), main 5 ?_ (by rfl)⟩
  · rw [e3, matrixRank_ok (by decide) (by decide)]
    congr 1
    exact rank_cert (M := Matrix.of fun (i : Fin 1) (j : Fin 3) => ((Arr.ofRows 4 [[0, 1, 0, 0]] : Arr ℤ).slice 0 1 0 3).get i j)
      !![1] !![0, 1, 0] !![1] !![0; 1; 0] (by decide) (by decide) ℚ
  · rw [e5, matrixRank_ok (by decide) (by decide)]
    congr 1
    exact rank_cert (M := Matrix.of fun (i : Fin 1) (j : Fin 4) => ((Arr.ofRows 4 [[0, 1, 0, 0]] : Arr ℤ).slice 0 1 0 4).get i j)
      !![1] !![0, 1, 0, 0] !![1] !![0; 1; 0; 0] (by decide) (by decide) ℚ

/-- The binary rows of III and IIZ. -/
def shortRows : Arr ℤ := Arr.ofRows 6 [[0, 0, 0, 0, 0, 0], [0, 0, 0, 0, 0, 1]]

/-- **C74 (short strings that are noticed later)**.  For III and IIZ, said to act on four qubits, the search for a column in
the second half of the elimination leaves the array: `IndexError`, for every `k` and all logical operators. -/
theorem C74_index_second (k : ℕ) (lo : Option (Arr ℤ × Arr ℤ)) :
    stabInitAny (.strs [['I', 'I', 'I'], ['I', 'I', 'Z']]) 4 k lo = .error .index := by
  have hp : (List.range shortRows.rows).mapM (fun i => binaryRepToPauliStr (shortRows.row i)) = .ok [['I', 'I', 'I'], ['I', 'I', 'Z']] := rfl
  have hi : isStabilizerCode shortRows = .ok true := rfl
  have hA : initArrayAny (.strs [['I', 'I', 'I'], ['I', 'I', 'Z']]) 4 k = .ok shortRows := rfl
  have hr : matrixRank (shortRows.pySlice 0 shortRows.rows 0 (4 : ℕ)) = .ok 0 := by
    have e : shortRows.pySlice 0 shortRows.rows 0 (4 : ℕ) = shortRows.slice 0 2 0 4 := congrArg₂ (shortRows.slice 0 2) (by decide) (by decide)
    rw [e, matrixRank_ok (by decide) (by decide)]
    congr 1
    exact rank_cert (r := 0) (M := Matrix.of fun (i : Fin 2) (j : Fin 4) => (shortRows.slice 0 2 0 4).get i j)
      (Matrix.of fun _ j => j.elim0) (Matrix.of fun i _ => i.elim0) (Matrix.of fun i _ => i.elim0) (Matrix.of fun _ j => j.elim0)
      (by decide) (by decide) ℚ
  have hrE : matrixRank (shortRows.pySlice (0 : ℕ) shortRows.rows (4 + 0 : ℕ) shortRows.cols) = .ok 1 := by
    have e : shortRows.pySlice (0 : ℕ) shortRows.rows (4 + 0 : ℕ) shortRows.cols = shortRows.slice 0 2 4 6 := congrArg₂ (shortRows.slice 0 2) (by decide) (by decide)
    rw [e, matrixRank_ok (by decide) (by decide)]
    congr 1
    exact rank_cert (M := Matrix.of fun (i : Fin 2) (j : Fin 2) => (shortRows.slice 0 2 4 6).get i j)
      !![0; 1] !![0, 1] !![0, 1] !![0; 1] (by decide) (by decide) ℚ
  have hN : standardNormalFormAny 4 k shortRows = .error .index := by
    unfold standardNormalFormAny
    rw [hr]
    simp only [ok_bind']
    have hb : firstBlockAny 4 0 shortRows = .ok shortRows := rfl
    simp only [hb, ok_bind']
    have hs : secondBlockAny 4 k 0 shortRows = .error .index := by
      unfold secondBlockAny
      rw [if_neg (by decide), hrE]
      simp only [ok_bind']
      rw [show List.range' 0 1 = [0] from rfl, List.foldl_cons, List.foldl_nil, List.foldlM_cons]
      have hq : colSwapAny 4 (rowSwap2 4 shortRows 0) 0 = .error .index := rfl
      unfold secondBlockStepAny
      rw [hq]
      rfl
    rw [hs]
    rfl
  unfold stabInitAny
  rw [hA]
  simp only [ok_bind', hi, pyAssert, if_true, hp, hN]
  rfl

/-- **C74 refuted (number of strings)**.  With logical operators supplied, `StabilizerCode(["XXI"], 3, 1, [lx, lz])` is
accepted with one generator instead of two. -/
theorem C74_count_refuted : ∃ c, stabInitAny (.strs [['X', 'X', 'I']]) 3 1
    (some (Arr.ofRows 6 [[0, 0, 1, 0, 0, 0]], Arr.ofRows 6 [[0, 0, 0, 0, 0, 1]])) = .ok c ∧ c.stab.rows + c.k ≠ c.n := by
  have hr : matrixRank ((Arr.ofRows 6 [[1, 1, 0, 0, 0, 0]] : Arr ℤ).pySlice 0 1 0 (3 : ℕ)) = .ok 1 := by
    have e : (Arr.ofRows 6 [[1, 1, 0, 0, 0, 0]] : Arr ℤ).pySlice 0 1 0 (3 : ℕ) = (Arr.ofRows 6 [[1, 1, 0, 0, 0, 0]]).slice 0 1 0 3 :=
      congrArg₂ ((Arr.ofRows 6 [[1, 1, 0, 0, 0, 0]] : Arr ℤ).slice 0 1) (by decide) (by decide)
    rw [e, matrixRank_ok (by decide) (by decide)]
    congr 1
    exact rank_cert (M := Matrix.of fun (i : Fin 1) (j : Fin 3) => ((Arr.ofRows 6 [[1, 1, 0, 0, 0, 0]] : Arr ℤ).slice 0 1 0 3).get i j)
      !![1] !![1, 1, 0] !![1] !![1; 0; 0] (by decide) (by decide) ℚ
  have hN : standardNormalFormAny 3 1 (Arr.ofRows 6 [[1, 1, 0, 0, 0, 0]]) =
      .ok (elimColumn [0] 0 0 (Arr.ofRows 6 [[1, 1, 0, 0, 0, 0]]), 1) := by
    unfold standardNormalFormAny
    rw [show (Arr.ofRows 6 [[1, 1, 0, 0, 0, 0]] : Arr ℤ).rows = 1 from rfl, hr]
    rfl
  refine ⟨⟨3, 1, Arr.ofRows 6 [[1, 1, 0, 0, 0, 0]], [['X', 'X', 'I']], elimColumn [0] 0 0 (Arr.ofRows 6 [[1, 1, 0, 0, 0, 0]]), 1,
    Arr.ofRows 6 [[0, 0, 1, 0, 0, 0]], Arr.ofRows 6 [[0, 0, 0, 0, 0, 1]]⟩, ?_, by decide⟩
  have hA : initArrayAny (.strs [['X', 'X', 'I']]) 3 1 = .ok (Arr.ofRows 6 [[1, 1, 0, 0, 0, 0]]) := rfl
  unfold stabInitAny
  rw [hA]
  have hi : isStabilizerCode (Arr.ofRows 6 [[1, 1, 0, 0, 0, 0]]) = .ok true := rfl
  have hp : (List.range (Arr.ofRows 6 [[1, 1, 0, 0, 0, 0]] : Arr ℤ).rows).mapM
      (fun i => binaryRepToPauliStr ((Arr.ofRows 6 [[1, 1, 0, 0, 0, 0]]).row i)) = .ok [['X', 'X', 'I']] := rfl
  simp only [ok_bind', hi, pyAssert, if_true, hp, hN]
  rfl

/-- **C74 refuted (longer strings)**.  Letters after the length of the first string are dropped without notice, even when
they are no Pauli letters: `["XX", "ZZ?"]` gives the code of XX and ZZ. -/
theorem C74_longer_refuted : ∃ c, stabInitAny (.strs [['X', 'X'], ['Z', 'Z', '?']]) 2 0 none = .ok c ∧
    c.pauliStab = [['X', 'X'], ['Z', 'Z']] := by
  obtain ⟨c, h1, -⟩ := concrete_code (l := [[1, 1, 0, 0], [0, 0, 1, 1]]) (n := 2) (k := 0)
    (r := 1) (e := 1) (by decide) (by decide) (by decide) (by unfold IsBinary; decide) (by decide)
    (independent_cert _ (fun j a => if j = 0 ∧ a = 0 ∨ j = 2 ∧ a = 1 then 1 else 0) (by decide))
    (fun F _ => rank_cert (M := Matrix.of fun (i : Fin 2) (j : Fin 2) =>
        (Arr.ofRows (2 * 2) [[1, 1, 0, 0], [0, 0, 1, 1]]).get i j)
      !![1; 0] !![1, 1] !![1, 0] !![1; 0] (by decide) (by decide) F)
    (Or.inr (rank_cert (M := Matrix.of fun (i : Fin 1) (j : Fin 1) =>
        ((firstBlock 2 1 (Arr.ofRows (2 * 2) [[1, 1, 0, 0], [0, 0, 1, 1]])).slice 1 2 (2 + 1) (2 * 2)).get i j)
      !![1] !![1] !![1] !![1] (by decide) (by decide) ℚ))
  refine ⟨c, ?_, ?_⟩
  · rw [C74_agrees _ 2 0 none (by intro l' h'; cases h'; rfl), ← h1]
    rfl
  · obtain ⟨hA, -, hS, -⟩ := stabInit_ok h1
    have hst : Arr.ofRows 4 [[1, 1, 0, 0], [0, 0, 1, 1]] = c.stab := Except.ok.inj hA
    rw [← hst] at hS
    have hp : (List.range (Arr.ofRows 4 [[1, 1, 0, 0], [0, 0, 1, 1]] : Arr ℤ).rows).mapM
        (fun i => binaryRepToPauliStr ((Arr.ofRows 4 [[1, 1, 0, 0], [0, 0, 1, 1]]).row i)) = .ok [['X', 'X'], ['Z', 'Z']] := rfl
    rw [hp] at hS
    exact (Except.ok.inj hS).symm

/-- The hypotheses of the two partial theorems are met: `["XX", "ZZ?"]` is accepted, and a single row of length 4 does not
match `n = 3`. -/
example : (∃ c, stabInitAny (.strs [['X', 'X'], ['Z', 'Z', '?']]) 2 0 none = .ok c) ∧
    stabInitAny (.rows [[1, 1, 0, 0]]) 3 1 none = .error .assertion := by
  refine ⟨?_, C74_arrays_partial [[1, 1, 0, 0]] 4 3 1 none (by decide) (by decide) (by decide)⟩
  obtain ⟨c, h, -⟩ := C74_longer_refuted
  exact ⟨c, h⟩

end PyQ
