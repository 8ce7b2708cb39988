import Verif.Lemmas.Rebuild
import Verif.Props.Decode
import Verif.Props.LogicalCircuit

/-! Codes whose generators are not independent: the shape of the array the elimination leaves, and its completion to a
normal form. -/

namespace PyQ

open Spec

variable {n k r : ℕ}

/-- The elimination loop of the second block keeps the upper identity and the zero block. -/
theorem secondBlockStep_inv2 {A : Arr ℤ} {t : ℕ} (h : Inv2 n r A) (hr : r ≤ A.rows) (hrt : r ≤ t) (ht : t < A.rows) (htn : t < n) :
    Inv2 n r (secondBlockStep n k r A t) := by
  have h1 : Inv2 n r (colSwap2 n A t) ∧ (colSwap2 n A t).rows = A.rows := by
    have hcols := h.cols
    unfold colSwap2
    split_ifs with h0
    · rcases hp : (List.range' (n + t + 1) (2 * n - (n + t + 1))).find? (fun c => decide (A.get t c = 1)) with _ | c
      · exact ⟨h, rfl⟩
      · have h2 := List.mem_of_find?_eq_some hp
        rw [List.mem_range'_1] at h2
        refine ⟨⟨?_, h.cols, ?_, ?_⟩, rfl⟩
        · exact swapCols_binary (swapCols_binary h.bin (by omega) (by omega))
            (show c - n < A.cols by omega) (show t < A.cols by omega)
        · intro c' hc' i hi
          have hi' : i < A.rows := hi
          simp only [Arr.swapCols]
          have e1 : (if c' = c - n then t else if c' = t then c - n else c') = c' := by
            rw [if_neg (by omega), if_neg (by omega)]
          rw [e1]
          have e2 : (if c' = c then n + t else if c' = n + t then c else c') = c' := by
            rw [if_neg (by omega), if_neg (by omega)]
          rw [e2]
          exact h.unit c' hc' i hi'
        · intro i hi hi2 c' hc'
          have hi' : i < A.rows := hi2
          simp only [Arr.swapCols]
          apply h.lowerX i hi hi'
          split_ifs <;> omega
    · exact ⟨h, rfl⟩
  obtain ⟨h1, hrows⟩ := h1
  have hnd : (List.range' r (n - k - r)).Nodup := List.nodup_range'
  unfold secondBlockStep
  refine ⟨elimColumn_binary hnd h1.bin, by rw [elimColumn_cols]; exact h1.cols, ?_, ?_⟩
  · intro c hc i hi
    rw [elimColumn_rows] at hi
    rw [elimColumn_get _ hnd]
    have e1 := h1.unit c hc i hi
    have e2 := h1.unit c hc t (by omega)
    rw [if_neg (by omega)] at e2
    split_ifs with hh hic
    · rw [e1, e2, if_pos hic]; rfl
    · rw [e1, e2, if_neg hic]; rfl
    · rw [e1, if_pos (by assumption)]
    · rw [e1, if_neg (by assumption)]
  · intro i hi hi2 c hc
    rw [elimColumn_rows] at hi2
    rw [elimColumn_get _ hnd]
    have e1 := h1.lowerX i hi hi2 c hc
    have e2 := h1.lowerX t hrt (by omega) c hc
    split_ifs with hh
    · rw [e1, e2]; rfl
    · exact e1

theorem secondBlockLoops_inv2 {A : Arr ℤ} {e : ℕ} (h : Inv2 n r A) (hk : A.rows + k = n) (he : r + e ≤ A.rows) :
    Inv2 n r (secondBlockLoops n k r e A) := by
  unfold secondBlockLoops
  have h0 := rowSwap2_loop h he
  have e1 : Equi n A ((List.range' r e).foldl (rowSwap2 n) A) := by
    refine equi_foldl _ (fun m j => j < m) (fun A j h => equi_rowSwap2 A h) A ?_
    intro j hj
    rw [List.mem_range'_1] at hj
    omega
  set B := (List.range' r e).foldl (rowSwap2 n) A with hB
  have key : ∀ d, r + d ≤ A.rows → Inv2 n r ((List.range' r d).foldl (secondBlockStep n k r) B) ∧
      Equi n B ((List.range' r d).foldl (secondBlockStep n k r) B) := by
    intro d
    induction d with
    | zero => intro _; exact ⟨h0, Equi.refl B⟩
    | succ d ih =>
      intro hd
      obtain ⟨i1, i2⟩ := ih (by omega)
      rw [show List.range' r (d + 1) = List.range' r d ++ [r + d] by rw [List.range'_concat]; simp, List.foldl_append,
        List.foldl_cons, List.foldl_nil]
      set C := (List.range' r d).foldl (secondBlockStep n k r) B
      have hCr : C.rows = A.rows := by rw [i2.rows, e1.rows]
      exact ⟨secondBlockStep_inv2 (t := r + d) i1 (by omega) (by omega) (by omega) (by omega),
        i2.trans (equi_secondBlockStep (k := k) (rank := r) (t := r + d) C (by omega) (by omega) (by omega))⟩
  exact (key e he).1

/-- The array of an accepted code, independent generators or not: upper identity, zero block below. -/
theorem accepted_weak {s : StabInput} {c : StabCode} (h : stabInit s n k none = .ok c) (hb : BinaryArr c.stab) :
    c.n = n ∧ c.k = k ∧ c.stab.rows = c.normalForm.rows ∧ c.normalForm.rows + k = n ∧ c.rank ≤ c.normalForm.rows ∧
      0 < c.normalForm.rows ∧ Inv2 n c.rank c.normalForm ∧ Commuting n c.normalForm ∧
      c.logicalX = logicalXOf n k c.rank c.normalForm ∧ c.logicalZ = logicalZOf n k c.rank c.normalForm := by
  obtain ⟨hA, hcom, -, hN, hn, hk, hL0, -⟩ := stabInit_ok h
  have hL := hL0 rfl
  have hc := initArray_cols hA
  have hp := initArray_rows_pos hA
  obtain ⟨e, -⟩ := standardNormalForm_equi hc hN
  have her := e.rows
  unfold logicalOperators pyAssert at hL
  by_cases htop : topLeftIdentity c.normalForm c.rank
  swap
  · rw [if_neg htop] at hL; cases hL
  rw [if_pos htop] at hL
  simp only [ok_bind'] at hL
  by_cases hrows : c.normalForm.rows + k = n
  swap
  · rw [if_pos hrows] at hL; cases hL
  rw [if_neg (by omega)] at hL
  simp only [pure_ok', Except.ok.injEq, Prod.mk.injEq] at hL
  have hr1 := xRankQ_le_n (n := n) c.stab
  have hr2 := xRankQ_le_rows (n := n) c.stab
  have hle := xRank2_le_Q (n := n) c.stab
  unfold standardNormalForm at hN
  rw [matrixRank_ok (A := c.stab.slice 0 c.stab.rows 0 n) (show 0 < c.stab.rows - 0 by omega) (show 0 < n - 0 by omega)] at hN
  simp only [npRank_x, ok_bind'] at hN
  have hrank : c.rank = xRankQ n c.stab := by
    cases hS : secondBlock n k (xRankQ n c.stab) (firstBlock n (xRankQ n c.stab) c.stab) with
    | error e => rw [hS] at hN; cases hN
    | ok nf' =>
      rw [hS] at hN
      simp only [ok_bind', pure_ok', Except.ok.injEq, Prod.mk.injEq] at hN
      exact hN.2.symm
  have h2 : xRank2 n c.stab = c.rank := by
    have := le_xRank2_of_topLeft (n := n) (by omega) (by omega) htop
    rw [e.xRank2] at this
    omega
  rw [← hrank] at hN
  have i1 := firstBlock_spec hb hc h2.ge
  have e1 := equi_firstBlock (n := n) c.stab (rank := c.rank) (by omega) (by omega)
  have i2 : Inv2 n c.rank (firstBlock n c.rank c.stab) := by
    refine ⟨i1.bin, i1.cols, i1.unit, ?_⟩
    intro i hi hi2 d hd
    by_contra hne
    have := lt_xRank2_of_one (by omega) (by rw [e1.rows]; omega) i1.unit i1.bin i1.cols hi hi2 hd hne
    rw [e1.xRank2] at this
    omega
  have her1 := e1.rows
  refine ⟨hn, hk, by omega, hrows, by omega, by omega, ?_, e.commuting hcom, hL.1.symm, hL.2.symm⟩
  generalize firstBlock n c.rank c.stab = B at hN i2 her1
  unfold secondBlock at hN
  by_cases hrB : c.rank = B.rows
  · rw [if_pos hrB] at hN
    simp only [ok_bind', pure_ok', Except.ok.injEq, Prod.mk.injEq] at hN
    rw [← hN.1]
    exact i2
  · rw [if_neg hrB, matrixRank_ok (A := B.slice c.rank B.rows (n + c.rank) B.cols) (show 0 < B.rows - c.rank by omega)
      (show 0 < B.cols - (n + c.rank) by rw [i2.cols]; omega)] at hN
    simp only [ok_bind'] at hN
    rw [if_neg (by omega)] at hN
    simp only [ok_bind', pure_ok', Except.ok.injEq, Prod.mk.injEq] at hN
    rw [← hN.1]
    apply secondBlockLoops_inv2 i2 (by omega)
    have : npRank (B.slice c.rank B.rows (n + c.rank) B.cols) ≤ B.rows - c.rank := by
      unfold npRank
      exact (Matrix.rank_le_card_height _).trans (Fintype.card_fin _).le
    omega

/-- The array with the lower rows replaced by rows in normal form with the same last `k` columns. -/
def completed (n k r : ℕ) (A : Arr ℤ) : Arr ℤ :=
  ⟨A.rows, A.cols, fun i j =>
    if i < r then A.get i j
    else if j < n then 0
    else if j < n + r then
      (A.get (j - n) i + ∑ t ∈ Finset.range k, A.get (j - n) (A.rows + t) * A.get i (n + A.rows + t)) % 2
    else if j < n + A.rows then (if i = j - n then 1 else 0)
    else A.get i j⟩

theorem completed_shape {A : Arr ℤ} (h : Inv2 n r A) (hk : A.rows + k = n) (hr : r ≤ A.rows) : NormalShape n k r (completed n k r A) := by
  have hc := h.cols
  refine ⟨hk, h.cols, hr, ?_, ?_, ?_, ?_⟩
  · intro i hi j hj
    have hi' : i < A.rows := hi
    have hj' : j < A.cols := hj
    simp only [completed]
    split_ifs
    · exact h.bin i hi' j hj'
    · exact Or.inl rfl
    · exact Int.emod_two_eq_zero_or_one _
    · exact Or.inr rfl
    · exact Or.inl rfl
    · exact h.bin i hi' j hj'
  · intro i hi j hj
    simp only [completed, if_pos hi]
    exact h.unit j hj i (by omega)
  · intro i hi hi2 j hj
    simp only [completed]
    rw [if_neg (by omega), if_pos hj]
  · intro i hi hi2 j hj hj2
    have hj' : j < A.rows := hj2
    simp only [completed]
    rw [if_neg (by omega), if_neg (by omega), if_neg (by omega), if_pos (by omega), Nat.add_sub_cancel_left]

theorem completed_commuting {A : Arr ℤ} (h : Inv2 n r A) (hk : A.rows + k = n) (hr : r ≤ A.rows) (hcom : Commuting n A) :
    Commuting n (completed n k r A) := by
  have hup : ∀ i < r, rowVec n (completed n k r A) i = rowVec n A i := by
    intro i hi
    unfold rowVec
    simp only [completed, if_pos hi]
  have hsh := completed_shape h hk hr
  have hmix : ∀ i < r, ∀ a, r ≤ a → a < A.rows → sympV (rowVec n (completed n k r A) i) (rowVec n (completed n k r A) a) = 0 := by
    intro i hi a ha ha2
    rw [sympV_rowVec, sum_blocks hr hk, sum_blocks hr hk]
    have z : ∀ j < n, (((completed n k r A).get a j : ℤ) : ZMod 2) = 0 := by
      intro j hj
      rw [hsh.lowerX a ha ha2 j hj]; simp
    have z1 : ∑ j ∈ Finset.range r, (((completed n k r A).get i (n + j) : ℤ) : ZMod 2) * (((completed n k r A).get a j : ℤ) : ZMod 2) = 0 :=
      Finset.sum_eq_zero fun j hj => by rw [Finset.mem_range] at hj; rw [z j (by omega), mul_zero]
    have z2 : ∑ t ∈ Finset.range (A.rows - r), (((completed n k r A).get i (n + (r + t)) : ℤ) : ZMod 2) *
        (((completed n k r A).get a (r + t) : ℤ) : ZMod 2) = 0 :=
      Finset.sum_eq_zero fun j hj => by rw [Finset.mem_range] at hj; rw [z _ (by omega), mul_zero]
    have z3 : ∑ t ∈ Finset.range k, (((completed n k r A).get i (n + (A.rows + t)) : ℤ) : ZMod 2) *
        (((completed n k r A).get a (A.rows + t) : ℤ) : ZMod 2) = 0 :=
      Finset.sum_eq_zero fun j hj => by rw [Finset.mem_range] at hj; rw [z _ (by omega), mul_zero]
    have x1 : ∑ j ∈ Finset.range r, (((completed n k r A).get i j : ℤ) : ZMod 2) * (((completed n k r A).get a (n + j) : ℤ) : ZMod 2)
        = (((completed n k r A).get a (n + i) : ℤ) : ZMod 2) := by
      rw [← sum_ite_unit' hi (fun j => (((completed n k r A).get a (n + j) : ℤ) : ZMod 2))]
      refine Finset.sum_congr rfl fun j hj => ?_
      rw [hsh.upperI i hi j (Finset.mem_range.mp hj)]
      simp only [eq_comm]
    have x2 : ∑ t ∈ Finset.range (A.rows - r), (((completed n k r A).get i (r + t) : ℤ) : ZMod 2) *
        (((completed n k r A).get a (n + (r + t)) : ℤ) : ZMod 2) = ((A.get i a : ℤ) : ZMod 2) := by
      rw [Finset.sum_eq_single (a - r)]
      · rw [show r + (a - r) = a by omega, hsh.lowerI a ha ha2 a ha ha2, if_pos rfl]
        simp [completed, hi]
      · intro t ht hne
        rw [Finset.mem_range] at ht
        rw [hsh.lowerI a ha ha2 (r + t) (by omega) (show r + t < A.rows by omega), if_neg (by omega)]; simp
      · intro hh; exact absurd (Finset.mem_range.mpr (by omega)) hh
    have x3 : ∑ t ∈ Finset.range k, (((completed n k r A).get i (A.rows + t) : ℤ) : ZMod 2) *
        (((completed n k r A).get a (n + (A.rows + t)) : ℤ) : ZMod 2) =
        ∑ t ∈ Finset.range k, ((A.get i (A.rows + t) : ℤ) : ZMod 2) * ((A.get a (n + A.rows + t) : ℤ) : ZMod 2) := by
      refine Finset.sum_congr rfl fun t ht => ?_
      simp only [completed]
      rw [if_pos hi, if_neg (by omega), if_neg (by omega), if_neg (by omega), if_neg (by omega), add_assoc]
    rw [x1, x2, x3, z1, z2, z3]
    have : (((completed n k r A).get a (n + i) : ℤ) : ZMod 2) = ((A.get i a : ℤ) : ZMod 2) +
        ∑ t ∈ Finset.range k, ((A.get i (A.rows + t) : ℤ) : ZMod 2) * ((A.get a (n + A.rows + t) : ℤ) : ZMod 2) := by
      simp only [completed]
      rw [if_neg (by omega), if_neg (by omega), if_pos (by omega), Nat.add_sub_cancel_left, zmod_emod2]
      push_cast
      rfl
    rw [this, add_zero, add_zero, add_zero, add_assoc]
    exact add_self_z _
  intro a ha b hb
  have ha' : a < A.rows := ha
  have hb' : b < A.rows := hb
  by_cases har : a < r
  · by_cases hbr : b < r
    · rw [hup a har, hup b hbr]; exact hcom a ha' b hb'
    · exact hmix a har b (by omega) hb'
  · by_cases hbr : b < r
    · rw [sympV_comm]; exact hmix b hbr a (by omega) ha'
    · rw [sympV_rowVec]
      have : ∀ c, r ≤ c → c < A.rows → ∀ j ∈ Finset.range n, (((completed n k r A).get c j : ℤ) : ZMod 2) = 0 := by
        intro c hc hc2 j hj
        rw [hsh.lowerX c hc hc2 j (Finset.mem_range.mp hj)]; simp
      rw [Finset.sum_eq_zero fun j hj => by rw [this a (by omega) ha' j hj, zero_mul],
        Finset.sum_eq_zero fun j hj => by rw [this b (by omega) hb' j hj, mul_zero], add_zero]

private theorem logicalZ_completed {A : Arr ℤ} (hk : A.rows + k = n) :
    Arr.Same (logicalZOf n k r (completed n k r A)) (logicalZOf n k r A) := by
  refine ⟨rfl, rfl, fun i hi j hj => ?_⟩
  simp only [logicalZOf, Arr.hstack, Arr.zeros, Arr.transpose, blockA2, Arr.slice, Arr.eye, completed]
  split_ifs <;> first | rfl | omega

private theorem logicalX_completed {A : Arr ℤ} (hk : A.rows + k = n) (hr : r ≤ A.rows) :
    Arr.Same (logicalXOf n k r (completed n k r A)) (logicalXOf n k r A) := by
  refine ⟨rfl, rfl, fun i hi j hj => ?_⟩
  have e : ∀ a b, (completed n k r A).get (r + a) (2 * n - k + b) = A.get (r + a) (2 * n - k + b) := by
    intro a b
    simp only [completed]
    rw [if_neg (by omega), if_neg (by omega), if_neg (by omega), if_neg (by omega)]
  have u : ∀ a < r, ∀ b, (completed n k r A).get a b = A.get a b := by
    intro a ha b
    simp only [completed]
    rw [if_pos ha]
  have er : (completed n k r A).rows = A.rows := rfl
  simp only [logicalXOf, Arr.hstack, Arr.zeros, Arr.transpose, blockE, blockC1, blockC2, Arr.slice, Arr.eye, Arr.mod2, Arr.add,
    Arr.mul, Nat.zero_add, e, er]
  by_cases h1 : j < r + (A.rows - r) + k + (r - 0)
  · rw [if_pos h1, if_pos h1]
    by_cases h2 : j < r + (A.rows - r) + k
    · rw [if_pos h2, if_pos h2]; rfl
    · rw [if_neg h2, if_neg h2, u _ (by omega)]
      congr 2
      exact Finset.sum_congr rfl fun t _ => by rw [u _ (by omega)]
  · rw [if_neg h1, if_neg h1]

/-- An accepted code, independent generators or not, has the circuits of an accepted code with independent generators. -/
theorem accepted_completed {s : StabInput} {c : StabCode} (h : stabInit s n k none = .ok c) (hb : BinaryArr c.stab) :
    ∃ c', stabInit (.rows c'.iter) n k none = .ok c' ∧ BinaryArr c'.stab ∧ Independent n c'.stab ∧ c'.rank = c.rank ∧
      (∀ i < c.rank, c'.normalForm.row i = c.normalForm.row i) ∧ Arr.Same c'.logicalX c.logicalX ∧
      Arr.Same c'.logicalZ c.logicalZ ∧ SameCircuits c' c := by
  obtain ⟨hn, hk, hst, hR, hr, hp, h2, hcom, hX, hZ⟩ := accepted_weak h hb
  have hsh := completed_shape h2 hR hr
  have hc2 := completed_commuting h2 hR hr hcom
  obtain ⟨c', a1, a2, a3, a4, a5, a6, a7, a8, a9, a10⟩ := stabInit_fixed hsh hc2 hp
  have hsh' := normalShape_congr hsh a2
  have hcols := h2.cols
  have b1 : c'.normalForm.rows = c.normalForm.rows := a2.1
  have b2 : c'.normalForm.cols = c.normalForm.cols := a2.2.1
  have hit : c'.iter = (List.range (completed n k c.rank c.normalForm).rows).map (completed n k c.rank c.normalForm).row := by
    unfold StabCode.iter
    rw [a2.1]
    exact List.map_congr_left fun i hi => row_congr a2 (List.mem_range.mp hi)
  have hSX : Arr.Same c'.logicalX c.logicalX := by
    rw [a9, hX]
    refine (logicalXOf_same hsh hsh' (fun i hi j hj => a2.2.2 i (by omega) j (by omega)) ?_).trans (logicalX_completed hR hr)
    intro i hi hi2 j hj hj2
    have hi3 : i < c.normalForm.rows := hi2
    exact a2.2.2 i (by omega) j (by omega)
  have hSZ : Arr.Same c'.logicalZ c.logicalZ := by
    rw [a10, hZ]
    exact (logicalZOf_same hsh hsh' (fun i hi j hj => a2.2.2 i (by omega) j (by omega))).trans (logicalZ_completed hR)
  have hrow : ∀ i < c.rank, c'.normalForm.row i = c.normalForm.row i := by
    intro i hi
    rw [row_congr a2 (show i < c.normalForm.rows by omega)]
    unfold Arr.row
    apply List.map_congr_left
    intro j _
    simp only [completed, if_pos hi]
  refine ⟨c', by rw [hit]; exact a1, a4, a5, a3, hrow, hSX, hSZ, ?_⟩
  refine sameCircuits_of (by rw [a7, hn]) (by rw [a8, hk]) a3 (by rw [a6.1, hst]; rfl) (by rw [a3]; exact hrow) hSX hSZ ?_
  rw [a7, a9, (lx_shape hsh').2]
  omega

end PyQ
