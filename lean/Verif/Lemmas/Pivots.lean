import Verif.Props.Cleaning

/-! Lemmas for C124: which qubits the elimination of the first block moves. -/

namespace PyQ

open Spec

variable {n : ℕ}

/-! ### Row spans -/

theorem rowVec_swapCols1 (A : Arr ℤ) {c d : ℕ} (hc : c < n) (hd : d < n) (i : ℕ) :
    rowVec n ((A.swapCols c d).swapCols (c + n) (d + n)) i = relabel (Equiv.swap ⟨c, hc⟩ ⟨d, hd⟩) (rowVec n A i) := by
  ext j
  all_goals
    simp only [rowVec, Arr.swapCols, relabel, LinearEquiv.coe_mk, LinearMap.coe_mk, AddHom.coe_mk, Function.comp]
    rw [Equiv.swap_apply_def]
    simp only [Fin.ext_iff]
    congr 2
    have hj := j.2
    split_ifs <;> (try simp only at *) <;> omega

theorem rowVec_swapCols2 (A : Arr ℤ) {c d : ℕ} (hc : c < n) (hd : d < n) (i : ℕ) :
    rowVec n ((A.swapCols (n + c) (n + d)).swapCols c d) i = relabel (Equiv.swap ⟨c, hc⟩ ⟨d, hd⟩) (rowVec n A i) := by
  ext j
  all_goals
    simp only [rowVec, Arr.swapCols, relabel, LinearEquiv.coe_mk, LinearMap.coe_mk, AddHom.coe_mk, Function.comp]
    rw [Equiv.swap_apply_def]
    simp only [Fin.ext_iff]
    congr 2
    have hj := j.2
    split_ifs <;> (try simp only at *) <;> omega

theorem rowSpan_relabel {A B : Arr ℤ} (h1 : B.rows = A.rows) (σ : Equiv.Perm (Fin n))
    (h : ∀ i, rowVec n B i = relabel σ (rowVec n A i)) : rowSpan n B = (rowSpan n A).map (relabel σ).toLinearMap := by
  unfold rowSpan
  rw [Submodule.map_span, ← Set.range_comp, h1]
  congr 1
  ext v
  simp only [Set.mem_range, Function.comp]
  constructor
  · rintro ⟨i, rfl⟩; exact ⟨i, (h i).symm⟩
  · rintro ⟨i, rfl⟩; exact ⟨i, h i⟩

theorem rowVec_mem (A : Arr ℤ) {i : ℕ} (hi : i < A.rows) : rowVec n A i ∈ rowSpan n A := Submodule.subset_span ⟨⟨i, hi⟩, rfl⟩

theorem rowSpan_le {A : Arr ℤ} {S : Submodule (ZMod 2) (BVec n)} (h : ∀ i < A.rows, rowVec n A i ∈ S) : rowSpan n A ≤ S := by
  unfold rowSpan
  rw [Submodule.span_le]
  rintro v ⟨i, rfl⟩
  exact h i i.2

theorem rowSpan_swapRows (A : Arr ℤ) {a b : ℕ} (ha : a < A.rows) (hb : b < A.rows) :
    rowSpan n (A.swapRows a b) = rowSpan n A := by
  apply le_antisymm
  · refine rowSpan_le fun i hi => ?_
    rw [rowVec_swapRows]
    have hi' : i < A.rows := hi
    exact rowVec_mem A (by split_ifs <;> omega)
  · refine rowSpan_le fun i hi => ?_
    have e : rowVec n A i = rowVec n (A.swapRows a b) (if i = a then b else if i = b then a else i) := by
      rw [rowVec_swapRows]
      congr 1
      split_ifs <;> simp_all
    rw [e]
    exact rowVec_mem _ (show _ < A.rows by split_ifs <;> omega)

theorem rowSpan_addRow (A : Arr ℤ) {p d : ℕ} (hp : p < A.rows) (hd : d < A.rows) (hne : d ≠ p) :
    rowSpan n (A.addRow p d) = rowSpan n A := by
  apply le_antisymm
  · refine rowSpan_le fun i hi => ?_
    rw [rowVec_addRow]
    split_ifs with h
    · exact Submodule.add_mem _ (rowVec_mem A hp) (rowVec_mem A hd)
    · exact rowVec_mem A hi
  · refine rowSpan_le fun i hi => ?_
    by_cases h : i = d
    · have h1 : rowVec n A d = rowVec n (A.addRow p d) d + rowVec n (A.addRow p d) p := by
        rw [rowVec_addRow, rowVec_addRow, if_pos rfl, if_neg hne.symm, add_comm (rowVec n A p), add_assoc]
        have : rowVec n A p + rowVec n A p = 0 := by
          ext j <;> exact add_self_z _
        rw [this, add_zero]
      rw [h, h1]
      exact Submodule.add_mem _ (rowVec_mem (A.addRow p d) hd) (rowVec_mem (A.addRow p d) hp)
    · have h1 : rowVec n A i = rowVec n (A.addRow p d) i := by rw [rowVec_addRow, if_neg h]
      rw [h1]
      exact rowVec_mem (A.addRow p d) hi

theorem rowSpan_elimColumn (rows : List ℕ) (p col : ℕ) (A : Arr ℤ) (hp : p < A.rows) (hr : ∀ i ∈ rows, i < A.rows) :
    rowSpan n (elimColumn rows p col A) = rowSpan n A := by
  unfold elimColumn
  induction rows generalizing A with
  | nil => rfl
  | cons i l ih =>
    rw [List.foldl_cons]
    split_ifs with h
    · rw [ih (A.addRow p i) hp (fun j hj => hr j (by simp [hj])), rowSpan_addRow A hp (hr i (by simp)) h.1]
    · exact ih _ hp (fun j hj => hr j (by simp [hj]))

theorem elimColumn_row {rows : List ℕ} {i : ℕ} (hi : i ∉ rows) (p col : ℕ) (A : Arr ℤ) :
    rowVec n (elimColumn rows p col A) i = rowVec n A i := by
  unfold elimColumn
  induction rows generalizing A with
  | nil => rfl
  | cons a l ih =>
    rw [List.foldl_cons, ih (fun h => hi (by simp [h]))]
    split_ifs
    · rw [rowVec_addRow, if_neg (fun h => hi (by simp [h]))]
    · rfl

/-! ### The first block -/

/-- A combination of rows that vanishes on the unit columns uses only the rows below them. -/
theorem low_combination {A : Arr ℤ} {j : ℕ} (h : Inv1 n j A) (hjn : j ≤ n) {v : BVec n} (hv : v ∈ rowSpan n A)
    (h0 : ∀ c : Fin n, c.val < j → v.1 c = 0) (c : Fin n) (hc : ∀ i, j ≤ i → i < A.rows → A.get i c = 0) : v.1 c = 0 := by
  obtain ⟨g, rfl⟩ := (Submodule.mem_span_range_iff_exists_fun (ZMod 2)).mp hv
  have hx : ∀ c : Fin n, (∑ i, g i • rowVec n A i).1 c = ∑ i : Fin A.rows, g i * ((A.get i c : ℤ) : ZMod 2) := by
    intro c
    rw [Prod.fst_sum, Finset.sum_apply]
    rfl
  have hg : ∀ i : Fin A.rows, i.val < j → g i = 0 := by
    intro i hi
    have := h0 ⟨i, by omega⟩ hi
    rw [hx, Finset.sum_eq_single i] at this
    · rw [h.unit i hi i i.2, if_pos rfl] at this
      simpa using this
    · intro b _ hb
      rw [h.unit i hi b b.2, if_neg (fun hh => hb (Fin.ext hh))]
      simp
    · intro hh; exact absurd (Finset.mem_univ _) hh
  rw [hx]
  refine Finset.sum_eq_zero fun i _ => ?_
  by_cases hi : i.val < j
  · rw [hg i hi, zero_mul]
  · rw [hc i (by omega) i.2]; simp

theorem findPivot_first {A : Arr ℤ} {j c r : ℕ} (h : findPivot A n j = some (c, r)) :
    ∀ c' r', j ≤ c' → c' < c → j ≤ r' → r' < A.rows → A.get r' c' ≠ 1 := by
  obtain ⟨h1, h2, -⟩ := findPivot_some h
  unfold findPivot at h
  rw [List.find?_flatMap, List.findSome?_eq_some_iff] at h
  obtain ⟨l1, a, l2, hl, hf, hno⟩ := h
  have ha : a = c := by
    have := List.mem_of_find?_eq_some hf
    simp only [List.mem_map, Prod.mk.injEq] at this
    obtain ⟨x, -, hx, -⟩ := this
    exact hx
  subst ha
  intro c' r' hc1 hc2 hr1 hr2 hone
  have hmem : c' ∈ List.range' j (n - j) := by rw [List.mem_range'_1]; omega
  have hp := List.pairwise_lt_range' (s := j) (n := n - j) (step := 1)
  rw [hl] at hmem hp
  have hin : c' ∈ l1 := by
    rcases List.mem_append.mp hmem with h | h
    · exact h
    · exfalso
      have h3 := (List.pairwise_append.mp hp).2.1
      rcases List.mem_cons.mp h with h | h
      · omega
      · have := (List.pairwise_cons.mp h3).1 c' h
        omega
  have := hno c' hin
  rw [List.find?_eq_none] at this
  have h4 := this (c', r') (by simp only [List.mem_map, Prod.mk.injEq, List.mem_range'_1]; exact ⟨r', by omega, by simp⟩)
  simp [hone] at h4

/-- The qubit that is moved to position `j`: the first one on which some combination of the rows acts with X although it does not on
the qubits before `j`. -/
theorem pivot_span {A : Arr ℤ} {j : ℕ} (h : Inv1 n j A) (hjn : j < n) (hjr : j < A.rows) (hrk : j < xRank2 n A) :
    ∃ c : Fin n, j ≤ c.val ∧ rowSpan n (firstBlockStep n A j) = (rowSpan n A).map (relabel (Equiv.swap c ⟨j, hjn⟩)).toLinearMap ∧
      (∃ v ∈ rowSpan n A, (∀ b : Fin n, b.val < j → v.1 b = 0) ∧ v.1 c ≠ 0) ∧
      ∀ b : Fin n, j ≤ b.val → b < c → ∀ v ∈ rowSpan n A, (∀ b : Fin n, b.val < j → v.1 b = 0) → v.1 b = 0 := by
  have hlow : ∀ i, j ≤ i → i < A.rows → ∀ b : Fin n, b.val < j → (rowVec n A i).1 b = 0 := by
    intro i hi hi2 b hb
    show ((A.get i b : ℤ) : ZMod 2) = 0
    rw [h.unit b hb i hi2, if_neg (by omega)]; simp
  have helim : rowSpan n (firstBlockStep n A j) = rowSpan n (pivotSwap1 n j A) := by
    have e := (equi_pivotSwap1 (n := n) A hjn hjr).rows
    unfold firstBlockStep
    rw [rowSpan_elimColumn _ _ _ _ (by rw [e]; exact hjr)]
    intro i hi
    rw [e]
    simpa using hi
  rw [helim]
  unfold pivotSwap1
  split_ifs with h0
  · rcases hp : findPivot A n j with _ | ⟨c, r⟩
    · exfalso
      have h1 := (pivotSwap1_spec h hjn hjr hrk).2
      unfold pivotSwap1 at h1
      rw [if_pos h0, hp] at h1
      simp only at h1
      omega
    · obtain ⟨h1, h2, h3, h4, h5⟩ := findPivot_some hp
      refine ⟨⟨c, h2⟩, h1, ?_, ⟨rowVec n A r, rowVec_mem A h4, hlow r h3 h4, ?_⟩, ?_⟩
      · simp only
        rw [rowSpan_swapRows ((A.swapCols c j).swapCols (c + n) (j + n)) (show j < A.rows from hjr) (show r < A.rows from h4)]
        exact rowSpan_relabel (A := A) (B := (A.swapCols c j).swapCols (c + n) (j + n)) rfl _ (rowVec_swapCols1 A h2 hjn)
      · show ((A.get r c : ℤ) : ZMod 2) ≠ 0
        rw [h5]; decide
      · intro b hb1 hb2 v hv hv0
        refine low_combination h hjn.le hv hv0 b fun i hi hi2 => ?_
        have := findPivot_first hp b i hb1 hb2 hi hi2
        rcases h.bin i hi2 b (by rw [h.cols]; omega) with h6 | h6
        · exact h6
        · exact absurd h6 this
  · refine ⟨⟨j, hjn⟩, le_rfl, ?_, ⟨rowVec n A j, rowVec_mem A hjr, hlow j le_rfl hjr, ?_⟩, ?_⟩
    · rw [Equiv.swap_self, show (Equiv.refl (Fin n)) = 1 from rfl, relabel_one, Submodule.map_id]
    · show ((A.get j j : ℤ) : ZMod 2) ≠ 0
      rcases h.bin j hjr j (by rw [h.cols]; omega) with h6 | h6
      · exact absurd h6 h0
      · rw [h6]; decide
    · intro b hb1 hb2
      exact absurd (show b.val < j from hb2) (by omega)

/-- The first block moves the same qubits for all generators of one group. -/
theorem firstBlock_span {A A' : Arr ℤ} (hb : BinaryArr A) (hb' : BinaryArr A') (hc : A.cols = 2 * n) (hc' : A'.cols = 2 * n)
    (hs : rowSpan n A = rowSpan n A') {r : ℕ} (hr : r ≤ xRank2 n A) (hr' : r ≤ xRank2 n A') :
    rowSpan n (firstBlock n r A) = rowSpan n (firstBlock n r A') := by
  have hle1 : xRank2 n A ≤ n := (xRank2_le_Q A).trans (xRankQ_le_n A)
  have hle2 : xRank2 n A ≤ A.rows := (xRank2_le_Q A).trans (xRankQ_le_rows A)
  have hle2' : xRank2 n A' ≤ A'.rows := (xRank2_le_Q A').trans (xRankQ_le_rows A')
  induction r with
  | zero => exact hs
  | succ r ih =>
    have e : ∀ A : Arr ℤ, firstBlock n (r + 1) A = firstBlockStep n (firstBlock n r A) r := by
      intro A
      unfold firstBlock
      rw [List.range_succ, List.foldl_append, List.foldl_cons, List.foldl_nil]
    have hE := equi_firstBlock (n := n) A (rank := r) (by omega) (by omega)
    have hE' := equi_firstBlock (n := n) A' (rank := r) (by omega) (by omega)
    have ih := ih (by omega) (by omega)
    rw [e, e]
    obtain ⟨c, c1, c2, ⟨v, v1, v2, v3⟩, c4⟩ := pivot_span (firstBlock_spec hb hc (r := r) (by omega)) (show r < n by omega)
      (by rw [hE.rows]; omega) (by rw [hE.xRank2]; omega)
    obtain ⟨d, d1, d2, ⟨w, w1, w2, w3⟩, d4⟩ := pivot_span (firstBlock_spec hb' hc' (r := r) (by omega)) (show r < n by omega)
      (by rw [hE'.rows]; omega) (by rw [hE'.xRank2]; omega)
    rw [c2, d2, ih]
    have : c = d := by
      rcases lt_trichotomy c d with hcd | hcd | hcd
      · exact absurd (d4 c c1 hcd v (by rw [← ih]; exact v1) v2) v3
      · exact hcd
      · exact absurd (c4 d d1 hcd w (by rw [ih]; exact w1) w2) w3
    rw [this]

/-! ### The second block -/

/-- Same group up to a relabelling under which the first `r` rows correspond. -/
structure Follows (n r : ℕ) (A B : Arr ℤ) : Prop where
  rows : B.rows = A.rows
  span : ∃ σ : Equiv.Perm (Fin n), rowSpan n B = (rowSpan n A).map (relabel σ).toLinearMap ∧
    ∀ i < r, rowVec n B i = relabel σ (rowVec n A i)

theorem Follows.same {r : ℕ} {A B : Arr ℤ} (h1 : B.rows = A.rows) (h2 : rowSpan n B = rowSpan n A)
    (h3 : ∀ i < r, rowVec n B i = rowVec n A i) : Follows n r A B :=
  ⟨h1, 1, by rw [relabel_one, Submodule.map_id, h2], fun i hi => by rw [h3 i hi]; rfl⟩

theorem Follows.refl (r : ℕ) (A : Arr ℤ) : Follows n r A A := Follows.same rfl rfl fun _ _ => rfl

theorem Follows.trans {r : ℕ} {A B C : Arr ℤ} (h1 : Follows n r A B) (h2 : Follows n r B C) : Follows n r A C := by
  obtain ⟨σ, hσ, hi⟩ := h1.span
  obtain ⟨τ, hτ, hj⟩ := h2.span
  refine ⟨h2.rows.trans h1.rows, σ * τ, by rw [hτ, hσ, ← Submodule.map_comp, relabel_mul], fun i hir => ?_⟩
  rw [hj i hir, hi i hir]
  rfl

theorem follows_foldl {f : Arr ℤ → ℕ → Arr ℤ} {r : ℕ} (l : List ℕ) (P : ℕ → ℕ → Prop)
    (hf : ∀ A j, P A.rows j → Follows n r A (f A j)) (A : Arr ℤ) (hl : ∀ j ∈ l, P A.rows j) : Follows n r A (l.foldl f A) := by
  induction l generalizing A with
  | nil => exact Follows.refl r A
  | cons j l ih =>
    rw [List.foldl_cons]
    have h1 := hf A j (hl j (by simp))
    refine h1.trans (ih _ ?_)
    intro i hi
    rw [h1.rows]
    exact hl i (by simp [hi])

theorem follows_rowSwap2 (A : Arr ℤ) {r t : ℕ} (hrt : r ≤ t) (ht : t < A.rows) : Follows n r A (rowSwap2 n A t) := by
  unfold rowSwap2
  split_ifs
  · rcases h : (List.range' (t + 1) (A.rows - (t + 1))).find? (fun i => decide (A.get i (n + t) = 1)) with _ | i
    · exact Follows.refl r A
    · have h2 := List.mem_of_find?_eq_some h
      rw [List.mem_range'_1] at h2
      refine Follows.same rfl (rowSpan_swapRows A (by omega) ht) fun s hs => ?_
      rw [rowVec_swapRows, if_neg (by omega), if_neg (by omega)]
  · exact Follows.refl r A

theorem follows_secondBlockStep (A : Arr ℤ) {k r t : ℕ} (ht : t < n) (ht2 : t < A.rows) (hk : n - k ≤ A.rows) :
    Follows n r A (secondBlockStep n k r A t) := by
  have h1 : Follows n r A (colSwap2 n A t) := by
    unfold colSwap2
    split_ifs
    · rcases h : (List.range' (n + t + 1) (2 * n - (n + t + 1))).find? (fun c => decide (A.get t c = 1)) with _ | c
      · exact Follows.refl r A
      · have h2 := List.mem_of_find?_eq_some h
        rw [List.mem_range'_1] at h2
        obtain ⟨d, rfl⟩ := Nat.exists_eq_add_of_le (show n ≤ c by omega)
        simp only [Nat.add_sub_cancel_left]
        have hr := rowVec_swapCols2 A (show d < n by omega) ht
        exact ⟨rfl, _, rowSpan_relabel (A := A) (B := (A.swapCols (n + d) (n + t)).swapCols d t) rfl _ hr, fun i _ => hr i⟩
    · exact Follows.refl r A
  refine h1.trans (Follows.same (elimColumn_rows _ _ _ _) ?_ fun i hi => ?_)
  · refine rowSpan_elimColumn _ _ _ _ (by rw [h1.rows]; exact ht2) fun i hi => ?_
    rw [List.mem_range'_1] at hi
    rw [h1.rows]
    omega
  · exact elimColumn_row (by rw [List.mem_range'_1]; omega) _ _ _

theorem follows_secondBlockLoops (A : Arr ℤ) {k r e : ℕ} (h1 : r + e ≤ n) (h2 : r + e ≤ A.rows) (hk : n - k ≤ A.rows) :
    Follows n r A (secondBlockLoops n k r e A) := by
  unfold secondBlockLoops
  have e1 : Follows n r A ((List.range' r e).foldl (rowSwap2 n) A) := by
    refine follows_foldl _ (fun m j => r ≤ j ∧ j < m) (fun A j h => follows_rowSwap2 A h.1 h.2) A ?_
    intro j hj
    rw [List.mem_range'_1] at hj
    omega
  refine e1.trans (follows_foldl _ (fun m j => j < n ∧ j < m ∧ n - k ≤ m)
    (fun A j h => follows_secondBlockStep A h.1 h.2.1 h.2.2) _ ?_)
  intro j hj
  rw [List.mem_range'_1] at hj
  rw [e1.rows]
  omega

/-! ### The whole normal form -/

theorem follows_normalForm {k rank : ℕ} {A nf : Arr ℤ} (hc : A.cols = 2 * n) (hk : A.rows + k = n)
    (h : standardNormalForm n k A = .ok (nf, rank)) : Follows n rank (firstBlock n rank A) nf := by
  obtain ⟨-, rfl⟩ := standardNormalForm_equi hc h
  unfold standardNormalForm at h
  by_cases h0 : (A.slice 0 A.rows 0 n).rows = 0 ∨ (A.slice 0 A.rows 0 n).cols = 0
  · rw [matrixRank_error h0] at h; simp at h
  rw [matrixRank_ok (by omega) (by omega)] at h
  simp only [npRank_x, ok_bind'] at h
  have hr1 := xRankQ_le_n (n := n) A
  have hr2 := xRankQ_le_rows (n := n) A
  have e1 := equi_firstBlock (n := n) A hr1 hr2
  set B := firstBlock n (xRankQ n A) A with hB
  unfold secondBlock at h
  by_cases h1 : xRankQ n A = B.rows
  · rw [if_pos h1] at h
    simp only [ok_bind', pure_ok', Except.ok.injEq, Prod.mk.injEq] at h
    rw [← h.1]
    exact Follows.refl _ _
  rw [if_neg h1] at h
  by_cases h0' : (B.slice (xRankQ n A) B.rows (n + xRankQ n A) B.cols).rows = 0 ∨
      (B.slice (xRankQ n A) B.rows (n + xRankQ n A) B.cols).cols = 0
  · rw [matrixRank_error h0'] at h; simp at h
  rw [matrixRank_ok (by omega) (by omega)] at h
  simp only [ok_bind'] at h
  split_ifs at h with h2
  · simp at h
  · simp only [ok_bind', pure_ok', Except.ok.injEq, Prod.mk.injEq] at h
    obtain ⟨rfl, -⟩ := h
    set rE := npRank (B.slice (xRankQ n A) B.rows (n + xRankQ n A) B.cols) with hrE
    have hE1 : rE ≤ B.rows - xRankQ n A := by
      rw [hrE]; unfold npRank
      exact (Matrix.rank_le_card_height _).trans (Fintype.card_fin _).le
    have hE2 : rE ≤ B.cols - (n + xRankQ n A) := by
      rw [hrE]; unfold npRank
      exact (Matrix.rank_le_card_width _).trans (Fintype.card_fin _).le
    have hbr := e1.rows
    have hbc := e1.cols
    exact follows_secondBlockLoops B (by omega) (by omega) (by omega)

/-- Equal groups: after the first block the first rows act with X on the same qubits. -/
theorem firstRows_agree {B B' : Arr ℤ} {r : ℕ} (h : Inv2 n r B) (h' : Inv2 n r B') (hr : r ≤ n) (hrr : r ≤ B.rows) (hrr' : r ≤ B'.rows)
    (hs : rowSpan n B = rowSpan n B') {i : ℕ} (hi : i < r) :
    ∃ z ∈ rowSpan n B, z.1 = 0 ∧ rowVec n B' i = rowVec n B i + z := by
  have hz : rowVec n B i + rowVec n B' i ∈ rowSpan n B :=
    Submodule.add_mem _ (rowVec_mem B (by omega)) (by rw [hs]; exact rowVec_mem B' (by omega))
  refine ⟨_, hz, ?_, ?_⟩
  · funext c
    refine low_combination ⟨h.bin, h.cols, h.unit⟩ hr hz (fun b hb => ?_) c fun a ha ha2 => h.lowerX a ha ha2 c c.2
    show ((B.get i b : ℤ) : ZMod 2) + ((B'.get i b : ℤ) : ZMod 2) = 0
    rw [h.unit b hb i (by omega), h'.unit b hb i (by omega)]
    exact add_self_z _
  · rw [← add_assoc]
    have : rowVec n B i + rowVec n B i = 0 := by ext j <;> exact add_self_z _
    rw [this, zero_add]

/-- Elements of the group without X fix what the rows fix. -/
theorem zType_fixes {nf : Arr ℤ} {k r : ℕ} (h : NormalShape n k r nf) (hrn : r ≤ n) {ψ : Amp n}
    (hψ : ∀ i < nf.rows, pauliAct (ofVec (rowVec n nf i)) ψ = ψ) {v : BVec n} (hv : v ∈ rowSpan n nf) (h0 : v.1 = 0) :
    pauliAct (ofVec v) ψ = ψ := by
  let W : Submodule (ZMod 2) (BVec n) :=
    { carrier := {v | v.1 = 0 ∧ pauliAct (ofVec v) ψ = ψ}
      zero_mem' := ⟨rfl, pauliAct_one ψ⟩
      add_mem' := by
        rintro a b ⟨a1, a2⟩ ⟨b1, b2⟩
        refine ⟨by rw [Prod.fst_add, a1, b1, add_zero], ?_⟩
        have := pauliAct_comp (ofVec a) (ofVec b) ψ
        rw [b2, a2, show (ofVec b).x = 0 from b1, dotp_zero_right, sgn_zero, one_smul] at this
        exact this.symm
      smul_mem' := by
        rintro t a ⟨a1, a2⟩
        rcases zmod2_cases t with rfl | rfl
        · rw [zero_smul]; exact ⟨rfl, pauliAct_one ψ⟩
        · rw [one_smul]; exact ⟨a1, a2⟩ }
  suffices v ∈ W from this.2
  obtain ⟨g, rfl⟩ := (Submodule.mem_span_range_iff_exists_fun (ZMod 2)).mp hv
  have hle := h.rank_le
  refine Submodule.sum_mem _ fun i _ => ?_
  by_cases hi : i.val < r
  · have hg : g i = 0 := by
      have h1 := congrFun h0 ⟨i, by omega⟩
      rw [Prod.fst_sum, Finset.sum_apply, Finset.sum_eq_single i] at h1
      · have h2 : g i * ((nf.get i i : ℤ) : ZMod 2) = 0 := h1
        rw [h.upperI i hi i hi, if_pos rfl] at h2
        simpa using h2
      · intro b _ hb
        show g b * ((nf.get b i : ℤ) : ZMod 2) = 0
        by_cases hbr : b.val < r
        · rw [h.upperI b hbr i hi, if_neg (fun hh => hb (Fin.ext hh))]; simp
        · rw [h.lowerX b (by omega) b.2 i (by omega)]; simp
      · intro hh; exact absurd (Finset.mem_univ _) hh
    rw [hg, zero_smul]
    exact W.zero_mem
  · refine W.smul_mem _ ⟨?_, hψ i i.2⟩
    funext c
    show ((nf.get i c : ℤ) : ZMod 2) = 0
    rw [h.lowerX i (by omega) i.2 c c.2]; simp

end PyQ
