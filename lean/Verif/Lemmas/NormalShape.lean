import Verif.Lemmas.NormalForm
import Verif.Lemmas.Rank

/-! Shape of the array after the two elimination blocks. -/

namespace PyQ

open Spec

variable {n : ℕ}

instance fact2 : Fact (Nat.Prime 2) := ⟨Nat.prime_two⟩

/-! ## Ranks -/

theorem npRank_x (A : Arr ℤ) : npRank (A.slice 0 A.rows 0 n) = xRankQ n A := by
  unfold npRank xRankQ
  show Matrix.rank (Matrix.of fun (i : Fin A.rows) (j : Fin n) => ((A.get (0 + i) (0 + j) : ℤ) : ℚ)) = _
  simp only [Nat.zero_add]

theorem xRankQ_le_n (A : Arr ℤ) : xRankQ n A ≤ n := by
  unfold xRankQ; exact (Matrix.rank_le_card_width _).trans (by simp)

theorem xRankQ_le_rows (A : Arr ℤ) : xRankQ n A ≤ A.rows := by
  unfold xRankQ; exact (Matrix.rank_le_card_height _).trans (by simp)

theorem xRank2_le_Q (A : Arr ℤ) : xRank2 n A ≤ xRankQ n A :=
  rank_mod2_le (Matrix.of fun (i : Fin A.rows) (j : Fin n) => (A.get i j : ℤ))

theorem xRank2_eq (A : Arr ℤ) :
    xRank2 n A = Module.finrank (ZMod 2) ((rowSpan n A).map (LinearMap.fst (ZMod 2) (Fin n → ZMod 2) (Fin n → ZMod 2))) := by
  unfold xRank2 rowSpan
  rw [Matrix.rank_eq_finrank_span_row, Submodule.map_span, ← Set.range_comp]
  rfl

theorem rowSpan_finrank (A : Arr ℤ) : Independent n A ↔ Module.finrank (ZMod 2) (rowSpan n A) = A.rows := by
  unfold Independent rowSpan
  rw [linearIndependent_iff_card_eq_finrank_span]
  simp [Set.finrank, eq_comm]

theorem Equi.independent {A B : Arr ℤ} (h : Equi n A B) (hA : Independent n A) : Independent n B := by
  rw [rowSpan_finrank] at hA ⊢
  obtain ⟨σ, hσ⟩ := h.span
  rw [hσ, h.rows, ← hA]
  exact LinearEquiv.finrank_map_eq (relabel σ) _

theorem Equi.xRank2 {A B : Arr ℤ} (h : Equi n A B) : xRank2 n B = xRank2 n A := by
  rw [xRank2_eq, xRank2_eq]
  obtain ⟨σ, hσ⟩ := h.span
  rw [hσ, ← Submodule.map_comp]
  have : (LinearMap.fst (ZMod 2) (Fin n → ZMod 2) (Fin n → ZMod 2)).comp (relabel σ).toLinearMap
      = (LinearEquiv.funCongrLeft (ZMod 2) (ZMod 2) σ).toLinearMap.comp (LinearMap.fst (ZMod 2) _ _) := by
    ext v <;> rfl
  rw [this, Submodule.map_comp]
  exact LinearEquiv.finrank_map_eq _ _

theorem sympV_add_left (u v w : BVec n) : sympV (u + v) w = sympV u w + sympV v w := by
  unfold sympV
  simp only [Prod.fst_add, Prod.snd_add, dotp_add_left]
  ring

theorem sympV_add_right (u v w : BVec n) : sympV u (v + w) = sympV u v + sympV u w := by
  unfold sympV
  simp only [Prod.fst_add, Prod.snd_add, dotp_add_right]
  ring

theorem sympV_zero_left (w : BVec n) : sympV 0 w = 0 := by
  simp [sympV, dotp]

theorem sympV_zero_right (w : BVec n) : sympV w 0 = 0 := by
  simp [sympV, dotp]

theorem sympV_smul_left (c : ZMod 2) (u w : BVec n) : sympV (c • u) w = c * sympV u w := by
  rcases zmod2_cases c with rfl | rfl <;> simp [sympV_zero_left]

theorem sympV_smul_right (c : ZMod 2) (u w : BVec n) : sympV u (c • w) = c * sympV u w := by
  rcases zmod2_cases c with rfl | rfl <;> simp [sympV_zero_right]

theorem sympV_relabel (σ : Equiv.Perm (Fin n)) (u v : BVec n) : sympV (relabel σ u) (relabel σ v) = sympV u v := by
  unfold sympV dotp
  congr 1
  · exact Equiv.sum_comp σ (fun i => u.1 i * v.2 i)
  · exact Equiv.sum_comp σ (fun i => u.2 i * v.1 i)

theorem commuting_iff (A : Arr ℤ) : Commuting n A ↔ ∀ u ∈ rowSpan n A, ∀ v ∈ rowSpan n A, sympV u v = 0 := by
  constructor
  · intro h u hu v hv
    unfold rowSpan at hu hv
    induction hu using Submodule.span_induction with
    | zero => exact sympV_zero_left _
    | add x y _ _ hx hy => rw [sympV_add_left, hx, hy, add_zero]
    | smul c x _ hx => rw [sympV_smul_left, hx, mul_zero]
    | mem x hx =>
      obtain ⟨i, rfl⟩ := hx
      induction hv using Submodule.span_induction with
      | zero => exact sympV_zero_right _
      | add x y _ _ hx hy => rw [sympV_add_right, hx, hy, add_zero]
      | smul c x _ hx => rw [sympV_smul_right, hx, mul_zero]
      | mem y hy =>
        obtain ⟨j, rfl⟩ := hy
        exact h i i.2 j j.2
  · intro h i hi j hj
    exact h _ (Submodule.subset_span ⟨⟨i, hi⟩, rfl⟩) _ (Submodule.subset_span ⟨⟨j, hj⟩, rfl⟩)

theorem Equi.commuting {A B : Arr ℤ} (h : Equi n A B) (hA : Commuting n A) : Commuting n B := by
  rw [commuting_iff] at hA ⊢
  obtain ⟨σ, hσ⟩ := h.span
  rw [hσ]
  rintro u ⟨u', hu, rfl⟩ v ⟨v', hv, rfl⟩
  exact (sympV_relabel σ u' v').trans (hA u' hu v' hv)

/-! ## Elementary operations on the entries -/

theorem elimColumn_get (rows : List ℕ) (hnd : rows.Nodup) (p col : ℕ) (A : Arr ℤ) (i j : ℕ) :
    (elimColumn rows p col A).get i j =
      if i ∈ rows ∧ i ≠ p ∧ A.get i col ≠ 0 then (A.get p j + A.get i j) % 2 else A.get i j := by
  unfold elimColumn
  induction rows generalizing A with
  | nil => simp
  | cons a l ih =>
    rw [List.nodup_cons] at hnd
    rw [List.foldl_cons, ih hnd.2]
    by_cases hia : i = a
    · subst hia
      have h1 : i ∉ l := hnd.1
      by_cases h : i ≠ p ∧ A.get i col ≠ 0
      · rw [if_pos h]
        simp [h1, h, Arr.addRow]
      · rw [if_neg h]
        simp only [h1, false_and, if_false]
        rw [if_neg]
        intro hh; exact h hh.2
    · by_cases h : a ≠ p ∧ A.get a col ≠ 0
      · rw [if_pos h]
        have hpa : p ≠ a := h.1.symm
        simp [Arr.addRow, hia, hpa]
      · rw [if_neg h]
        simp [hia]

theorem elimColumn_rows (rows : List ℕ) (p col : ℕ) (A : Arr ℤ) : (elimColumn rows p col A).rows = A.rows := by
  unfold elimColumn
  induction rows generalizing A with
  | nil => rfl
  | cons a l ih => rw [List.foldl_cons, ih]; split_ifs <;> rfl

theorem elimColumn_cols (rows : List ℕ) (p col : ℕ) (A : Arr ℤ) : (elimColumn rows p col A).cols = A.cols := by
  unfold elimColumn
  induction rows generalizing A with
  | nil => rfl
  | cons a l ih => rw [List.foldl_cons, ih]; split_ifs <;> rfl

theorem elimColumn_binary {rows : List ℕ} (hnd : rows.Nodup) {p col : ℕ} {A : Arr ℤ} (h : BinaryArr A) :
    BinaryArr (elimColumn rows p col A) := by
  intro i hi j hj
  rw [elimColumn_rows] at hi
  rw [elimColumn_cols] at hj
  rw [elimColumn_get rows hnd]
  split_ifs
  · omega
  · exact h i hi j hj

theorem swapCols_binary {A : Arr ℤ} (h : BinaryArr A) {a b : ℕ} (ha : a < A.cols) (hb : b < A.cols) :
    BinaryArr (A.swapCols a b) := by
  intro i hi j hj
  refine h i hi _ ?_
  have hj' : j < A.cols := hj
  split_ifs <;> assumption

theorem swapRows_binary {A : Arr ℤ} (h : BinaryArr A) {a b : ℕ} (ha : a < A.rows) (hb : b < A.rows) :
    BinaryArr (A.swapRows a b) := by
  intro i hi j hj
  refine h _ ?_ j hj
  have hi' : i < A.rows := hi
  split_ifs <;> assumption

/-! ## First block -/

/-- Binary, with unit X columns up to `j`. -/
structure Inv1 (n j : ℕ) (A : Arr ℤ) : Prop where
  bin : BinaryArr A
  cols : A.cols = 2 * n
  unit : ∀ c < j, ∀ i < A.rows, A.get i c = if i = c then 1 else 0

/-- If the rows from `j` on have no X part, the X rank is at most `j`. -/
theorem xRank2_le_of_zero {A : Arr ℤ} {j : ℕ} (h : ∀ i, j ≤ i → i < A.rows → ∀ c < n, A.get i c = 0) :
    xRank2 n A ≤ j := by
  classical
  unfold xRank2
  rw [Matrix.rank_eq_finrank_span_row]
  set M : Matrix (Fin A.rows) (Fin n) (ZMod 2) := Matrix.of fun i j => ((A.get i j : ℤ) : ZMod 2) with hM
  let w : Fin j → (Fin n → ZMod 2) := fun i c => ((A.get i c : ℤ) : ZMod 2)
  have hsub : Submodule.span (ZMod 2) (Set.range M.row) ≤ Submodule.span (ZMod 2) (Set.range w) := by
    rw [Submodule.span_le]
    rintro v ⟨i, rfl⟩
    by_cases hi : i.val < j
    · exact Submodule.subset_span ⟨⟨i, hi⟩, rfl⟩
    · have : M.row i = 0 := by
        ext c
        show ((A.get i c : ℤ) : ZMod 2) = 0
        rw [h i (by omega) i.2 c c.2]; simp
      rw [this]
      exact Submodule.zero_mem _
  refine (Submodule.finrank_mono hsub).trans ?_
  have := finrank_range_le_card (R := ZMod 2) w
  simpa [Set.finrank] using this

/-- A row with an X part outside the unit columns raises the X rank above `j`. -/
theorem lt_xRank2_of_one {A : Arr ℤ} {j : ℕ} (hj : j ≤ n) (hjr : j ≤ A.rows)
    (hunit : ∀ c < j, ∀ i < A.rows, A.get i c = if i = c then 1 else 0) (hbin : BinaryArr A) (hc : A.cols = 2 * n)
    {i0 c0 : ℕ} (hi0 : j ≤ i0) (hi0' : i0 < A.rows) (hc0 : c0 < n) (hne : A.get i0 c0 ≠ 0) : j < xRank2 n A := by
  classical
  unfold xRank2
  rw [Matrix.rank_eq_finrank_span_row]
  set M : Matrix (Fin A.rows) (Fin n) (ZMod 2) := Matrix.of fun i j => ((A.get i j : ℤ) : ZMod 2) with hM
  let f : Fin (j + 1) → Fin A.rows := fun t => if h : t.val < j then ⟨t, by omega⟩ else ⟨i0, hi0'⟩
  have hone : ((A.get i0 c0 : ℤ) : ZMod 2) = 1 := by
    rcases hbin i0 hi0' c0 (by omega) with h | h
    · exact absurd h hne
    · rw [h]; simp
  have hli : LinearIndependent (ZMod 2) (fun t => M.row (f t)) := by
    rw [Fintype.linearIndependent_iff]
    intro g hg
    have hrow : ∀ (t : Fin (j + 1)) (c : Fin n), M.row (f t) c = ((A.get (f t).val c : ℤ) : ZMod 2) := fun _ _ => rfl
    have hsmall : ∀ t : Fin (j + 1), t.val < j → g t = 0 := by
      intro t ht
      have h1 := congrFun hg ⟨t, by omega⟩
      rw [Finset.sum_apply, Finset.sum_eq_single t] at h1
      · simp only [Pi.smul_apply, smul_eq_mul, hrow, Pi.zero_apply] at h1
        rw [hunit t.val ht _ (f t).2] at h1
        simpa [f, ht] using h1
      · intro s _ hst
        simp only [Pi.smul_apply, smul_eq_mul, hrow]
        rw [hunit t.val ht _ (f s).2, if_neg]
        · simp
        · simp only [f]
          split_ifs with hs
          · exact fun h => hst (Fin.ext h)
          · simp only; omega
      · intro h; exact absurd (Finset.mem_univ _) h
    have hlast : g (Fin.last j) = 0 := by
      have h1 := congrFun hg ⟨c0, hc0⟩
      rw [Finset.sum_apply, Finset.sum_eq_single (Fin.last j)] at h1
      · simp only [Pi.smul_apply, smul_eq_mul, hrow, Pi.zero_apply] at h1
        have h2 : (f (Fin.last j)).val = i0 := by simp [f]
        rw [h2, hone, mul_one] at h1
        exact h1
      · intro s _ hs
        rw [Pi.smul_apply, hsmall s, zero_smul]
        have := s.2
        have h3 : s.val ≠ j := fun h => hs (Fin.ext h)
        omega
      · intro h; exact absurd (Finset.mem_univ _) h
    intro t
    by_cases ht : t.val < j
    · exact hsmall t ht
    · have : t = Fin.last j := Fin.ext (by have := t.2; simp only [Fin.val_last]; omega)
      rw [this]; exact hlast
  have h1 := finrank_span_eq_card hli
  rw [Fintype.card_fin] at h1
  have h2 : Submodule.span (ZMod 2) (Set.range fun t => M.row (f t)) ≤ Submodule.span (ZMod 2) (Set.range M.row) := by
    apply Submodule.span_mono
    rintro v ⟨t, rfl⟩
    exact ⟨f t, rfl⟩
  have h3 := Submodule.finrank_mono h2
  omega

theorem pivotSwap1_spec {A : Arr ℤ} {j : ℕ} (h : Inv1 n j A) (hjn : j < n) (hjr : j < A.rows)
    (hrk : j < xRank2 n A) : Inv1 n j (pivotSwap1 n j A) ∧ (pivotSwap1 n j A).get j j = 1 := by
  unfold pivotSwap1
  split_ifs with h0
  · rcases hp : findPivot A n j with _ | ⟨c, r⟩
    · exfalso
      have h1 := findPivot_none hp
      have : xRank2 n A ≤ j := by
        apply xRank2_le_of_zero
        intro i hi hi2 c hc
        by_cases hcj : c < j
        · rw [h.unit c hcj i hi2, if_neg (by omega)]
        · rcases h.bin i hi2 c (by rw [h.cols]; omega) with h2 | h2
          · exact h2
          · exact absurd h2 (h1 c i (by omega) hc hi hi2)
      omega
    · obtain ⟨h1, h2, h3, h4, h5⟩ := findPivot_some hp
      refine ⟨⟨?_, h.cols, ?_⟩, ?_⟩
      · have hcols := h.cols
        exact swapRows_binary (swapCols_binary (swapCols_binary h.bin (by omega) (by omega))
          (show c + n < A.cols by omega) (show j + n < A.cols by omega)) hjr h4
      · intro c' hc' i hi
        simp only [Arr.swapRows, Arr.swapCols] at hi ⊢
        have e1 : (if c' = c + n then j + n else if c' = j + n then c + n else c') = c' := by
          rw [if_neg (by omega), if_neg (by omega)]
        rw [e1]
        have e2 : (if c' = c then j else if c' = j then c else c') = c' := by
          rw [if_neg (by omega), if_neg (by omega)]
        rw [e2, h.unit c' hc' _ (by split_ifs <;> omega)]
        congr 1
        apply propext
        split_ifs <;> omega
      · simp only [Arr.swapRows, Arr.swapCols, if_true]
        have e1 : (if j = c + n then j + n else if j = j + n then c + n else j) = j := by
          rw [if_neg (by omega), if_neg (by omega)]
        rw [e1]
        by_cases hjc : j = c
        · subst hjc; simpa using h5
        · rw [if_neg hjc, if_pos rfl]; exact h5
  · refine ⟨h, ?_⟩
    rcases h.bin j hjr j (by rw [h.cols]; omega) with h2 | h2
    · exact absurd h2 h0
    · exact h2

theorem firstBlockStep_spec {A : Arr ℤ} {j : ℕ} (h : Inv1 n j A) (hjn : j < n) (hjr : j < A.rows)
    (hrk : j < xRank2 n A) : Inv1 n (j + 1) (firstBlockStep n A j) := by
  obtain ⟨h1, h2⟩ := pivotSwap1_spec h hjn hjr hrk
  have hrows : (pivotSwap1 n j A).rows = A.rows := (equi_pivotSwap1 (n := n) A hjn hjr).rows
  unfold firstBlockStep
  refine ⟨elimColumn_binary List.nodup_range h1.bin, by rw [elimColumn_cols]; exact h1.cols, ?_⟩
  intro c hc i hi
  rw [elimColumn_rows] at hi
  rw [elimColumn_get _ List.nodup_range]
  have hmem : i ∈ List.range A.rows := by rw [List.mem_range]; omega
  by_cases hcj : c < j
  · have e1 := h1.unit c hcj i hi
    have e2 := h1.unit c hcj j (by omega)
    rw [if_neg (by omega)] at e2
    split_ifs with hh hic
    · rw [e1, e2, if_pos hic]; rfl
    · rw [e1, e2, if_neg hic]; rfl
    · rw [e1, if_pos (by assumption)]
    · rw [e1, if_neg (by assumption)]
  · have hc' : c = j := by omega
    subst hc'
    by_cases hic : i = c
    · subst hic; simp [h2]
    · rw [if_neg hic]
      have hb := h1.bin i hi c (by rw [h1.cols]; omega)
      rcases hb with hb | hb
      · rw [if_neg (by simp [hb]), hb]
      · rw [if_pos ⟨hmem, hic, by rw [hb]; simp⟩, h2, hb]; rfl

theorem firstBlock_spec {A : Arr ℤ} (hb : BinaryArr A) (hc : A.cols = 2 * n) {r : ℕ} (hr : r ≤ xRank2 n A) :
    Inv1 n r (firstBlock n r A) := by
  have hle1 : xRank2 n A ≤ n := (xRank2_le_Q A).trans (xRankQ_le_n A)
  have hle2 : xRank2 n A ≤ A.rows := (xRank2_le_Q A).trans (xRankQ_le_rows A)
  induction r with
  | zero => exact ⟨hb, hc, fun c hc => absurd hc (by omega)⟩
  | succ r ih =>
    have h1 := ih (by omega)
    have e := equi_firstBlock (n := n) A (rank := r) (by omega) (by omega)
    have : firstBlock n (r + 1) A = firstBlockStep n (firstBlock n r A) r := by
      simp [firstBlock, List.range_succ]
    rw [this]
    exact firstBlockStep_spec h1 (by omega) (by rw [e.rows]; omega) (by rw [e.xRank2]; omega)

/-! ## Second block -/

/-- Shape after the first block. -/
structure Inv2 (n r : ℕ) (A : Arr ℤ) : Prop where
  bin : BinaryArr A
  cols : A.cols = 2 * n
  unit : ∀ c < r, ∀ i < A.rows, A.get i c = if i = c then 1 else 0
  lowerX : ∀ i, r ≤ i → i < A.rows → ∀ c < n, A.get i c = 0

theorem span_zero_of_low {A : Arr ℤ} {r : ℕ} (h : Inv2 n r A) (hr : r ≤ A.rows) (hcom : Commuting n A)
    {v : BVec n} (hv : v ∈ rowSpan n A) (h1 : v.1 = 0) (h2 : ∀ c : Fin n, r ≤ c.val → v.2 c = 0) : v = 0 := by
  classical
  refine Prod.ext h1 ?_
  funext c
  by_cases hc : r ≤ c.val
  · exact h2 c hc
  · have h3 := (commuting_iff A).mp hcom (rowVec n A c) (Submodule.subset_span ⟨⟨c, by omega⟩, rfl⟩) v hv
    unfold sympV dotp at h3
    rw [h1] at h3
    simp only [Pi.zero_apply, mul_zero, Finset.sum_const_zero, add_zero] at h3
    rw [Finset.sum_eq_single c] at h3
    · have : (rowVec n A c).1 c = 1 := by
        show ((A.get c c : ℤ) : ZMod 2) = 1
        rw [h.unit c (by omega) c (by omega)]; simp
      rw [this, one_mul] at h3
      exact h3
    · intro b _ hb
      by_cases hbr : r ≤ b.val
      · rw [h2 b hbr, mul_zero]
      · have : (rowVec n A c).1 b = 0 := by
          show ((A.get c b : ℤ) : ZMod 2) = 0
          rw [h.unit b (by omega) c (by omega), if_neg (fun hh => hb (Fin.ext hh.symm))]; simp
        rw [this, zero_mul]
    · intro hh; exact absurd (Finset.mem_univ _) hh

theorem rankE_eq {A : Arr ℤ} {r : ℕ} (h : Inv2 n r A) (hr : r ≤ A.rows) (hrn : r ≤ n) (hcom : Commuting n A)
    (hind : Independent n A) : npRank (A.slice r A.rows (n + r) A.cols) = A.rows - r := by
  classical
  apply le_antisymm
  · unfold npRank
    exact (Matrix.rank_le_card_height _).trans (Fintype.card_fin _).le
  · refine le_trans ?_ (rank_mod2_le _)
    have hli : LinearIndependent (ZMod 2) (((A.slice r A.rows (n + r) A.cols).mat (A.slice r A.rows (n + r) A.cols).rows
        (A.slice r A.rows (n + r) A.cols).cols).map (Int.cast : ℤ → ZMod 2)).row := by
      rw [Fintype.linearIndependent_iff]
      intro g hg
      have hcols := h.cols
      let f : Fin (A.rows - r) → Fin A.rows := fun i => ⟨r + i, by omega⟩
      have hf : Function.Injective f := fun a b hab => by
        apply Fin.ext
        have := congrArg Fin.val hab
        simp only [f] at this
        omega
      have hli2 : LinearIndependent (ZMod 2) (fun i : Fin (A.rows - r) => rowVec n A (f i)) :=
        LinearIndependent.comp hind f hf
      refine (Fintype.linearIndependent_iff.mp hli2) g ?_
      apply span_zero_of_low h hr hcom
      · exact Submodule.sum_mem _ fun i _ => Submodule.smul_mem _ _ (Submodule.subset_span ⟨f i, rfl⟩)
      · rw [Prod.fst_sum]
        funext c
        rw [Finset.sum_apply]
        refine Finset.sum_eq_zero fun i _ => ?_
        show g i * ((A.get (f i).val c : ℤ) : ZMod 2) = 0
        rw [h.lowerX _ (by simp [f]) (f i).2 c c.2]; simp
      · intro c hc
        rw [Prod.snd_sum, Finset.sum_apply]
        have h1 := congrFun hg ⟨c - r, by show c.val - r < A.cols - (n + r); have := c.2; omega⟩
        rw [Finset.sum_apply] at h1
        refine Eq.trans (Finset.sum_congr rfl fun i _ => ?_) h1
        show g i * ((A.get (r + i) (n + c) : ℤ) : ZMod 2) = g i * ((A.get (r + i) (n + r + (c - r)) : ℤ) : ZMod 2)
        rw [show n + r + (c.val - r) = n + c by omega]
    have := hli.rank_matrix
    rw [this]
    exact (Fintype.card_fin _).ge

theorem Inv2.swapRows {A : Arr ℤ} {r : ℕ} (h : Inv2 n r A) {a b : ℕ} (ha : r ≤ a) (ha2 : a < A.rows) (hb : r ≤ b)
    (hb2 : b < A.rows) : Inv2 n r (A.swapRows a b) := by
  refine ⟨swapRows_binary h.bin ha2 hb2, h.cols, ?_, ?_⟩
  · intro c hc i hi
    have hi' : i < A.rows := hi
    simp only [Arr.swapRows]
    rw [h.unit c hc _ (by split_ifs <;> omega)]
    congr 1
    apply propext
    split_ifs <;> omega
  · intro i hi hi2 c hc
    have hi' : i < A.rows := hi2
    simp only [Arr.swapRows]
    exact h.lowerX _ (by split_ifs <;> omega) (by split_ifs <;> omega) c hc

theorem rowSwap2_inv {A : Arr ℤ} {r t : ℕ} (h : Inv2 n r A) (hrt : r ≤ t) (ht : t < A.rows) : Inv2 n r (rowSwap2 n A t) := by
  unfold rowSwap2
  split_ifs
  · rcases hp : (List.range' (t + 1) (A.rows - (t + 1))).find? (fun i => decide (A.get i (n + t) = 1)) with _ | i
    · exact h
    · have h2 := List.mem_of_find?_eq_some hp
      rw [List.mem_range'_1] at h2
      exact h.swapRows (by omega) (by omega) hrt ht
  · exact h

theorem rowSwap2_loop {A : Arr ℤ} {r e : ℕ} (h : Inv2 n r A) (he : r + e ≤ A.rows) :
    Inv2 n r ((List.range' r e).foldl (rowSwap2 n) A) := by
  have key : ∀ (l : List ℕ) (A : Arr ℤ), Inv2 n r A → (∀ t ∈ l, r ≤ t ∧ t < A.rows) → Inv2 n r (l.foldl (rowSwap2 n) A) := by
    intro l
    induction l with
    | nil => intro A h _; exact h
    | cons t l ih =>
      intro A h hl
      rw [List.foldl_cons]
      have ht := hl t (by simp)
      have er := (equi_rowSwap2 (n := n) A ht.2).rows
      refine ih _ (rowSwap2_inv h ht.1 ht.2) ?_
      intro s hs
      rw [er]
      exact hl s (by simp [hs])
  refine key _ _ h ?_
  intro t ht
  rw [List.mem_range'_1] at ht
  omega

/-- Unit Z columns in the lower rows, up to `t`. -/
structure Inv3 (n r t : ℕ) (A : Arr ℤ) : Prop extends Inv2 n r A where
  lowUnit : ∀ p, r ≤ p → p < t → ∀ i, r ≤ i → i < A.rows → A.get i (n + p) = if i = p then 1 else 0

theorem exists_one {A : Arr ℤ} {r t : ℕ} (h : Inv3 n r t A) (hr : r ≤ A.rows) (hrt : r ≤ t) (ht : t < A.rows)
    (hcom : Commuting n A) (hind : Independent n A) : ∃ c, n + t ≤ c ∧ c < 2 * n ∧ A.get t c = 1 := by
  by_contra hno
  push Not at hno
  have hcols := h.cols
  have hz : rowVec n A t = 0 := by
    apply span_zero_of_low h.toInv2 hr hcom
    · exact Submodule.subset_span ⟨⟨t, ht⟩, rfl⟩
    · funext c
      show ((A.get t c : ℤ) : ZMod 2) = 0
      rw [h.lowerX t hrt ht c c.2]; simp
    · intro c hc
      show ((A.get t (n + c) : ℤ) : ZMod 2) = 0
      have hc2 := c.2
      by_cases hct : c.val < t
      · rw [h.lowUnit c hc hct t hrt ht, if_neg (by omega)]; simp
      · rcases h.bin t ht (n + c) (by omega) with h0 | h0
        · rw [h0]; simp
        · exact absurd h0 (hno _ (by omega) (by omega))
  exact LinearIndependent.ne_zero (⟨t, ht⟩ : Fin A.rows) hind hz

theorem colSwap2_spec {A : Arr ℤ} {r t : ℕ} (h : Inv3 n r t A) (hr : r ≤ A.rows) (hrt : r ≤ t) (ht : t < A.rows)
    (htn : t < n) (hcom : Commuting n A) (hind : Independent n A) :
    Inv3 n r t (colSwap2 n A t) ∧ (colSwap2 n A t).get t (n + t) = 1 := by
  have hcols := h.cols
  unfold colSwap2
  split_ifs with h0
  · rcases hp : (List.range' (n + t + 1) (2 * n - (n + t + 1))).find? (fun c => decide (A.get t c = 1)) with _ | c
    · exfalso
      obtain ⟨c, hc1, hc2, hc3⟩ := exists_one h hr hrt ht hcom hind
      rw [List.find?_eq_none] at hp
      have hne : c ≠ n + t := by rintro rfl; rw [h0] at hc3; omega
      have := hp c (by rw [List.mem_range'_1]; omega)
      simp [hc3] at this
    · have h2 := List.mem_of_find?_eq_some hp
      have h3 := List.find?_some hp
      rw [List.mem_range'_1] at h2
      simp only [decide_eq_true_eq] at h3
      refine ⟨⟨⟨?_, h.cols, ?_, ?_⟩, ?_⟩, ?_⟩
      · exact swapCols_binary (swapCols_binary h.bin (by omega) (by omega))
          (show c - n < A.cols by omega) (show t < A.cols by omega)
      · intro c' hc' i hi
        have hi' : i < A.rows := hi
        simp only [Arr.swapCols]
        have e1 : (if c' = c - n then t else if c' = t then c - n else c') = c' := by
          rw [if_neg (by omega), if_neg (by omega)]
        rw [e1]
        have e2 : (if c' = c then n + t else if c' = n + t then c else c') = c' := by
          rw [if_neg (by omega), if_neg (by omega)]
        rw [e2]
        exact h.unit c' hc' i hi'
      · intro i hi hi2 c' hc'
        have hi' : i < A.rows := hi2
        simp only [Arr.swapCols]
        apply h.lowerX i hi hi'
        split_ifs <;> omega
      · intro p hp1 hp2 i hi1 hi2
        have hi' : i < A.rows := hi2
        simp only [Arr.swapCols]
        have e1 : (if n + p = c - n then t else if n + p = t then c - n else n + p) = n + p := by
          rw [if_neg (by omega), if_neg (by omega)]
        rw [e1, if_neg (by omega), if_neg (by omega)]
        exact h.lowUnit p hp1 hp2 i hi1 hi'
      · simp only [Arr.swapCols]
        have e1 : (if n + t = c - n then t else if n + t = t then c - n else n + t) = n + t := by
          rw [if_neg (by omega), if_neg (by omega)]
        rw [e1, if_neg (by omega), if_pos rfl]
        exact h3
  · refine ⟨h, ?_⟩
    rcases h.bin t ht (n + t) (by omega) with h2 | h2
    · exact absurd h2 h0
    · exact h2

theorem secondBlockStep_spec {A : Arr ℤ} {k r t : ℕ} (h : Inv3 n r t A) (hk : A.rows + k = n) (hr : r ≤ A.rows)
    (hrt : r ≤ t) (ht : t < A.rows) (hcom : Commuting n A) (hind : Independent n A) :
    Inv3 n r (t + 1) (secondBlockStep n k r A t) := by
  obtain ⟨h1, h2⟩ := colSwap2_spec h hr hrt ht (by omega) hcom hind
  have hrows : (colSwap2 n A t).rows = A.rows := (equi_colSwap2 (n := n) A (by omega)).rows
  have hcols := h1.cols
  have hnd : (List.range' r (n - k - r)).Nodup := List.nodup_range'
  unfold secondBlockStep
  have hmem : ∀ i, i ∈ List.range' r (n - k - r) ↔ r ≤ i ∧ i < A.rows := by
    intro i; rw [List.mem_range'_1]; omega
  refine ⟨⟨elimColumn_binary hnd h1.bin, by rw [elimColumn_cols]; exact h1.cols, ?_, ?_⟩, ?_⟩
  · intro c hc i hi
    rw [elimColumn_rows] at hi
    rw [elimColumn_get _ hnd]
    have e1 := h1.unit c hc i hi
    have e2 := h1.unit c hc t (by omega)
    rw [if_neg (by omega)] at e2
    split_ifs with hh hic
    · rw [e1, e2, if_pos hic]; rfl
    · rw [e1, e2, if_neg hic]; rfl
    · rw [e1, if_pos (by assumption)]
    · rw [e1, if_neg (by assumption)]
  · intro i hi hi2 c hc
    rw [elimColumn_rows] at hi2
    rw [elimColumn_get _ hnd]
    have e1 := h1.lowerX i hi hi2 c hc
    have e2 := h1.lowerX t hrt (by omega) c hc
    split_ifs with hh
    · rw [e1, e2]; rfl
    · exact e1
  · intro p hp1 hp2 i hi1 hi2
    rw [elimColumn_rows] at hi2
    rw [elimColumn_get _ hnd]
    by_cases hpt : p < t
    · have e1 := h1.lowUnit p hp1 hpt i hi1 hi2
      have e2 := h1.lowUnit p hp1 hpt t hrt (by omega)
      rw [if_neg (by omega)] at e2
      split_ifs with hh hic
      · rw [e1, e2, if_pos hic]; rfl
      · rw [e1, e2, if_neg hic]; rfl
      · rw [e1, if_pos (by assumption)]
      · rw [e1, if_neg (by assumption)]
    · have hpt' : p = t := by omega
      subst hpt'
      by_cases hic : i = p
      · subst hic; simp [h2]
      · rw [if_neg hic]
        rcases h1.bin i hi2 (n + p) (by omega) with hb | hb
        · rw [if_neg (by simp [hb]), hb]
        · rw [if_pos ⟨(hmem i).mpr ⟨hi1, by omega⟩, hic, by rw [hb]; simp⟩, h2, hb]; rfl

theorem secondBlockLoops_spec {A : Arr ℤ} {k r : ℕ} (h : Inv2 n r A) (hk : A.rows + k = n) (hr : r ≤ A.rows)
    (hcom : Commuting n A) (hind : Independent n A) :
    Inv3 n r A.rows (secondBlockLoops n k r (A.rows - r) A) := by
  unfold secondBlockLoops
  set e := A.rows - r with he
  have hre : r + e ≤ A.rows := by omega
  have h0 := rowSwap2_loop h hre
  have e1 : Equi n A ((List.range' r e).foldl (rowSwap2 n) A) := by
    refine equi_foldl _ (fun m j => j < m) (fun A j h => equi_rowSwap2 A h) A ?_
    intro j hj
    rw [List.mem_range'_1] at hj
    omega
  set B := (List.range' r e).foldl (rowSwap2 n) A with hB
  have key : ∀ d, r + d ≤ A.rows → Inv3 n r (r + d) ((List.range' r d).foldl (secondBlockStep n k r) B) ∧
      Equi n B ((List.range' r d).foldl (secondBlockStep n k r) B) := by
    intro d
    induction d with
    | zero => intro _; exact ⟨⟨h0, fun p hp1 hp2 => absurd hp2 (by omega)⟩, Equi.refl B⟩
    | succ d ih =>
      intro hd
      obtain ⟨i1, i2⟩ := ih (by omega)
      rw [show List.range' r (d + 1) = List.range' r d ++ [r + d] by rw [List.range'_concat]; simp, List.foldl_append,
        List.foldl_cons, List.foldl_nil]
      set C := (List.range' r d).foldl (secondBlockStep n k r) B
      have hCr : C.rows = A.rows := by rw [i2.rows, e1.rows]
      refine ⟨?_, i2.trans (equi_secondBlockStep (k := k) (rank := r) (t := r + d) C (by omega) (by omega) (by omega))⟩
      exact secondBlockStep_spec (t := r + d) i1 (by omega) (by omega) (by omega) (by omega)
        ((e1.trans i2).commuting hcom) ((e1.trans i2).independent hind)
  have := (key e hre).1
  rw [show r + e = A.rows by omega] at this
  exact this

end PyQ
