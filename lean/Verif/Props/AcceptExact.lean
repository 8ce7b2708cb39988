import Verif.Spec.Accept
import Verif.Props.StabInput
import Verif.Props.CodeDimension

/-! C133: what the constructor accepts, exactly. -/

namespace PyQ

open Spec

variable {n : ℕ}

/-- The corner of an array. -/
def SameCorner (r : ℕ) (A B : Arr ℤ) : Prop := ∀ i < r, ∀ j < r, A.get i j = B.get i j

theorem corner_rowSwap2 {r t : ℕ} (A : Arr ℤ) (h : r ≤ t) : SameCorner r (rowSwap2 n A t) A := by
  intro i hi j hj
  unfold rowSwap2
  split_ifs with h0
  · cases hf : (List.range' (t + 1) (A.rows - (t + 1))).find? (fun i => A.get i (n + t) = 1) with
    | none => rfl
    | some m =>
      have := List.mem_of_find?_eq_some hf
      rw [List.mem_range'_1] at this
      simp only [Arr.swapRows]
      rw [if_neg (by omega), if_neg (by omega)]
  · rfl

theorem corner_colSwap2 {r t : ℕ} (A : Arr ℤ) (h : r ≤ t) (hn : r ≤ n) : SameCorner r (colSwap2 n A t) A := by
  intro i hi j hj
  unfold colSwap2
  split_ifs with h0
  · cases hf : (List.range' (n + t + 1) (2 * n - (n + t + 1))).find? (fun c => A.get t c = 1) with
    | none => rfl
    | some m =>
      have := List.mem_of_find?_eq_some hf
      rw [List.mem_range'_1] at this
      simp only [Arr.swapCols]
      rw [if_neg (show j ≠ m - n by omega), if_neg (show j ≠ t by omega), if_neg (show j ≠ m by omega),
        if_neg (show j ≠ n + t by omega)]
  · rfl

theorem corner_elim {r : ℕ} (rows : List ℕ) (p col : ℕ) (A : Arr ℤ) (h : ∀ i ∈ rows, r ≤ i) :
    SameCorner r (elimColumn rows p col A) A := by
  unfold elimColumn
  induction rows generalizing A with
  | nil => intro i _ j _; rfl
  | cons a rows ih =>
    intro i hi j hj
    rw [List.foldl_cons, ih _ (fun i hi => h i (List.mem_cons_of_mem _ hi)) i hi j hj]
    have := h a List.mem_cons_self
    split_ifs
    · simp only [Arr.addRow]
      rw [if_neg (by omega)]
    · rfl

theorem corner_foldl {r : ℕ} (f : Arr ℤ → ℕ → Arr ℤ) (ts : List ℕ) (A : Arr ℤ)
    (h : ∀ B, ∀ t ∈ ts, SameCorner r (f B t) B) : SameCorner r (ts.foldl f A) A := by
  induction ts generalizing A with
  | nil => intro i _ j _; rfl
  | cons a ts ih =>
    intro i hi j hj
    rw [List.foldl_cons, ih _ (fun B t ht => h B t (List.mem_cons_of_mem _ ht)) i hi j hj]
    exact h A a List.mem_cons_self i hi j hj

/-- The second elimination leaves the corner of the first one alone. -/
theorem corner_secondBlockLoops {k r e : ℕ} (A : Arr ℤ) (hn : r ≤ n) :
    SameCorner r (secondBlockLoops n k r e A) A := by
  intro i hi j hj
  unfold secondBlockLoops
  rw [corner_foldl _ _ _ (fun B t ht => ?_) i hi j hj, corner_foldl _ _ _ (fun B t ht => ?_) i hi j hj]
  · rw [List.mem_range'_1] at ht
    exact corner_rowSwap2 B ht.1
  · rw [List.mem_range'_1] at ht
    intro i hi j hj
    unfold secondBlockStep
    rw [corner_elim _ _ _ _ (fun i hi => by rw [List.mem_range'_1] at hi; exact hi.1) i hi j hj]
    exact corner_colSwap2 B ht.1 hn i hi j hj

theorem normalForm_corner {k : ℕ} {A nf : Arr ℤ} {r : ℕ} (hc : A.cols = 2 * n) (hb : BinaryArr A)
    (hN : standardNormalForm n k A = .ok (nf, r)) (hrk : xRankQ n A = xRank2 n A) (hp : 0 < A.rows) (hn : 0 < n) :
    topLeftIdentity nf r := by
  unfold standardNormalForm at hN
  rw [matrixRank_ok (A := A.slice 0 A.rows 0 n) (show 0 < A.rows - 0 by omega) (show 0 < n - 0 by omega)] at hN
  simp only [npRank_x, hrk, ok_bind'] at hN
  have hr1 := xRankQ_le_n (n := n) A
  have hr2 := xRankQ_le_rows (n := n) A
  rw [hrk] at hr1 hr2
  have e1 := equi_firstBlock (n := n) A hr1 hr2
  have i1 := firstBlock_spec hb hc (le_refl (xRank2 n A))
  have hu : topLeftIdentity (firstBlock n (xRank2 n A) A) (xRank2 n A) := by
    intro i hi j hj
    exact i1.unit j hj i (by rw [e1.rows]; omega)
  generalize hB : firstBlock n (xRank2 n A) A = B at hN hu
  cases hS : secondBlock n k (xRank2 n A) B with
  | error e => rw [hS] at hN; cases hN
  | ok nf' =>
    rw [hS] at hN
    simp only [ok_bind', pure_ok', Except.ok.injEq, Prod.mk.injEq] at hN
    obtain ⟨rfl, rfl⟩ := hN
    unfold secondBlock at hS
    split_ifs at hS with h1
    · cases hS; exact hu
    · cases hm : matrixRank (B.slice (xRank2 n A) B.rows (n + xRank2 n A) B.cols) with
      | error e => rw [hm] at hS; cases hS
      | ok e =>
        rw [hm] at hS
        simp only [ok_bind'] at hS
        split_ifs at hS
        cases hS
        intro i hi j hj
        rw [corner_secondBlockLoops B hr1 i hi j hj]
        exact hu i hi j hj

/-- Acceptance for any number of independent generators. -/
theorem stabInit_none_any {s : StabInput} {k : ℕ} {A : Arr ℤ} (hA : initArray s n k = .ok A) (hk : A.rows + k = n)
    (hb : BinaryArr A) (hcom : Commuting n A) :
    (xRankQ n A = xRank2 n A → ∃ c, stabInit s n k none = .ok c) ∧
    (xRankQ n A ≠ xRank2 n A → stabInit s n k none = .error .assertion) := by
  have hc := initArray_cols hA
  obtain ⟨strs, hS⟩ := pauliStab_ok hc hb
  have hp := initArray_rows_pos hA
  obtain ⟨nf, hN⟩ := standardNormalForm_ok hc hp hk
  obtain ⟨e, -⟩ := standardNormalForm_equi hc hN
  have hle := xRank2_le_Q (n := n) A
  have hr1 := xRankQ_le_n (n := n) A
  have hr2 := xRankQ_le_rows (n := n) A
  have hrun : stabInit s n k none = (logicalOperators n k (xRankQ n A) nf).bind fun l =>
      .ok ⟨n, k, A, strs, nf, xRankQ n A, l.1, l.2⟩ := by
    unfold stabInit
    simp only [hA, ok_bind', isStabilizerCode_eq hc, pyAssert, hcom, decide_true, if_true, hS, hN]
    rfl
  have her := e.rows
  constructor
  · intro hrk
    rw [hrun]
    unfold logicalOperators pyAssert
    rw [if_pos (normalForm_corner hc hb hN hrk hp (by omega))]
    simp only [ok_bind']
    rw [if_neg (by omega)]
    exact ⟨_, rfl⟩
  · intro hne
    rw [hrun]
    unfold logicalOperators pyAssert
    rw [if_neg]
    · rfl
    · intro htop
      have := le_xRank2_of_topLeft (n := n) (by omega) hr1 htop
      rw [e.xRank2] at this
      omega

theorem stabInit_some_any {s : StabInput} {k : ℕ} {A : Arr ℤ} (hA : initArray s n k = .ok A) (hk : A.rows + k = n)
    (hb : BinaryArr A) (hcom : Commuting n A) (LX LZ : Arr ℤ) :
    (LX.cols = 2 * n ∧ LZ.cols = 2 * n → ∃ c, stabInit s n k (some (LX, LZ)) = .ok c) ∧
    (¬ (LX.cols = 2 * n ∧ LZ.cols = 2 * n) → stabInit s n k (some (LX, LZ)) = .error .assertion) := by
  have hc := initArray_cols hA
  obtain ⟨strs, hS⟩ := pauliStab_ok hc hb
  have hp := initArray_rows_pos hA
  obtain ⟨nf, hN⟩ := standardNormalForm_ok hc hp hk
  unfold stabInit
  simp only [hA, ok_bind', isStabilizerCode_eq hc, pyAssert, hcom, decide_true, if_true, hS, hN]
  constructor
  · rintro ⟨h1, h2⟩
    simp only [h1, h2, if_true, ok_bind']
    exact ⟨_, rfl⟩
  · intro h
    by_cases h1 : LX.cols = 2 * n
    · have h2 : ¬ LZ.cols = 2 * n := fun h2 => h ⟨h1, h2⟩
      simp only [h1, h2, if_true, ok_bind', if_false]
      rfl
    · simp only [h1, if_false]
      rfl

theorem stabInit_not_commuting {s : StabInput} {k : ℕ} {A : Arr ℤ} (lo : Option (Arr ℤ × Arr ℤ))
    (hA : initArray s n k = .ok A) (hcom : ¬ Commuting n A) : stabInit s n k lo = .error .assertion := by
  have hc := initArray_cols hA
  unfold stabInit
  simp only [hA, ok_bind', isStabilizerCode_eq hc, pyAssert, hcom, decide_false]
  rfl

theorem commuting_ofRows {l : List (List ℤ)} :
    Commuting n (Arr.ofRows (2 * n) l) ↔ ∀ p ∈ l, ∀ q ∈ l, symp (rowPauli n p) (rowPauli n q) = 0 := by
  constructor
  · intro h p hp q hq
    obtain ⟨i, hi, rfl⟩ := List.getElem_of_mem hp
    obtain ⟨j, hj, rfl⟩ := List.getElem_of_mem hq
    have := h i hi j hj
    rwa [rowVec_ofRows, rowVec_ofRows, List.getD_eq_getElem _ _ hi, List.getD_eq_getElem _ _ hj] at this
  · intro hcom i hi j hj
    have hi' : i < l.length := hi
    have hj' : j < l.length := hj
    rw [rowVec_ofRows, rowVec_ofRows, List.getD_eq_getElem _ _ hi', List.getD_eq_getElem _ _ hj']
    exact hcom _ (List.getElem_mem hi') _ (List.getElem_mem hj')

theorem ranks_ofRows (l : List (List ℤ)) :
    xRankQ n (Arr.ofRows (2 * n) l) = (xHalf ℚ l n).rank ∧ xRank2 n (Arr.ofRows (2 * n) l) = (xHalf (ZMod 2) l n).rank := by
  have h : ∀ (i : Fin l.length) (j : Fin n), (Arr.ofRows (2 * n) l).get i j = l[i].getD j 0 := by
    intro i j
    simp only [Arr.ofRows]
    rw [List.getD_eq_getElem _ _ (show i.val < l.length from i.2)]
    rfl
  constructor
  · unfold xRankQ xHalf
    congr 1
    ext i j
    exact congrArg (fun z : ℤ => (z : ℚ)) (h i j)
  · unfold xRank2 xHalf
    congr 1
    ext i j
    exact congrArg (fun z : ℤ => (z : ZMod 2)) (h i j)

theorem initArray_ragged {l : List (List ℤ)} {k : ℕ} (h : Ragged l) : initArray (.rows l) n k = .error .index := by
  cases l with
  | nil => rfl
  | cons r0 rest =>
    rcases h with h | ⟨p, hp, q, hq, hpq⟩
    · cases h
    · have : ∃ r ∈ rest, r.length ≠ r0.length := by
        by_contra hno
        push Not at hno
        have hall : ∀ r ∈ r0 :: rest, r.length = r0.length := by
          intro r hr
          rcases List.mem_cons.mp hr with rfl | hr
          · rfl
          · exact hno r hr
        exact hpq ((hall p hp).trans (hall q hq).symm)
      simp only [initArray]
      rw [if_pos this]

/-- **C133**, arrays.  Without supplied logical operators, 0/1 rows are accepted exactly when they are `n - k` rows of
length `2 n`, commute pairwise and have an X half of the same rank over the rationals as modulo two.  Everything else
raises: `IndexError` for an empty or ragged list and `AssertionError` otherwise.  Independence is not looked at. -/
theorem C133_rows (l : List (List ℤ)) (n k : ℕ) (hb : ∀ r ∈ l, IsBinary r) :
    (Commutative l n k ∧ RanksAgree l n → ∃ c, stabInit (.rows l) n k none = .ok c) ∧
    (Ragged l → stabInit (.rows l) n k none = .error .index) ∧
    (¬ Ragged l → ¬ (Commutative l n k ∧ RanksAgree l n) → stabInit (.rows l) n k none = .error .assertion) := by
  obtain ⟨eQ, e2⟩ := ranks_ofRows (n := n) l
  refine ⟨?_, ?_, ?_⟩
  · rintro ⟨⟨h1, h2, h3, h4⟩, h5⟩
    exact (stabInit_none_any (initArray_rows_ok h1 h2 h3) h3 (ofRows_binary hb) (commuting_ofRows.mpr h4)).1
      (by rw [eQ, e2]; exact h5)
  · intro h
    unfold stabInit
    rw [initArray_ragged h]
    rfl
  · intro hr hnot
    have hne : l ≠ [] := fun h => hr (Or.inl h)
    obtain ⟨r0, rest, rfl⟩ := List.exists_cons_of_ne_nil hne
    have hlen : ∀ r ∈ r0 :: rest, r.length = r0.length := by
      intro r hrm
      by_contra hne
      exact hr (Or.inr ⟨r, hrm, r0, List.mem_cons_self, hne⟩)
    by_cases hsh : r0.length = 2 * n ∧ (r0 :: rest).length + k = n
    · have hw : ∀ r ∈ r0 :: rest, r.length = 2 * n := fun r h => (hlen r h).trans hsh.1
      have hA := initArray_rows_ok (k := k) hne hw hsh.2
      by_cases hcom : ∀ p ∈ r0 :: rest, ∀ q ∈ r0 :: rest, symp (rowPauli n p) (rowPauli n q) = 0
      · refine (stabInit_none_any hA hsh.2 (ofRows_binary hb) (commuting_ofRows.mpr hcom)).2 ?_
        rw [eQ, e2]
        exact fun h => hnot ⟨⟨hne, hw, hsh.2, hcom⟩, h⟩
      · exact stabInit_not_commuting _ hA (fun h => hcom (commuting_ofRows.mp h))
    · have := C74_arrays_partial (r0 :: rest) r0.length n k none hne hlen (by
        by_contra hh
        push Not at hh
        exact hsh hh)
      rwa [C74_agrees _ _ _ _ (fun l h => by cases h)] at this

theorem accepted_iff {l : List (List ℤ)} {n k : ℕ} (hb : ∀ r ∈ l, IsBinary r) :
    (∃ c, stabInit (.rows l) n k none = .ok c) ↔ Commutative l n k ∧ RanksAgree l n := by
  obtain ⟨h1, h2, h3⟩ := C133_rows l n k hb
  refine ⟨fun ⟨c, hc⟩ => ?_, h1⟩
  by_contra hno
  by_cases hr : Ragged l
  · rw [h2 hr] at hc; cases hc
  · rw [h3 hr hno] at hc; cases hc

/-- **C133**, with supplied logical operators.  Then the ranks are not looked at either; of the supplied arrays only the
numbers of columns are. -/
theorem C133_supplied (l : List (List ℤ)) (n k : ℕ) (LX LZ : Arr ℤ) (hb : ∀ r ∈ l, IsBinary r) :
    (Commutative l n k ∧ LX.cols = 2 * n ∧ LZ.cols = 2 * n → ∃ c, stabInit (.rows l) n k (some (LX, LZ)) = .ok c) ∧
    (Ragged l → stabInit (.rows l) n k (some (LX, LZ)) = .error .index) ∧
    (¬ Ragged l → ¬ (Commutative l n k ∧ LX.cols = 2 * n ∧ LZ.cols = 2 * n) →
      stabInit (.rows l) n k (some (LX, LZ)) = .error .assertion) := by
  refine ⟨?_, ?_, ?_⟩
  · rintro ⟨⟨h1, h2, h3, h4⟩, h5⟩
    exact (stabInit_some_any (initArray_rows_ok h1 h2 h3) h3 (ofRows_binary hb) (commuting_ofRows.mpr h4) LX LZ).1 h5
  · intro h
    unfold stabInit
    rw [initArray_ragged h]
    rfl
  · intro hr hnot
    have hne : l ≠ [] := fun h => hr (Or.inl h)
    obtain ⟨r0, rest, rfl⟩ := List.exists_cons_of_ne_nil hne
    have hlen : ∀ r ∈ r0 :: rest, r.length = r0.length := by
      intro r hrm
      by_contra hne
      exact hr (Or.inr ⟨r, hrm, r0, List.mem_cons_self, hne⟩)
    by_cases hsh : r0.length = 2 * n ∧ (r0 :: rest).length + k = n
    · have hw : ∀ r ∈ r0 :: rest, r.length = 2 * n := fun r h => (hlen r h).trans hsh.1
      have hA := initArray_rows_ok (k := k) hne hw hsh.2
      by_cases hcom : ∀ p ∈ r0 :: rest, ∀ q ∈ r0 :: rest, symp (rowPauli n p) (rowPauli n q) = 0
      · exact (stabInit_some_any hA hsh.2 (ofRows_binary hb) (commuting_ofRows.mpr hcom) LX LZ).2
          fun h => hnot ⟨⟨hne, hw, hsh.2, hcom⟩, h⟩
      · exact stabInit_not_commuting _ hA (fun h => hcom (commuting_ofRows.mp h))
    · have := C74_arrays_partial (r0 :: rest) r0.length n k (some (LX, LZ)) hne hlen (by
        by_contra hh
        push Not at hh
        exact hsh hh)
      rwa [C74_agrees _ _ _ _ (fun l h => by cases h)] at this

/-- **C133**, strings.  The same for strings of `n` Pauli letters. -/
theorem C133_strings (l : List (List Char)) (n k : ℕ) (hne : l ≠ []) (hl : ∀ p ∈ l, p.length = n)
    (hp : ∀ p ∈ l, IsPauliString p) :
    (∃ c, stabInitAny (.strs l) n k none = .ok c) ↔
      Commutative (l.map stringRow) n k ∧ RanksAgree (l.map stringRow) n := by
  have hhead : (l.headD []).length = n := by
    obtain ⟨a, t, rfl⟩ := List.exists_cons_of_ne_nil hne
    exact hl a List.mem_cons_self
  have hag := C74_agrees (.strs l) n k none (fun l' h => by cases h; exact hhead)
  have hA := initArray_strs_ok (k := k) hne hl hp
  have hb : BinaryArr (Arr.ofRows (2 * n) (l.map stringRow)) :=
    ofRows_binary (by simp only [List.mem_map]; rintro r ⟨p, _, rfl⟩; exact stringRow_binary)
  have hrows : (Arr.ofRows (2 * n) (l.map stringRow)).rows = (l.map stringRow).length := rfl
  obtain ⟨eQ, e2⟩ := ranks_ofRows (n := n) (l.map stringRow)
  constructor
  · rintro ⟨c, hc⟩
    have hcount : (l.map stringRow).length + k = n := by
      rw [List.length_map]
      rcases C74_strings_partial l n k c hc with h | h
      · exact h.2
      · omega
    rw [hag] at hc
    obtain ⟨hA', hcom, -⟩ := stabInit_ok hc
    have hst : c.stab = Arr.ofRows (2 * n) (l.map stringRow) := by
      rw [hA] at hA'
      exact (Except.ok.inj hA').symm
    rw [hst] at hcom
    refine ⟨⟨by simpa using hne, ?_, hcount, commuting_ofRows.mp hcom⟩, ?_⟩
    · simp only [List.mem_map]
      rintro r ⟨p, hpm, rfl⟩
      simp only [stringRow, List.length_append, List.length_map, hl p hpm]
      omega
    · by_contra hno
      have := (stabInit_none_any hA (by rw [hrows]; exact hcount) hb hcom).2 (by rw [eQ, e2]; exact hno)
      rw [hc] at this
      cases this
  · rintro ⟨⟨_, _, h3, h4⟩, h5⟩
    rw [hag]
    exact (stabInit_none_any hA (by rw [hrows]; exact h3) hb (commuting_ofRows.mpr h4)).1 (by rw [eQ, e2]; exact h5)

/-! ## At most two generators -/

theorem xHalf_binary {l : List (List ℤ)} (hb : ∀ r ∈ l, IsBinary r) (i : Fin l.length) (j : ℕ) :
    l[i].getD j 0 = 0 ∨ l[i].getD j 0 = 1 := by
  by_cases hj : j < l[i].length
  · rw [List.getD_eq_getElem _ _ hj]
    exact hb _ (List.getElem_mem _) _ (List.getElem_mem _)
  · left
    rw [List.getD_eq_default _ _ (by omega)]

theorem int_of_zmod {a b : ℤ} (ha : a = 0 ∨ a = 1) (hb : b = 0 ∨ b = 1) (h : (a : ZMod 2) = b) : a = b := by
  rcases ha with rfl | rfl <;> rcases hb with rfl | rfl <;> first | rfl | (exfalso; revert h; decide)

theorem rank_lt_of_dependent {F : Type} [Field F] {m n : ℕ} (M : Matrix (Fin m) (Fin n) F)
    (h : ¬ LinearIndependent F M.row) : M.rank < m := by
  have := Matrix.rank_le_card_height M
  rw [Fintype.card_fin] at this
  refine lt_of_le_of_ne this fun he => h ?_
  rw [linearIndependent_iff_card_eq_finrank_span, Fintype.card_fin]
  exact he.symm.trans (Matrix.rank_eq_finrank_span_row M)

/-- **C133**, few generators.  The ranks always agree for one or two generators, so one or two commuting generators are
accepted whatever they are. -/
theorem C133_at_most_two (l : List (List ℤ)) (n : ℕ) (hb : ∀ r ∈ l, IsBinary r) (h2 : l.length ≤ 2) : RanksAgree l n := by
  have hle : (xHalf (ZMod 2) l n).rank ≤ (xHalf ℚ l n).rank := by
    obtain ⟨eQ, e2⟩ := ranks_ofRows (n := n) l
    rw [← eQ, ← e2]
    exact xRank2_le_Q _
  have hQ : (xHalf ℚ l n).rank ≤ l.length := by
    have := Matrix.rank_le_card_height (xHalf ℚ l n)
    rwa [Fintype.card_fin] at this
  unfold RanksAgree
  by_contra hne
  have hlt : (xHalf (ZMod 2) l n).rank < (xHalf ℚ l n).rank := by omega
  have hzero : (xHalf (ZMod 2) l n).rank ≠ 0 := by
    intro h0
    rw [Matrix.rank_eq_finrank_span_row, Submodule.finrank_eq_zero, Submodule.span_eq_bot] at h0
    have : xHalf ℚ l n = 0 := by
      ext i j
      have := congrFun (h0 _ ⟨i, rfl⟩) j
      have h1 : l[i].getD j 0 = 0 := int_of_zmod (xHalf_binary hb i j) (Or.inl rfl) (by simpa [xHalf] using this)
      simp only [xHalf, Matrix.of_apply, Matrix.zero_apply]
      rw [h1]
      norm_num
    rw [this, Matrix.rank_zero] at hlt
    omega
  have hl2 : l.length = 2 := by omega
  have hdep : ¬ LinearIndependent (ZMod 2) (xHalf (ZMod 2) l n).row := by
    intro hli
    have := hli.rank_matrix
    rw [Fintype.card_fin] at this
    omega
  obtain ⟨a, b, rfl⟩ : ∃ a b, l = [a, b] := by
    match l, hl2 with
    | [a, b], _ => exact ⟨a, b, rfl⟩
  have hbit : ∀ (i : Fin 2) (j : ℕ), ([a, b][i]).getD j 0 = 0 ∨ ([a, b][i]).getD j 0 = 1 := fun i j => xHalf_binary hb i j
  have ha : ∀ j : ℕ, a.getD j 0 = 0 ∨ a.getD j 0 = 1 := fun j => hbit 0 j
  have hb' : ∀ j : ℕ, b.getD j 0 = 0 ∨ b.getD j 0 = 1 := fun j => hbit 1 j
  rw [Fintype.linearIndependent_iff] at hdep
  push Not at hdep
  obtain ⟨g, hg, i, hgi⟩ := hdep
  have hcol : ∀ j : Fin n, g (0 : Fin 2) * ((a.getD j 0 : ℤ) : ZMod 2) + g (1 : Fin 2) * ((b.getD j 0 : ℤ) : ZMod 2) = 0 := by
    intro j
    have := congrFun hg j
    rw [show (Finset.univ : Finset (Fin ([a, b] : List (List ℤ)).length)) = (Finset.univ : Finset (Fin 2)) from rfl] at this
    rw [Finset.sum_apply] at this
    exact (Fin.sum_univ_two (fun i : Fin 2 => g i * (([a, b][i].getD j 0 : ℤ) : ZMod 2))).symm.trans this
  have hbad : ¬ LinearIndependent ℚ (xHalf ℚ [a, b] n).row := by
    rw [Fintype.linearIndependent_iff]
    push Not
    have key : ∀ u v : ℚ, (u ≠ 0 ∨ v ≠ 0) → (∀ j : Fin n, u * ((a.getD j 0 : ℤ) : ℚ) + v * ((b.getD j 0 : ℤ) : ℚ) = 0) →
        ∃ g : Fin 2 → ℚ, ∑ i, g i • (xHalf ℚ [a, b] n).row i = 0 ∧ ∃ i, g i ≠ 0 := by
      intro u v huv h
      refine ⟨![u, v], ?_, ?_⟩
      · funext j
        rw [Finset.sum_apply]
        exact (Fin.sum_univ_two (fun i : Fin 2 => (![u, v] : Fin 2 → ℚ) i * (([a, b][i].getD j 0 : ℤ) : ℚ))).trans (h j)
      · rcases huv with h | h
        · exact ⟨0, h⟩
        · exact ⟨1, h⟩
    have two : ∀ t : ZMod 2, t = 0 ∨ t = 1 := by decide
    rcases two (g (0 : Fin 2)) with g0 | g0 <;> rcases two (g (1 : Fin 2)) with g1 | g1
    · exfalso
      have : ∀ i : Fin 2, g i = 0 := by
        intro i
        fin_cases i
        · exact g0
        · exact g1
      exact hgi (this i)
    · refine key 0 1 (Or.inr one_ne_zero) fun j => ?_
      have := hcol j
      rw [g0, g1, zero_mul, zero_add, one_mul] at this
      rw [int_of_zmod (hb' j) (Or.inl rfl) (by simpa using this)]
      norm_num
    · refine key 1 0 (Or.inl one_ne_zero) fun j => ?_
      have := hcol j
      rw [g0, g1, zero_mul, add_zero, one_mul] at this
      rw [int_of_zmod (ha j) (Or.inl rfl) (by simpa using this)]
      norm_num
    · refine key 1 (-1) (Or.inl one_ne_zero) fun j => ?_
      have := hcol j
      rw [g0, g1, one_mul, one_mul] at this
      have h3 : ((a.getD j 0 : ℤ) : ZMod 2) = ((b.getD j 0 : ℤ) : ZMod 2) := by
        rwa [CharTwo.add_eq_zero] at this
      rw [int_of_zmod (ha j) (hb' j) h3]
      ring
  have := rank_lt_of_dependent (xHalf ℚ [a, b] n) hbad
  have h3 : ([a, b] : List (List ℤ)).length = 2 := rfl
  omega

/-- The twice repeated generator XX on three qubits is accepted. -/
example : ∃ c, stabInit (.rows [[1, 1, 0, 0, 0, 0], [1, 1, 0, 0, 0, 0]]) 3 1 none = .ok c := by
  have hb : ∀ r ∈ ([[1, 1, 0, 0, 0, 0], [1, 1, 0, 0, 0, 0]] : List (List ℤ)), IsBinary r := by unfold IsBinary; decide
  exact (C133_rows _ 3 1 hb).1 ⟨⟨by decide, by decide, by decide, by decide⟩, C133_at_most_two _ 3 hb (by decide)⟩

/-- Three generators can fail: `badGens` commute, but the ranks do not agree. -/
example : Commutative badGens 4 1 ∧ ¬ RanksAgree badGens 4 ∧ ¬ Ragged badGens := by
  obtain ⟨hcom, -, hrej⟩ := C10_refuted
  have hC : Commutative badGens 4 1 := ⟨by decide, by decide, by decide, hcom⟩
  refine ⟨hC, fun h => ?_, by unfold Ragged; decide⟩
  obtain ⟨c, hc⟩ := (accepted_iff (k := 1) (show ∀ r ∈ badGens, IsBinary r by unfold IsBinary; decide)).mpr ⟨hC, h⟩
  rw [hrej] at hc
  cases hc

/-- With supplied operators even `badGens` are accepted. -/
example : ∃ c, stabInit (.rows badGens) 4 1 (some (Arr.zeros 1 8, Arr.zeros 1 8)) = .ok c :=
  (C133_supplied badGens 4 1 _ _ (show ∀ r ∈ badGens, IsBinary r by unfold IsBinary; decide)).1
    ⟨⟨by decide, by decide, by decide, C10_refuted.1⟩, rfl, rfl⟩

/-- Strings: XXI and IZZ on three qubits do not commute, XXI and ZZI do. -/
example : (¬ ∃ c, stabInitAny (.strs [['X', 'X', 'I'], ['I', 'Z', 'Z']]) 3 1 none = .ok c) ∧
    ∃ c, stabInitAny (.strs [['X', 'X', 'I'], ['Z', 'Z', 'I']]) 3 1 none = .ok c := by
  constructor
  · rw [C133_strings _ 3 1 (by decide) (by decide) (by unfold IsPauliString; decide)]
    rintro ⟨h, -⟩
    exact absurd h.commute (by decide)
  · rw [C133_strings _ 3 1 (by decide) (by decide) (by unfold IsPauliString; decide)]
    exact ⟨⟨by decide, by decide, by decide, by decide⟩, C133_at_most_two _ 3 (by unfold IsBinary; decide) (by decide)⟩

end PyQ
