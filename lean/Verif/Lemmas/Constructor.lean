import Verif.Lemmas.NormalShape
import Verif.Lemmas.PauliMat
import Verif.Lemmas.Except
import Verif.Props.PauliConv

/-! Helper lemmas about the constructor. -/

namespace PyQ

open Spec

variable {n : ℕ}

theorem allM_ok {α : Type} {f : α → Except PyErr Bool} {g : α → Bool} (l : List α) (h : ∀ a ∈ l, f a = .ok (g a)) :
    l.allM f = .ok (l.all g) := by
  induction l with
  | nil => rfl
  | cons a l ih =>
    rw [List.allM, h a (by simp)]
    simp only [ok_bind', List.all_cons]
    cases g a
    · rfl
    · simpa using ih (fun b hb => h b (by simp [hb]))

theorem rowPauli_row {A : Arr ℤ} (hc : A.cols = 2 * n) (i : ℕ) : (rowPauli n (A.row i)).vec = rowVec n A i := by
  unfold Pauli.vec rowPauli rowVec Arr.row
  ext j
  · have hj : j.val < A.cols := by omega
    simp [hj]
  · have hj : n + j.val < A.cols := by omega
    simp [hj]

theorem sympV_vec (p q : Pauli n) : sympV p.vec q.vec = symp p q := rfl

theorem symp_self (p : Pauli n) : symp p p = 0 := by
  unfold symp
  rw [dotp_comm]
  exact add_self_z _

theorem sympV_self (u : BVec n) : sympV u u = 0 := symp_self ⟨u.1, u.2⟩

theorem sympV_comm (u v : BVec n) : sympV u v = sympV v u := symp_comm ⟨u.1, u.2⟩ ⟨v.1, v.2⟩

instance (n : ℕ) (A : Arr ℤ) : Decidable (Commuting n A) := by unfold Commuting; infer_instance

theorem isStabilizerCode_eq {A : Arr ℤ} (hc : A.cols = 2 * n) :
    isStabilizerCode A = .ok (decide (Commuting n A)) := by
  unfold isStabilizerCode
  rw [allM_ok (g := fun i => (List.range A.rows).all fun j => decide (sympV (rowVec n A i) (rowVec n A j) = 0))]
  · congr 1
    rw [Bool.eq_iff_iff]
    simp only [List.all_eq_true, List.mem_range, decide_eq_true_eq]
    rfl
  · intro i _
    apply allM_ok
    intro j _
    by_cases hij : i = j
    · subst hij
      rw [if_pos rfl, sympV_self]; rfl
    · rw [if_neg hij]
      obtain ⟨v, hv, h01, hs⟩ := innerProd_spec (n := n) (p := A.row i) (q := A.row j) (by simp [Arr.row, hc])
        (by simp [Arr.row, hc])
      rw [hv]
      simp only [ok_bind', pure_ok']
      rw [← sympV_vec, rowPauli_row hc, rowPauli_row hc] at hs
      rw [← hs]
      rcases h01 with rfl | rfl <;> simp

theorem initArray_cols {s : StabInput} {k : ℕ} {A : Arr ℤ} (h : initArray s n k = .ok A) : A.cols = 2 * n := by
  unfold initArray at h
  rcases s with l | l
  · rcases h1 : pauliStrToBinaryRepresentation l with e | rows
    · simp [h1] at h
    · simp only [h1, ok_bind'] at h
      split_ifs at h with h2
      simp only [pure_ok', Except.ok.injEq] at h
      rw [← h]
      push Not at h2
      exact h2
  · cases l with
    | nil => simp at h
    | cons r0 rest =>
      simp only at h
      split_ifs at h
      simp only [pyAssert] at h
      split_ifs at h with h1 h2 <;> simp at h
      rw [← h]
      exact h1

theorem initArray_rows_pos {s : StabInput} {k : ℕ} {A : Arr ℤ} (h : initArray s n k = .ok A) : 0 < A.rows := by
  cases s with
  | strs l =>
    cases l with
    | nil => simp [initArray, pauliStrToBinaryRepresentation] at h
    | cons p ps =>
      unfold initArray at h
      simp only at h
      cases hr : pauliStrToBinaryRepresentation (p :: ps) with
      | error e => rw [hr] at h; simp at h
      | ok rows =>
        rw [hr] at h
        simp only [ok_bind'] at h
        split_ifs at h
        simp only [pure_ok', Except.ok.injEq] at h
        subst h
        unfold pauliStrToBinaryRepresentation at hr
        have := (mapM_ok_iff.mp hr).length_eq
        simp only [List.length_cons] at this
        show 0 < rows.length
        omega
  | rows l =>
    cases l with
    | nil => simp [initArray] at h
    | cons r rest =>
      unfold initArray at h
      simp only [pyAssert] at h
      split_ifs at h
      · simp only [ok_bind', pure_ok', Except.ok.injEq] at h
        subst h
        simp [Arr.ofRows]
      all_goals simp at h

theorem initArray_rows_ok {l : List (List ℤ)} {k : ℕ} (hne : l ≠ []) (hl : ∀ r ∈ l, r.length = 2 * n)
    (hk : l.length + k = n) : initArray (.rows l) n k = .ok (Arr.ofRows (2 * n) l) := by
  cases l with
  | nil => exact absurd rfl hne
  | cons r0 rest =>
    unfold initArray
    simp only
    have h0 : r0.length = 2 * n := hl r0 (by simp)
    rw [if_neg]
    · simp only [pyAssert, Arr.ofRows, h0]
      simp only [if_true, ok_bind']
      rw [if_pos hk]
      rfl
    · rintro ⟨r, hr, hne⟩
      exact hne (by rw [hl r (by simp [hr]), h0])

theorem pauliStr_rows {l : List (List Char)} (hne : l ≠ []) (hl : ∀ p ∈ l, p.length = n)
    (hp : ∀ p ∈ l, IsPauliString p) : pauliStrToBinaryRepresentation l = .ok (l.map stringRow) := by
  cases l with
  | nil => exact absurd rfl hne
  | cons p0 rest =>
    unfold pauliStrToBinaryRepresentation
    simp only
    apply mapM_ok_of
    intro p hpm
    rw [hl p0 (by simp), ← hl p hpm]
    exact pauliStrRow_ok (hp p hpm)

theorem initArray_strs_ok {l : List (List Char)} {k : ℕ} (hne : l ≠ []) (hl : ∀ p ∈ l, p.length = n)
    (hp : ∀ p ∈ l, IsPauliString p) :
    initArray (.strs l) n k = .ok (Arr.ofRows (2 * n) (l.map stringRow)) := by
  unfold initArray
  simp only [pauliStr_rows hne hl hp, ok_bind']
  have : (l.headD []).length = n := by
    cases l with
    | nil => exact absurd rfl hne
    | cons p0 rest => exact hl p0 (by simp)
  rw [this, if_neg (by omega)]
  rfl

theorem ofRows_binary {c : ℕ} {l : List (List ℤ)} (h : ∀ r ∈ l, IsBinary r) : BinaryArr (Arr.ofRows c l) := by
  intro i hi j hj
  simp only [Arr.ofRows] at hi ⊢
  rw [List.getD_eq_getElem _ _ hi]
  by_cases hj2 : j < (l[i]).length
  · rw [List.getD_eq_getElem _ _ hj2]; exact h _ (List.getElem_mem hi) _ (List.getElem_mem hj2)
  · left; rw [List.getD_eq_default _ _ (by omega)]

theorem stringRow_binary {p : List Char} : IsBinary (stringRow p) := by
  intro v hv
  unfold stringRow at hv
  simp only [List.mem_append, List.mem_map] at hv
  have : ∀ c : Char, ((bits c).1 = 0 ∨ (bits c).1 = 1) ∧ ((bits c).2 = 0 ∨ (bits c).2 = 1) := by
    intro c; unfold bits; split_ifs <;> simp
  rcases hv with ⟨c, _, rfl⟩ | ⟨c, _, rfl⟩
  · exact (this c).1
  · exact (this c).2

theorem row_ofRows {c : ℕ} {l : List (List ℤ)} (hl : ∀ r ∈ l, r.length = c) {i : ℕ} (hi : i < l.length) :
    (Arr.ofRows c l).row i = l[i] := by
  apply List.ext_getElem
  · simp [Arr.row, Arr.ofRows, hl _ (List.getElem_mem hi)]
  · intro j h1 h2
    simp [Arr.row, Arr.ofRows, hi, h2]

theorem rowVec_ofRows {l : List (List ℤ)} (i : ℕ) : rowVec n (Arr.ofRows (2 * n) l) i = (rowPauli n (l.getD i [])).vec := rfl

theorem rowSpan_ofRows (l : List (List ℤ)) : rowSpan n (Arr.ofRows (2 * n) l) = groupOf n l := by
  unfold rowSpan groupOf
  congr 1
  ext v
  simp only [Set.mem_range, Set.mem_ofPred_eq]
  constructor
  · rintro ⟨i, rfl⟩
    have hi : i.val < l.length := i.2
    refine ⟨l[i.val], List.getElem_mem hi, ?_⟩
    rw [rowVec_ofRows, List.getD_eq_getElem _ _ hi]
  · rintro ⟨r, hr, rfl⟩
    obtain ⟨i, hi, rfl⟩ := List.getElem_of_mem hr
    refine ⟨⟨i, hi⟩, ?_⟩
    rw [rowVec_ofRows, List.getD_eq_getElem _ _ hi]

theorem groupOf_rows {A : Arr ℤ} (hc : A.cols = 2 * n) : groupOf n ((List.range A.rows).map A.row) = rowSpan n A := by
  unfold rowSpan groupOf
  congr 1
  ext v
  simp only [Set.mem_range, Set.mem_ofPred_eq, List.mem_map, List.mem_range]
  constructor
  · rintro ⟨r, ⟨i, hi, rfl⟩, rfl⟩
    exact ⟨⟨i, hi⟩, (rowPauli_row hc i).symm⟩
  · rintro ⟨i, rfl⟩
    exact ⟨_, ⟨i, i.2, rfl⟩, (rowPauli_row hc i).symm⟩

/-- What a successful construction has gone through. -/
theorem stabInit_ok {s : StabInput} {k : ℕ} {lo : Option (Arr ℤ × Arr ℤ)} {c : StabCode}
    (h : stabInit s n k lo = .ok c) :
    initArray s n k = .ok c.stab ∧ Commuting n c.stab ∧
    (List.range c.stab.rows).mapM (fun i => binaryRepToPauliStr (c.stab.row i)) = .ok c.pauliStab ∧
    standardNormalForm n k c.stab = .ok (c.normalForm, c.rank) ∧ c.n = n ∧ c.k = k ∧
    (lo = none → logicalOperators n k c.rank c.normalForm = .ok (c.logicalX, c.logicalZ)) ∧
    (∀ lx lz, lo = some (lx, lz) → lx.cols = 2 * n ∧ lz.cols = 2 * n ∧ c.logicalX = lx ∧ c.logicalZ = lz) := by
  unfold stabInit at h
  rcases hA : initArray s n k with e | A
  · rw [hA] at h; simp at h
  simp only [hA, ok_bind', isStabilizerCode_eq (initArray_cols hA), pyAssert] at h
  by_cases hcom : Commuting n A
  swap
  · simp [hcom] at h
  simp only [hcom, decide_true, if_true, ok_bind'] at h
  rcases hS : (List.range A.rows).mapM (fun i => binaryRepToPauliStr (A.row i)) with e | strs
  · rw [hS] at h; simp at h
  simp only [hS, ok_bind'] at h
  rcases hN : standardNormalForm n k A with e | ⟨nf, rank⟩
  · rw [hN] at h; simp at h
  simp only [hN, ok_bind'] at h
  rcases lo with _ | ⟨lx, lz⟩
  · rcases hL : logicalOperators n k rank nf with e | ⟨lx, lz⟩
    · simp only [hL] at h; simp at h
    simp only [hL, ok_bind', pure_ok', Except.ok.injEq] at h
    subst h
    exact ⟨rfl, hcom, hS, hN, rfl, rfl, fun _ => hL, fun lx lz hh => by simp at hh⟩
  · simp only at h
    split_ifs at h with h1 h2 <;> simp at h
    subst h
    refine ⟨rfl, hcom, hS, hN, rfl, rfl, fun hh => by simp at hh, ?_⟩
    intro lx' lz' hh
    simp only [Option.some.injEq, Prod.mk.injEq] at hh
    obtain ⟨rfl, rfl⟩ := hh
    exact ⟨h1, h2, rfl, rfl⟩

theorem matrixRank_ok {A : Arr ℤ} (h1 : 0 < A.rows) (h2 : 0 < A.cols) : matrixRank A = .ok (npRank A) := by
  unfold matrixRank
  rw [if_neg (by omega)]

theorem matrixRank_error {A : Arr ℤ} (h : A.rows = 0 ∨ A.cols = 0) : matrixRank A = .error .value := by
  unfold matrixRank
  rw [if_pos h]

/-- The normal form generates the same group up to relabelling. -/
theorem standardNormalForm_equi {k rank : ℕ} {A nf : Arr ℤ} (hc : A.cols = 2 * n)
    (h : standardNormalForm n k A = .ok (nf, rank)) : Equi n A nf ∧ rank = xRankQ n A := by
  unfold standardNormalForm at h
  by_cases h0 : (A.slice 0 A.rows 0 n).rows = 0 ∨ (A.slice 0 A.rows 0 n).cols = 0
  · rw [matrixRank_error h0] at h; simp at h
  rw [matrixRank_ok (by omega) (by omega)] at h
  simp only [npRank_x, ok_bind'] at h
  have hr1 := xRankQ_le_n (n := n) A
  have hr2 := xRankQ_le_rows (n := n) A
  have e1 := equi_firstBlock (n := n) A hr1 hr2
  set B := firstBlock n (xRankQ n A) A with hB
  unfold secondBlock at h
  by_cases h1 : xRankQ n A = B.rows
  · rw [if_pos h1] at h
    simp only [ok_bind', pure_ok', Except.ok.injEq, Prod.mk.injEq] at h
    exact ⟨h.1 ▸ e1, h.2.symm⟩
  rw [if_neg h1] at h
  by_cases h0' : (B.slice (xRankQ n A) B.rows (n + xRankQ n A) B.cols).rows = 0 ∨
      (B.slice (xRankQ n A) B.rows (n + xRankQ n A) B.cols).cols = 0
  · rw [matrixRank_error h0'] at h; simp at h
  rw [matrixRank_ok (by omega) (by omega)] at h
  simp only [ok_bind'] at h
  split_ifs at h with h2
  · simp at h
  · simp only [ok_bind', pure_ok', Except.ok.injEq, Prod.mk.injEq] at h
    obtain ⟨rfl, hrk⟩ := h
    refine ⟨e1.trans ?_, hrk.symm⟩
    set rE := npRank (B.slice (xRankQ n A) B.rows (n + xRankQ n A) B.cols) with hrE
    have hE1 : rE ≤ B.rows - xRankQ n A := by
      rw [hrE]; unfold npRank
      exact (Matrix.rank_le_card_height _).trans (Fintype.card_fin _).le
    have hE2 : rE ≤ B.cols - (n + xRankQ n A) := by
      rw [hrE]; unfold npRank
      exact (Matrix.rank_le_card_width _).trans (Fintype.card_fin _).le
    have hbr := e1.rows
    have hbc := e1.cols
    by_cases h0 : rE = 0
    · rw [h0]
      exact Equi.refl B
    · exact equi_secondBlockLoops B (by omega) (by omega) (by omega)

/-- If the normal form passes the identity check, the mod-2 rank is at least the computed rank. -/
theorem le_xRank2_of_topLeft {A : Arr ℤ} {r : ℕ} (hr : r ≤ A.rows) (hrn : r ≤ n) (h : topLeftIdentity A r) :
    r ≤ xRank2 n A := by
  classical
  unfold xRank2
  rw [Matrix.rank_eq_finrank_span_row]
  set M : Matrix (Fin A.rows) (Fin n) (ZMod 2) := Matrix.of fun i j => ((A.get i j : ℤ) : ZMod 2) with hM
  have hli : LinearIndependent (ZMod 2) (fun t : Fin r => M.row ⟨t, by omega⟩) := by
    rw [Fintype.linearIndependent_iff]
    intro g hg t
    have h1 := congrFun hg ⟨t, by omega⟩
    rw [Finset.sum_apply, Finset.sum_eq_single t] at h1
    · have : M.row ⟨t, by omega⟩ ⟨t, by omega⟩ = 1 := by
        show ((A.get t t : ℤ) : ZMod 2) = 1
        rw [h t t.2 t t.2]; simp
      rw [Pi.smul_apply, this, smul_eq_mul, mul_one] at h1
      exact h1
    · intro s _ hs
      have : M.row ⟨s, by omega⟩ ⟨t, by omega⟩ = 0 := by
        show ((A.get s t : ℤ) : ZMod 2) = 0
        rw [h s s.2 t t.2, if_neg (fun hh => hs (Fin.ext hh))]; simp
      rw [Pi.smul_apply, this, smul_zero]
    · intro hh; exact absurd (Finset.mem_univ _) hh
  have h1 := finrank_span_eq_card hli
  rw [Fintype.card_fin] at h1
  have h2 : Submodule.span (ZMod 2) (Set.range fun t : Fin r => M.row ⟨t, by omega⟩) ≤ Submodule.span (ZMod 2) (Set.range M.row) := by
    apply Submodule.span_mono
    rintro v ⟨t, rfl⟩
    exact ⟨_, rfl⟩
  have h3 := Submodule.finrank_mono h2
  omega

/-- The normal form of commuting independent generators with equal ranks. -/
theorem standardNormalForm_shape {k : ℕ} {A : Arr ℤ} (hc : A.cols = 2 * n) (hp : 0 < A.rows) (hk : A.rows + k = n) (hb : BinaryArr A)
    (hcom : Commuting n A) (hind : Independent n A) (hrk : xRankQ n A = xRank2 n A) :
    ∃ nf, standardNormalForm n k A = .ok (nf, xRank2 n A) ∧ NormalShape n k (xRank2 n A) nf := by
  unfold standardNormalForm
  rw [matrixRank_ok (A := A.slice 0 A.rows 0 n) (show 0 < A.rows - 0 by omega) (show 0 < n - 0 by omega)]
  simp only [npRank_x, hrk, ok_bind']
  have hr1 := xRankQ_le_n (n := n) A
  have hr2 := xRankQ_le_rows (n := n) A
  rw [hrk] at hr1 hr2
  have e1 := equi_firstBlock (n := n) A hr1 hr2
  have i1 := firstBlock_spec hb hc (le_refl (xRank2 n A))
  set r := xRank2 n A with hr
  set B := firstBlock n r A with hB
  have hbr := e1.rows
  have i2 : Inv2 n r B := by
    refine ⟨i1.bin, i1.cols, i1.unit, ?_⟩
    intro i hi hi2 c hcn
    by_contra hne
    have := lt_xRank2_of_one hr1 (by omega) i1.unit i1.bin i1.cols hi hi2 hcn hne
    rw [e1.xRank2] at this
    omega
  unfold secondBlock
  by_cases h1 : r = B.rows
  · rw [if_pos h1]
    refine ⟨B, rfl, by omega, i2.cols, by omega, i2.bin, ?_, i2.lowerX, ?_⟩
    · intro i hi j hj; exact i2.unit j hj i (by omega)
    · intro i hi1 hi2; omega
  · rw [if_neg h1, matrixRank_ok (A := B.slice r B.rows (n + r) B.cols) (show 0 < B.rows - r by omega) (show 0 < B.cols - (n + r) by rw [i1.cols]; omega)]
    simp only [ok_bind']
    rw [rankE_eq i2 (by omega) hr1 (e1.commuting hcom) (e1.independent hind), if_neg (by omega)]
    have i3 := secondBlockLoops_spec (k := k) i2 (by omega) (by omega) (e1.commuting hcom) (e1.independent hind)
    have e2 := equi_secondBlockLoops (n := n) B (k := k) (rank := r) (rankE := B.rows - r) (by omega) (by omega) (by omega)
    have hr3 := e2.rows
    refine ⟨_, rfl, by omega, i3.cols, by omega, i3.bin, ?_, i3.lowerX, ?_⟩
    · intro i hi j hj; exact i3.unit j hj i (by omega)
    · intro i hi1 hi2 j hj1 hj2; exact i3.lowUnit j hj1 (by omega) i hi1 hi2

/-- With a binary array of the right shape, nothing but the final assertion can fail. -/
theorem pauliStab_ok {A : Arr ℤ} (hc : A.cols = 2 * n) (hb : BinaryArr A) :
    ∃ strs, (List.range A.rows).mapM (fun i => binaryRepToPauliStr (A.row i)) = .ok strs := by
  have h : ∀ i, i < A.rows → ∃ s, binaryRepToPauliStr (A.row i) = .ok s := by
    intro i hi
    obtain ⟨s, hs, _⟩ := C01_binary_roundtrip n (A.row i) (by simp [Arr.row, hc]) (by
      intro v hv
      simp only [Arr.row, List.mem_map, List.mem_range] at hv
      obtain ⟨j, hj, rfl⟩ := hv
      exact hb i hi j hj)
    exact ⟨s, hs⟩
  choose! f hf using h
  exact ⟨_, mapM_ok_of (g := f) fun i hi => hf i (List.mem_range.mp hi)⟩

/-- With the right number of generators the normal form computation does not raise. -/
theorem standardNormalForm_ok {k : ℕ} {A : Arr ℤ} (hc : A.cols = 2 * n) (hp : 0 < A.rows) (hk : A.rows + k = n) :
    ∃ nf, standardNormalForm n k A = .ok (nf, xRankQ n A) := by
  unfold standardNormalForm
  rw [matrixRank_ok (A := A.slice 0 A.rows 0 n) (show 0 < A.rows - 0 by omega) (show 0 < n - 0 by omega)]
  simp only [npRank_x, ok_bind']
  have e1 := equi_firstBlock (n := n) A (xRankQ_le_n (n := n) A) (xRankQ_le_rows (n := n) A)
  have := e1.rows
  have hec := e1.cols
  have hle := xRankQ_le_rows (n := n) A
  unfold secondBlock
  by_cases h1 : xRankQ n A = (firstBlock n (xRankQ n A) A).rows
  · rw [if_pos h1]
    exact ⟨_, rfl⟩
  · rw [if_neg h1, matrixRank_ok (A := (firstBlock n (xRankQ n A) A).slice (xRankQ n A) (firstBlock n (xRankQ n A) A).rows
      (n + xRankQ n A) (firstBlock n (xRankQ n A) A).cols) (show 0 < _ - _ by omega) (show 0 < _ - _ by omega)]
    simp only [ok_bind']
    rw [if_neg (by omega)]
    exact ⟨_, rfl⟩

/-- Acceptance, exactly. -/
theorem stabInit_none {s : StabInput} {k : ℕ} {A : Arr ℤ} (hA : initArray s n k = .ok A) (hk : A.rows + k = n)
    (hb : BinaryArr A) (hcom : Commuting n A) (hind : Independent n A) :
    (xRankQ n A = xRank2 n A → ∃ c, stabInit s n k none = .ok c) ∧
    (xRankQ n A ≠ xRank2 n A → stabInit s n k none = .error .assertion) := by
  have hc := initArray_cols hA
  obtain ⟨strs, hS⟩ := pauliStab_ok hc hb
  have hp := initArray_rows_pos hA
  obtain ⟨nf, hN⟩ := standardNormalForm_ok hc hp hk
  obtain ⟨e, -⟩ := standardNormalForm_equi hc hN
  have hle := xRank2_le_Q (n := n) A
  have hr1 := xRankQ_le_n (n := n) A
  have hr2 := xRankQ_le_rows (n := n) A
  have hrun : stabInit s n k none = (logicalOperators n k (xRankQ n A) nf).bind fun l =>
      .ok ⟨n, k, A, strs, nf, xRankQ n A, l.1, l.2⟩ := by
    unfold stabInit
    simp only [hA, ok_bind', isStabilizerCode_eq hc, pyAssert, hcom, decide_true, if_true, hS, hN]
    rfl
  have her := e.rows
  constructor
  · intro hrk
    obtain ⟨nf', hN', hshape⟩ := standardNormalForm_shape hc hp hk hb hcom hind hrk
    rw [hN] at hN'
    simp only [Except.ok.injEq, Prod.mk.injEq] at hN'
    obtain ⟨rfl, -⟩ := hN'
    rw [hrun]
    unfold logicalOperators pyAssert
    rw [if_pos (show topLeftIdentity nf (xRankQ n A) by rw [hrk]; exact hshape.upperI)]
    simp only [ok_bind']
    rw [if_neg (by omega)]
    exact ⟨_, rfl⟩
  · intro hne
    rw [hrun]
    unfold logicalOperators pyAssert
    rw [if_neg]
    · rfl
    · intro htop
      have := le_xRank2_of_topLeft (n := n) (by omega) hr1 htop
      rw [e.xRank2] at this
      omega

end PyQ
