import Verif.Lemmas.Constructor
import Mathlib.Tactic.FinCases

/-! # C05, C06, C07, C10: which generators the constructor accepts, and the normal form it computes -/

namespace PyQ

open Spec

/-! ## C05 -/

/-- **C05 (a)**, array input.  If the constructor succeeds, the shape is right and all pairs of rows commute; the object
stores exactly the rows given. -/
theorem C05_array_accepted (l : List (List ℤ)) (n k : ℕ) (lo : Option (Arr ℤ × Arr ℤ)) (c : StabCode)
    (h : stabInit (.rows l) n k lo = .ok c) :
    l.length + k = n ∧ (∀ r ∈ l, r.length = 2 * n) ∧
      (∀ p ∈ l, ∀ q ∈ l, symp (rowPauli n p) (rowPauli n q) = 0) ∧
      (List.range c.stab.rows).map c.stab.row = l ∧ c.n = n ∧ c.k = k := by
  obtain ⟨hA, hcom, -, -, hn, hk, -⟩ := stabInit_ok h
  cases l with
  | nil => simp [initArray] at hA
  | cons r0 rest =>
    unfold initArray at hA
    simp only at hA
    split_ifs at hA with hrag
    simp only [pyAssert] at hA
    split_ifs at hA with h1 h2
    · simp only [ok_bind', pure_ok', Except.ok.injEq] at hA
      have h0 : r0.length = 2 * n := h1
      have hlen : ∀ r ∈ r0 :: rest, r.length = 2 * n := by
        intro r hr
        rcases List.mem_cons.mp hr with rfl | hr
        · exact h0
        · by_contra hne
          exact hrag ⟨r, hr, by omega⟩
      rw [h0] at hA
      refine ⟨h2, hlen, ?_, ?_, hn, hk⟩
      · intro p hp q hq
        obtain ⟨i, hi, rfl⟩ := List.getElem_of_mem hp
        obtain ⟨j, hj, rfl⟩ := List.getElem_of_mem hq
        have := hcom i (by rw [← hA]; exact hi) j (by rw [← hA]; exact hj)
        rw [← hA, rowVec_ofRows, rowVec_ofRows, List.getD_eq_getElem _ _ hi, List.getD_eq_getElem _ _ hj,
          sympV_vec] at this
        exact this
      · rw [← hA]
        apply List.ext_getElem
        · simp [Arr.ofRows]
        · intro i h3 h4
          simp only [List.getElem_map, List.getElem_range]
          exact row_ofRows hlen h4
    all_goals simp at hA

/-- **C05 (b)**, string input.  If the constructor succeeds on strings of length `n`, all pairs commute. -/
theorem C05_strings_accepted (l : List (List Char)) (n k : ℕ) (lo : Option (Arr ℤ × Arr ℤ)) (c : StabCode)
    (hl : ∀ p ∈ l, p.length = n) (hp : ∀ p ∈ l, IsPauliString p)
    (h : stabInit (.strs l) n k lo = .ok c) :
    (∀ p ∈ l, ∀ q ∈ l, symp (rowPauli n (stringRow p)) (rowPauli n (stringRow q)) = 0) ∧
      (List.range c.stab.rows).map c.stab.row = l.map stringRow ∧ c.pauliStab = l ∧ c.n = n ∧ c.k = k := by
  obtain ⟨hA, hcom, hS, -, hn, hk, -⟩ := stabInit_ok h
  have hne : l ≠ [] := by
    rintro rfl
    simp [initArray, pauliStrToBinaryRepresentation] at hA
  rw [initArray_strs_ok hne hl hp] at hA
  simp only [Except.ok.injEq] at hA
  have hlen : ∀ r ∈ l.map stringRow, r.length = 2 * n := by
    intro r hr
    obtain ⟨p, hpm, rfl⟩ := List.mem_map.mp hr
    simp [stringRow, hl p hpm]
    omega
  have hrows : (List.range c.stab.rows).map c.stab.row = l.map stringRow := by
    rw [← hA]
    apply List.ext_getElem
    · simp [Arr.ofRows]
    · intro i h3 h4
      simp only [List.getElem_map, List.getElem_range]
      rw [row_ofRows hlen (by simpa using h4)]
      simp
  refine ⟨?_, hrows, ?_, hn, hk⟩
  · intro p hpm q hqm
    obtain ⟨i, hi, rfl⟩ := List.getElem_of_mem hpm
    obtain ⟨j, hj, rfl⟩ := List.getElem_of_mem hqm
    have := hcom i (by rw [← hA]; simpa [Arr.ofRows] using hi) j (by rw [← hA]; simpa [Arr.ofRows] using hj)
    rw [← hA, rowVec_ofRows, rowVec_ofRows, List.getD_eq_getElem _ _ (by simpa using hi),
      List.getD_eq_getElem _ _ (by simpa using hj), sympV_vec] at this
    simpa using this
  · obtain ⟨rows, h1, -, -, h4⟩ := C01_string_roundtrip n l hne hl hp
    rw [pauliStr_rows hne hl hp] at h1
    simp only [Except.ok.injEq] at h1
    have h5 : ((List.range c.stab.rows).map c.stab.row).mapM binaryRepToPauliStr = .ok c.pauliStab := by
      rw [← hS, List.mapM_map]
      rfl
    rw [hrows, h1, h4] at h5
    simpa using h5.symm

/-- **C05 (c)**.  Array input with a wrong number of columns or of rows gives `AssertionError`. -/
theorem C05_array_wrong_shape (l : List (List ℤ)) (m n k : ℕ) (lo : Option (Arr ℤ × Arr ℤ)) (hne : l ≠ [])
    (hl : ∀ r ∈ l, r.length = m) (hbad : m ≠ 2 * n ∨ l.length + k ≠ n) :
    stabInit (.rows l) n k lo = .error .assertion := by
  cases l with
  | nil => exact absurd rfl hne
  | cons r0 rest =>
    have h0 : r0.length = m := hl r0 (by simp)
    have : initArray (.rows (r0 :: rest)) n k = .error .assertion := by
      unfold initArray
      simp only
      rw [if_neg]
      · simp only [pyAssert, Arr.ofRows, h0]
        by_cases hm : m = 2 * n
        · rw [if_pos hm, if_neg (by omega)]; rfl
        · rw [if_neg hm]; rfl
      · rintro ⟨r, hr, hne⟩
        exact hne (by rw [hl r (by simp [hr]), h0])
    unfold stabInit
    rw [this]
    rfl

/-- **C05**.  Without generators the constructor raises `IndexError`, and so it does for rows of different lengths. -/
theorem C05_empty_or_ragged (n k : ℕ) (lo : Option (Arr ℤ × Arr ℤ)) :
    stabInit (.strs []) n k lo = .error .index ∧ stabInit (.rows []) n k lo = .error .index ∧
      ∀ l : List (List ℤ), (∃ r ∈ l, ∃ s ∈ l, r.length ≠ s.length) → stabInit (.rows l) n k lo = .error .index := by
  refine ⟨rfl, rfl, fun l ⟨r, hr, s, hs, hne⟩ => ?_⟩
  cases l with
  | nil => cases hr
  | cons r0 rest =>
    have hA : initArray (.rows (r0 :: rest)) n k = .error .index := by
      unfold initArray
      simp only
      rw [if_pos]
      by_contra h
      push Not at h
      have h' : ∀ t ∈ r0 :: rest, t.length = r0.length := by
        intro t ht
        rcases List.mem_cons.mp ht with rfl | ht
        · rfl
        · exact h t ht
      exact hne ((h' r hr).trans (h' s hs).symm)
    unfold stabInit
    rw [hA]
    rfl

/-- **C05 (d)**.  Input of the right shape with a pair of anticommuting generators gives `AssertionError`. -/
theorem C05_array_anticommuting (l : List (List ℤ)) (n k : ℕ) (lo : Option (Arr ℤ × Arr ℤ))
    (hl : ∀ r ∈ l, r.length = 2 * n) (hk : l.length + k = n)
    (hbad : ∃ p ∈ l, ∃ q ∈ l, symp (rowPauli n p) (rowPauli n q) = 1) :
    stabInit (.rows l) n k lo = .error .assertion := by
  obtain ⟨p, hp, q, hq, hs⟩ := hbad
  have hA := initArray_rows_ok (n := n) (k := k) (l := l) (List.ne_nil_of_mem hp) hl hk
  unfold stabInit
  have hncom : ¬ Commuting n (Arr.ofRows (2 * n) l) := by
    intro hcom
    obtain ⟨i, hi, rfl⟩ := List.getElem_of_mem hp
    obtain ⟨j, hj, rfl⟩ := List.getElem_of_mem hq
    have := hcom i hi j hj
    rw [rowVec_ofRows, rowVec_ofRows, List.getD_eq_getElem _ _ hi, List.getD_eq_getElem _ _ hj, sympV_vec, hs] at this
    exact one_ne_zero this
  simp only [hA, ok_bind', isStabilizerCode_eq (n := n) (A := Arr.ofRows (2 * n) l) rfl, pyAssert, hncom]
  rfl

/-- **C05 (e)**.  The same for strings. -/
theorem C05_strings_anticommuting (l : List (List Char)) (n k : ℕ) (lo : Option (Arr ℤ × Arr ℤ))
    (hl : ∀ p ∈ l, p.length = n) (hP : ∀ p ∈ l, IsPauliString p)
    (hbad : ∃ p ∈ l, ∃ q ∈ l, symp (rowPauli n (stringRow p)) (rowPauli n (stringRow q)) = 1) :
    stabInit (.strs l) n k lo = .error .assertion := by
  obtain ⟨p, hp, q, hq, hs⟩ := hbad
  have hA := initArray_strs_ok (n := n) (k := k) (l := l) (List.ne_nil_of_mem hp) hl hP
  unfold stabInit
  have hncom : ¬ Commuting n (Arr.ofRows (2 * n) (l.map stringRow)) := by
    intro hcom
    obtain ⟨i, hi, rfl⟩ := List.getElem_of_mem hp
    obtain ⟨j, hj, rfl⟩ := List.getElem_of_mem hq
    have := hcom i (by simpa [Arr.ofRows] using hi) j (by simpa [Arr.ofRows] using hj)
    rw [rowVec_ofRows, rowVec_ofRows, List.getD_eq_getElem _ _ (by simpa using hi),
      List.getD_eq_getElem _ _ (by simpa using hj), sympV_vec] at this
    rw [List.getElem_map, List.getElem_map, hs] at this
    exact one_ne_zero this
  simp only [hA, ok_bind', isStabilizerCode_eq (n := n) (A := Arr.ofRows (2 * n) (l.map stringRow)) rfl, pyAssert, hncom]
  rfl

/-- XXI, ZII anticommute and have the right shape; XXI with `n = 4` has a wrong shape. -/
example : (∀ r ∈ [[1, 1, 0, 0, 0, 0], [0, 0, 0, 1, 0, 0]], r.length = 2 * 3) ∧
    symp (rowPauli 3 [1, 1, 0, 0, 0, 0]) (rowPauli 3 [0, 0, 0, 1, 0, 0]) = 1 ∧
    symp (rowPauli 3 (stringRow ['X', 'X', 'I'])) (rowPauli 3 (stringRow ['Z', 'I', 'I'])) = 1 ∧ (6 ≠ 2 * 4) := by
  decide

/-! ## C06 -/

/-- **C06**.  The rows obtained by iterating over a constructed code generate the same group as the generators stored at
construction, up to one relabelling of the qubits; there are as many rows, and they commute pairwise. -/
theorem C06_normal_form_same_group (s : StabInput) (n k : ℕ) (lo : Option (Arr ℤ × Arr ℤ)) (c : StabCode)
    (h : stabInit s n k lo = .ok c) :
    (∃ σ : Equiv.Perm (Fin n), groupOf n c.iter =
        (groupOf n ((List.range c.stab.rows).map c.stab.row)).map (relabel σ).toLinearMap) ∧
      c.iter.length = c.stab.rows ∧ (∀ r ∈ c.iter, r.length = 2 * n) ∧
      (∀ p ∈ c.iter, ∀ q ∈ c.iter, symp (rowPauli n p) (rowPauli n q) = 0) := by
  obtain ⟨hA, hcom, -, hN, -⟩ := stabInit_ok h
  have hc := initArray_cols hA
  obtain ⟨e, -⟩ := standardNormalForm_equi hc hN
  have hc' : c.normalForm.cols = 2 * n := by rw [e.cols, hc]
  refine ⟨?_, ?_, ?_, ?_⟩
  · obtain ⟨σ, hσ⟩ := e.span
    refine ⟨σ, ?_⟩
    unfold StabCode.iter
    rw [groupOf_rows hc, groupOf_rows hc', hσ]
  · simp [StabCode.iter, e.rows]
  · intro r hr
    simp only [StabCode.iter, List.mem_map, List.mem_range] at hr
    obtain ⟨i, _, rfl⟩ := hr
    simp [Arr.row, hc']
  · intro p hp q hq
    simp only [StabCode.iter, List.mem_map, List.mem_range] at hp hq
    obtain ⟨i, hi, rfl⟩ := hp
    obtain ⟨j, hj, rfl⟩ := hq
    have := e.commuting hcom i hi j hj
    rw [← rowPauli_row hc', ← rowPauli_row hc', sympV_vec] at this
    exact this

/-! ## C07 and C10 -/

/-- **C07**.  For commuting independent 0/1 generators whose X half has the same rank over the rationals and modulo two,
the normal form of the constructed code has the documented block shape. -/
theorem C07_normal_form_shape (s : StabInput) (n k : ℕ) (lo : Option (Arr ℤ × Arr ℤ)) (c : StabCode)
    (h : stabInit s n k lo = .ok c) (hk : c.stab.rows + k = n) (hb : BinaryArr c.stab)
    (hind : Independent n c.stab) (hrk : xRankQ n c.stab = xRank2 n c.stab) :
    NormalShape n k c.rank c.normalForm ∧ c.rank = xRank2 n c.stab := by
  obtain ⟨hA, hcom, -, hN, -⟩ := stabInit_ok h
  obtain ⟨nf, hN', hsh⟩ := standardNormalForm_shape (initArray_cols hA) (initArray_rows_pos hA) hk hb hcom hind hrk
  rw [hN] at hN'
  simp only [Except.ok.injEq, Prod.mk.injEq] at hN'
  rw [hN'.1, hN'.2]
  exact ⟨hsh, rfl⟩

/-- **C07**, default logical operators.  Acceptance alone already implies that the ranks agree, so every accepted
independent 0/1 generator set has a normal form of the documented shape. -/
theorem C07_accepted_shape (s : StabInput) (n k : ℕ) (c : StabCode)
    (h : stabInit s n k none = .ok c) (hb : BinaryArr c.stab) (hind : Independent n c.stab) :
    NormalShape n k c.rank c.normalForm ∧ c.rank = xRank2 n c.stab := by
  obtain ⟨hA, hcom, -, hN, -, -, hL, -⟩ := stabInit_ok h
  have hc := initArray_cols hA
  obtain ⟨e, hr⟩ := standardNormalForm_equi hc hN
  have hL := hL rfl
  unfold logicalOperators pyAssert at hL
  split_ifs at hL with h1 h2
  · simp at hL
  · have hrows : c.stab.rows + k = n := by rw [← e.rows]; omega
    refine C07_normal_form_shape s n k none c h hrows hb hind ?_
    have := le_xRank2_of_topLeft (n := n) (by rw [hr, e.rows]; exact xRankQ_le_rows _) (by rw [hr]; exact xRankQ_le_n _) h1
    rw [e.xRank2, hr] at this
    exact le_antisymm this (xRank2_le_Q _)
  all_goals simp at hL

/-- **C10**, the exact characterisation, for array input.  `n - k` commuting, independent 0/1 generators of the right
length are accepted when the rank of the X half over the rationals equals its rank modulo two; otherwise the constructor
raises `AssertionError`.  (The property asks for acceptance in all cases; see `C10_refuted`.) -/
theorem C10_array_accepted_iff_partial (l : List (List ℤ)) (n k : ℕ) (hne : l ≠ []) (hl : ∀ r ∈ l, r.length = 2 * n)
    (hk : l.length + k = n) (hb : ∀ r ∈ l, IsBinary r)
    (hcom : ∀ p ∈ l, ∀ q ∈ l, symp (rowPauli n p) (rowPauli n q) = 0)
    (hind : LinearIndependent (ZMod 2) fun i : Fin l.length => (rowPauli n l[i]).vec) :
    (xRankQ n (Arr.ofRows (2 * n) l) = xRank2 n (Arr.ofRows (2 * n) l) →
      ∃ c, stabInit (.rows l) n k none = .ok c) ∧
    (xRankQ n (Arr.ofRows (2 * n) l) ≠ xRank2 n (Arr.ofRows (2 * n) l) →
      stabInit (.rows l) n k none = .error .assertion) := by
  refine stabInit_none (initArray_rows_ok hne hl hk) hk (ofRows_binary hb) ?_ ?_
  · intro i hi j hj
    have hi' : i < l.length := hi
    have hj' : j < l.length := hj
    rw [rowVec_ofRows, rowVec_ofRows, List.getD_eq_getElem _ _ hi', List.getD_eq_getElem _ _ hj']
    exact hcom _ (List.getElem_mem hi') _ (List.getElem_mem hj')
  · unfold Independent
    have h1 : (fun i : Fin l.length => rowVec n (Arr.ofRows (2 * n) l) i) = fun i => (rowPauli n l[i]).vec := by
      funext i
      rw [rowVec_ofRows, List.getD_eq_getElem _ _ (show i.val < l.length from i.2)]
      rfl
    rw [← h1] at hind
    exact hind

/-- **C10**, the same for strings. -/
theorem C10_strings_accepted_iff_partial (l : List (List Char)) (n k : ℕ) (hne : l ≠ []) (hl : ∀ p ∈ l, p.length = n)
    (hp : ∀ p ∈ l, IsPauliString p) (hk : l.length + k = n)
    (hcom : ∀ p ∈ l, ∀ q ∈ l, symp (rowPauli n (stringRow p)) (rowPauli n (stringRow q)) = 0)
    (hind : LinearIndependent (ZMod 2) fun i : Fin l.length => (rowPauli n (stringRow l[i])).vec) :
    (xRankQ n (Arr.ofRows (2 * n) (l.map stringRow)) = xRank2 n (Arr.ofRows (2 * n) (l.map stringRow)) →
      ∃ c, stabInit (.strs l) n k none = .ok c) ∧
    (xRankQ n (Arr.ofRows (2 * n) (l.map stringRow)) ≠ xRank2 n (Arr.ofRows (2 * n) (l.map stringRow)) →
      stabInit (.strs l) n k none = .error .assertion) := by
  have hrows : (Arr.ofRows (2 * n) (l.map stringRow)).rows = l.length := by simp [Arr.ofRows]
  refine stabInit_none (initArray_strs_ok hne hl hp) (by omega)
    (ofRows_binary (by simp only [List.mem_map]; rintro r ⟨p, _, rfl⟩; exact stringRow_binary)) ?_ ?_
  · intro i hi j hj
    rw [hrows] at hi hj
    rw [rowVec_ofRows, rowVec_ofRows, List.getD_eq_getElem _ _ (by simpa using hi),
      List.getD_eq_getElem _ _ (by simpa using hj), List.getElem_map, List.getElem_map]
    exact hcom _ (List.getElem_mem hi) _ (List.getElem_mem hj)
  · unfold Independent
    have h1 := LinearIndependent.comp hind (finCongr hrows) (finCongr hrows).injective
    have h2 : (fun i : Fin (Arr.ofRows (2 * n) (l.map stringRow)).rows => rowVec n (Arr.ofRows (2 * n) (l.map stringRow)) i)
        = (fun i : Fin l.length => (rowPauli n (stringRow l[i])).vec) ∘ finCongr hrows := by
      funext i
      have hi : i.val < l.length := by rw [← hrows]; exact i.2
      rw [rowVec_ofRows, List.getD_eq_getElem _ _ (by simpa using hi), List.getElem_map]
      rfl
    rw [h2]
    exact h1

/-- The generators XXII, XIXI, ZYYI. -/
def badGens : List (List ℤ) := [[1, 1, 0, 0, 0, 0, 0, 0], [1, 0, 1, 0, 0, 0, 0, 0], [0, 1, 1, 0, 1, 1, 1, 0]]

/-- **C10 refuted**.  XXII, XIXI, ZYYI on four qubits are three commuting, independent generators, but the constructor
raises `AssertionError`: the X half has rank three over the rationals and two modulo two. -/
theorem C10_refuted :
    (∀ p ∈ badGens, ∀ q ∈ badGens, symp (rowPauli 4 p) (rowPauli 4 q) = 0) ∧
    (LinearIndependent (ZMod 2) fun i : Fin badGens.length => (rowPauli 4 badGens[i]).vec) ∧
    stabInit (.rows badGens) 4 1 none = .error .assertion := by
  have hcom : ∀ p ∈ badGens, ∀ q ∈ badGens, symp (rowPauli 4 p) (rowPauli 4 q) = 0 := by decide
  have hind : LinearIndependent (ZMod 2) fun i : Fin badGens.length => (rowPauli 4 badGens[i]).vec := by
    show LinearIndependent (ZMod 2) fun i : Fin 3 => (rowPauli 4 (badGens[i.val]'i.2)).vec
    rw [Fintype.linearIndependent_iff]
    intro g hg i
    rw [Fin.sum_univ_three] at hg
    have h1 := congrFun (congrArg Prod.fst hg) 1
    have h2 := congrFun (congrArg Prod.fst hg) 2
    have h3 := congrFun (congrArg Prod.snd hg) 0
    simp [badGens, rowPauli, Pauli.vec] at h1 h2 h3
    rw [h3] at h1 h2
    fin_cases i
    · simpa using h1
    · simpa using h2
    · exact h3
  refine ⟨hcom, hind, ?_⟩
  refine (C10_array_accepted_iff_partial badGens 4 1 (by decide) (by decide) (by decide) ?_ hcom hind).2 ?_
  · unfold IsBinary; decide
  · have hq : xRankQ 4 (Arr.ofRows (2 * 4) badGens) = 3 := by
      unfold xRankQ
      have : LinearIndependent ℚ (Matrix.of fun (i : Fin 3) (j : Fin 4) =>
          (((Arr.ofRows (2 * 4) badGens).get i j : ℤ) : ℚ)).row := by
        rw [Fintype.linearIndependent_iff]
        intro g hg i
        rw [Fin.sum_univ_three] at hg
        have h1 := congrFun hg 0
        have h2 := congrFun hg 1
        have h3 := congrFun hg 2
        simp [badGens, Arr.ofRows, Matrix.row] at h1 h2 h3
        fin_cases i
        · show g 0 = 0; linarith
        · show g 1 = 0; linarith
        · show g 2 = 0; linarith
      have h := this.rank_matrix
      rw [Fintype.card_fin] at h
      exact h
    have h2 : xRank2 4 (Arr.ofRows (2 * 4) badGens) ≤ 2 := by
      by_contra hlt
      push Not at hlt
      unfold xRank2 at hlt
      rw [Matrix.rank_eq_finrank_span_row] at hlt
      set M : Matrix (Fin 3) (Fin 4) (ZMod 2) := Matrix.of fun (i : Fin 3) (j : Fin 4) =>
        (((Arr.ofRows (2 * 4) badGens).get i j : ℤ) : ZMod 2) with hM
      have hlt' : 2 < Module.finrank (ZMod 2) (Submodule.span (ZMod 2) (Set.range M.row)) := hlt
      have hle := finrank_range_le_card (R := ZMod 2) M.row
      have hli : LinearIndependent (ZMod 2) M.row := by
        rw [linearIndependent_iff_card_le_finrank_span]
        simp only [Set.finrank, Fintype.card_fin]
        omega
      have h5 := (Fintype.linearIndependent_iff.mp hli) (fun _ => 1) (by
        ext j
        rw [Fin.sum_univ_three]
        fin_cases j <;> decide) 0
      exact one_ne_zero h5
    omega

/-- The hypotheses of the C06, C07, C10 theorems are met by the repetition code ZZI, IZZ: it is accepted. -/
example : ∃ c, stabInit (.rows [[0, 0, 0, 1, 1, 0], [0, 0, 0, 0, 1, 1]]) 3 1 none = .ok c ∧
    BinaryArr c.stab ∧ Independent 3 c.stab ∧ NormalShape 3 1 c.rank c.normalForm := by
  have hA := initArray_rows_ok (n := 3) (k := 1) (l := [[0, 0, 0, 1, 1, 0], [0, 0, 0, 0, 1, 1]]) (by decide) (by decide) (by decide)
  have hb : BinaryArr (Arr.ofRows (2 * 3) [[0, 0, 0, 1, 1, 0], [0, 0, 0, 0, 1, 1]]) :=
    ofRows_binary (by unfold IsBinary; decide)
  have hind : Independent 3 (Arr.ofRows (2 * 3) [[0, 0, 0, 1, 1, 0], [0, 0, 0, 0, 1, 1]]) := by
    show LinearIndependent (ZMod 2) fun i : Fin 2 => rowVec 3 (Arr.ofRows (2 * 3) [[0, 0, 0, 1, 1, 0], [0, 0, 0, 0, 1, 1]]) i
    rw [Fintype.linearIndependent_iff]
    intro g hg i
    rw [Fin.sum_univ_two] at hg
    have h1 := congrFun (congrArg Prod.snd hg) 0
    have h2 := congrFun (congrArg Prod.snd hg) 2
    simp [rowVec, Arr.ofRows] at h1 h2
    fin_cases i
    · exact h1
    · exact h2
  have hz : ∀ (R : Type) [CommRing R], (Matrix.of fun (i : Fin 2) (j : Fin 3) =>
      (((Arr.ofRows (2 * 3) [[0, 0, 0, 1, 1, 0], [0, 0, 0, 0, 1, 1]]).get i j : ℤ) : R)) = 0 := by
    intro R _
    ext i j
    fin_cases i <;> fin_cases j <;> simp [Arr.ofRows]
  have hrk : xRankQ 3 (Arr.ofRows (2 * 3) [[0, 0, 0, 1, 1, 0], [0, 0, 0, 0, 1, 1]]) = xRank2 3 (Arr.ofRows (2 * 3) [[0, 0, 0, 1, 1, 0], [0, 0, 0, 0, 1, 1]]) := by
    have h1 : xRankQ 3 (Arr.ofRows (2 * 3) [[0, 0, 0, 1, 1, 0], [0, 0, 0, 0, 1, 1]]) = 0 := by
      unfold xRankQ; erw [hz ℚ]; exact Matrix.rank_zero
    have h2 : xRank2 3 (Arr.ofRows (2 * 3) [[0, 0, 0, 1, 1, 0], [0, 0, 0, 0, 1, 1]]) = 0 := by
      unfold xRank2; erw [hz (ZMod 2)]; exact Matrix.rank_zero
    rw [h1, h2]
  obtain ⟨c, hc⟩ := (stabInit_none hA (by rfl) hb (by decide) hind).1 hrk
  have hst := (stabInit_ok hc).1
  rw [hA] at hst
  simp only [Except.ok.injEq] at hst
  rw [hst] at hb hind
  exact ⟨c, hc, hb, hind, (C07_accepted_shape _ _ _ c hc hb hind).1⟩

end PyQ
