import Verif.Lemmas.Logical
import Verif.Props.Constructor

/-! # C08, C09: the logical operators chosen by the constructor -/

namespace PyQ

open Spec

/-- The logical operators of an accepted code are those of its normal form, which has the documented shape. -/
theorem accepted_logical {s : StabInput} {n k : ℕ} {c : StabCode} (h : stabInit s n k none = .ok c)
    (hb : BinaryArr c.stab) (hind : Independent n c.stab) :
    NormalShape n k c.rank c.normalForm ∧ c.logicalX = logicalXOf n k c.rank c.normalForm ∧
      c.logicalZ = logicalZOf n k c.rank c.normalForm := by
  have hsh := (C07_accepted_shape s n k c h hb hind).1
  refine ⟨hsh, ?_⟩
  have hL := (stabInit_ok h).2.2.2.2.2.2.1 rfl
  unfold logicalOperators pyAssert at hL
  rw [if_pos (show topLeftIdentity c.normalForm c.rank from hsh.upperI), ok_bind', if_neg (by have := hsh.rows; omega)] at hL
  simp only [pure_ok', Except.ok.injEq, Prod.mk.injEq] at hL
  exact ⟨hL.1.symm, hL.2.symm⟩

/-- **C08**.  For every accepted code with independent 0/1 generators: there are `k` logical X and `k` logical Z operators,
all 0/1 rows of length `2n`; each commutes with every row of the normal form; `X_i` and `Z_j` anticommute exactly for
`i = j`; the `X_i` commute with each other and so do the `Z_i`. -/
theorem C08_logical_operators (s : StabInput) (n k : ℕ) (c : StabCode) (h : stabInit s n k none = .ok c)
    (hb : BinaryArr c.stab) (hind : Independent n c.stab) :
    c.logicalX.rows = k ∧ c.logicalX.cols = 2 * n ∧ c.logicalZ.rows = k ∧ c.logicalZ.cols = 2 * n ∧
    BinaryArr c.logicalX ∧ BinaryArr c.logicalZ ∧
    (∀ i < k, ∀ g ∈ c.iter, symp (rowPauli n (c.logicalX.row i)) (rowPauli n g) = 0 ∧
      symp (rowPauli n (c.logicalZ.row i)) (rowPauli n g) = 0) ∧
    (∀ i < k, ∀ j < k,
      symp (rowPauli n (c.logicalX.row i)) (rowPauli n (c.logicalZ.row j)) = (if i = j then 1 else 0) ∧
      symp (rowPauli n (c.logicalX.row i)) (rowPauli n (c.logicalX.row j)) = 0 ∧
      symp (rowPauli n (c.logicalZ.row i)) (rowPauli n (c.logicalZ.row j)) = 0) := by
  obtain ⟨hsh, hX, hZ⟩ := accepted_logical h hb hind
  obtain ⟨x1, x2⟩ := lx_shape hsh
  obtain ⟨z1, z2⟩ := lz_shape hsh
  rw [hX, hZ]
  refine ⟨x1, x2, z1, z2, lx_binary hsh, lz_binary hsh, ?_, ?_⟩
  · intro i hi g hg
    simp only [StabCode.iter, List.mem_map, List.mem_range] at hg
    obtain ⟨a, ha, rfl⟩ := hg
    rw [← sympV_vec, ← sympV_vec, rowPauli_row x2, rowPauli_row z2, rowPauli_row hsh.cols]
    exact ⟨lx_comm_nf hsh hi ha, lz_comm_nf hsh hi ha⟩
  · intro i hi j hj
    rw [← sympV_vec, ← sympV_vec, ← sympV_vec, rowPauli_row x2, rowPauli_row x2, rowPauli_row z2, rowPauli_row z2]
    exact ⟨lx_lz hsh hi hj, lx_lx hsh i j, lz_lz i j⟩

/-- **C08**, no exception from numpy: in `logical_operators` of an accepted code the product `e.T.dot(c1.T)` is of conforming
shapes, `c2.T` has the shape of the product, and all pieces stacked side by side have `k` rows; their widths add up to `2n`. -/
theorem C08_shapes (s : StabInput) (n k : ℕ) (c : StabCode) (h : stabInit s n k none = .ok c)
    (hb : BinaryArr c.stab) (hind : Independent n c.stab) :
    let e := blockE n k c.rank c.normalForm
    let c1 := blockC1 n k c.rank c.normalForm
    let c2 := blockC2 n k c.rank c.normalForm
    let a2 := blockA2 n k c.rank c.normalForm
    ∃ p, e.transpose.dot c1.transpose = .ok p ∧ p.rows = k ∧ p.cols = c.rank ∧
      c2.transpose.rows = k ∧ c2.transpose.cols = c.rank ∧ e.transpose.rows = k ∧ a2.transpose.rows = k ∧
      c.rank + e.transpose.cols + k + p.cols + (n - c.rank) = 2 * n ∧
      n + a2.transpose.cols + (n - k - c.rank) + k = 2 * n := by
  obtain ⟨hsh, -, -⟩ := accepted_logical h hb hind
  have h1 := hsh.rows
  have h2 := hsh.rank_le
  intro e c1 c2 a2
  have e1 : e.transpose.cols = c1.transpose.rows := by
    show c.normalForm.rows - c.rank = 2 * n - k - (n + c.rank)
    omega
  refine ⟨_, by unfold Arr.dot; rw [if_pos e1], ?_, rfl, ?_, rfl, ?_, ?_, ?_, ?_⟩
  · show 2 * n - (2 * n - k) = k; omega
  · show 2 * n - (2 * n - k) = k; omega
  · show 2 * n - (2 * n - k) = k; omega
  · show n - (n - k) = k; omega
  · show c.rank + (c.normalForm.rows - c.rank) + k + (c.rank - 0) + (n - c.rank) = 2 * n; omega
  · show n + (c.rank - 0) + (n - k - c.rank) + k = 2 * n; omega

theorem mem_groupOf {n : ℕ} {rows : List (List ℤ)} {g : List ℤ} (h : g ∈ rows) : (rowPauli n g).vec ∈ groupOf n rows := by
  apply Submodule.subset_span
  rw [Set.mem_ofPred_eq]
  exact ⟨g, h, rfl⟩

theorem symp_group {n : ℕ} {rows : List (List ℤ)} {v : BVec n} (h : ∀ g ∈ rows, sympV v (rowPauli n g).vec = 0) :
    ∀ u ∈ groupOf n rows, sympV v u = 0 := by
  intro u hu
  unfold groupOf at hu
  induction hu using Submodule.span_induction with
  | zero => exact sympV_zero_right _
  | add x y _ _ hx hy => rw [sympV_add_right, hx, hy, add_zero]
  | smul c x _ hx => rw [sympV_smul_right, hx, mul_zero]
  | mem x hx => obtain ⟨g, hg, rfl⟩ := hx; exact h g hg

/-- **C09, partial (a)**.  The logical operators commute with the generators given by the user after some relabelling of
the qubits (the one the elimination used).  Missing for C09: commutation without the relabelling. -/
theorem C09_relabelled_partial (s : StabInput) (n k : ℕ) (c : StabCode) (h : stabInit s n k none = .ok c)
    (hb : BinaryArr c.stab) (hind : Independent n c.stab) :
    ∃ σ : Equiv.Perm (Fin n), groupOf n c.iter =
        (groupOf n ((List.range c.stab.rows).map c.stab.row)).map (relabel σ).toLinearMap ∧
      ∀ i < k, ∀ a < c.stab.rows,
        sympV (rowPauli n (c.logicalX.row i)).vec (relabel σ (rowPauli n (c.stab.row a)).vec) = 0 ∧
        sympV (rowPauli n (c.logicalZ.row i)).vec (relabel σ (rowPauli n (c.stab.row a)).vec) = 0 := by
  obtain ⟨σ, hσ⟩ := (C06_normal_form_same_group s n k none c h).1
  have hcom := (C08_logical_operators s n k c h hb hind).2.2.2.2.2.2.1
  refine ⟨σ, hσ, ?_⟩
  intro i hi a ha
  have hmem : relabel σ (rowPauli n (c.stab.row a)).vec ∈ groupOf n c.iter := by
    rw [hσ]
    exact Submodule.mem_map_of_mem (mem_groupOf (List.mem_map_of_mem (List.mem_range.mpr ha)))
  have h1 : ∀ g ∈ c.iter, sympV (rowPauli n (c.logicalX.row i)).vec (rowPauli n g).vec = 0 := fun g hg => (hcom i hi g hg).1
  have h2 : ∀ g ∈ c.iter, sympV (rowPauli n (c.logicalZ.row i)).vec (rowPauli n g).vec = 0 := fun g hg => (hcom i hi g hg).2
  exact ⟨symp_group h1 _ hmem, symp_group h2 _ hmem⟩

/-- **C09, partial (b)**.  If the normal form generates the same group as the generators given (no qubit was moved, or the
moves preserve the group), all logical operators commute with all generators given.  Missing for C09: the codes for which
the elimination moves qubits; there the claim fails, see `C09_refuted`. -/
theorem C09_same_group_partial (s : StabInput) (n k : ℕ) (c : StabCode) (h : stabInit s n k none = .ok c)
    (hb : BinaryArr c.stab) (hind : Independent n c.stab)
    (hsame : groupOf n c.iter = groupOf n ((List.range c.stab.rows).map c.stab.row)) :
    ∀ i < k, ∀ a < c.stab.rows,
      symp (rowPauli n (c.logicalX.row i)) (rowPauli n (c.stab.row a)) = 0 ∧
      symp (rowPauli n (c.logicalZ.row i)) (rowPauli n (c.stab.row a)) = 0 := by
  have hcom := (C08_logical_operators s n k c h hb hind).2.2.2.2.2.2.1
  intro i hi a ha
  have hmem : (rowPauli n (c.stab.row a)).vec ∈ groupOf n c.iter := by
    rw [hsame]
    exact mem_groupOf (List.mem_map_of_mem (List.mem_range.mpr ha))
  have h1 : ∀ g ∈ c.iter, sympV (rowPauli n (c.logicalX.row i)).vec (rowPauli n g).vec = 0 := fun g hg => (hcom i hi g hg).1
  have h2 : ∀ g ∈ c.iter, sympV (rowPauli n (c.logicalZ.row i)).vec (rowPauli n g).vec = 0 := fun g hg => (hcom i hi g hg).2
  rw [← sympV_vec, ← sympV_vec]
  exact ⟨symp_group h1 _ hmem, symp_group h2 _ hmem⟩

/-- The X half of the single generator IXX has rank one. -/
theorem ixx_rank (R : Type) [Field R] :
    (Matrix.of fun (i : Fin 1) (j : Fin 3) => (((Arr.ofRows (2 * 3) [[0, 1, 1, 0, 0, 0]]).get i j : ℤ) : R)).rank = 1 := by
  have : LinearIndependent R (Matrix.of fun (i : Fin 1) (j : Fin 3) =>
      (((Arr.ofRows (2 * 3) [[0, 1, 1, 0, 0, 0]]).get i j : ℤ) : R)).row := by
    rw [Fintype.linearIndependent_iff]
    intro g hg i
    rw [Fin.sum_univ_one] at hg
    have h1 := congrFun hg 1
    simp [Arr.ofRows, Matrix.row] at h1
    rw [Subsingleton.elim i 0]; exact h1
  have h := this.rank_matrix
  rwa [Fintype.card_fin] at h

/-- **C09 refuted**.  The code with the single generator IXX on three qubits is accepted with default logical operators,
but its first logical Z operator, Z on qubit 1, anticommutes with IXX. -/
theorem C09_refuted :
    ∃ c, stabInit (.rows [[0, 1, 1, 0, 0, 0]]) 3 2 none = .ok c ∧ BinaryArr c.stab ∧ Independent 3 c.stab ∧
      c.stab.row 0 = [0, 1, 1, 0, 0, 0] ∧ c.logicalZ.row 0 = [0, 0, 0, 0, 1, 0] ∧
      symp (rowPauli 3 (c.logicalZ.row 0)) (rowPauli 3 (c.stab.row 0)) = 1 := by
  have hA := initArray_rows_ok (n := 3) (k := 2) (l := [[0, 1, 1, 0, 0, 0]]) (by decide) (by decide) (by decide)
  have hb : BinaryArr (Arr.ofRows (2 * 3) [[0, 1, 1, 0, 0, 0]]) := ofRows_binary (by unfold IsBinary; decide)
  have hind : Independent 3 (Arr.ofRows (2 * 3) [[0, 1, 1, 0, 0, 0]]) := by
    show LinearIndependent (ZMod 2) fun i : Fin 1 => rowVec 3 (Arr.ofRows (2 * 3) [[0, 1, 1, 0, 0, 0]]) i
    rw [Fintype.linearIndependent_iff]
    intro g hg i
    rw [Fin.sum_univ_one] at hg
    have h1 := congrFun (congrArg Prod.fst hg) 1
    simp [rowVec, Arr.ofRows] at h1
    rw [Subsingleton.elim i 0]; exact h1
  have hQ : xRankQ 3 (Arr.ofRows (2 * 3) [[0, 1, 1, 0, 0, 0]]) = 1 := ixx_rank ℚ
  have h2 : xRank2 3 (Arr.ofRows (2 * 3) [[0, 1, 1, 0, 0, 0]]) = 1 := ixx_rank (ZMod 2)
  obtain ⟨c, hc⟩ := (stabInit_none hA (by rfl) hb (by decide) hind).1 (by rw [hQ, h2])
  obtain ⟨hst, -, -, hN, -⟩ := stabInit_ok hc
  rw [hA] at hst
  simp only [Except.ok.injEq] at hst
  rw [← hst] at hN
  unfold standardNormalForm at hN
  rw [matrixRank_ok (by decide) (by decide)] at hN
  simp only [npRank_x, hQ, ok_bind'] at hN
  have hsb : secondBlock 3 2 1 (firstBlock 3 1 (Arr.ofRows (2 * 3) [[0, 1, 1, 0, 0, 0]]))
      = .ok (firstBlock 3 1 (Arr.ofRows (2 * 3) [[0, 1, 1, 0, 0, 0]])) := by
    unfold secondBlock
    rw [if_pos (by decide)]
  rw [hsb] at hN
  simp only [ok_bind', pure_ok', Except.ok.injEq, Prod.mk.injEq] at hN
  have hb' : BinaryArr c.stab := by rw [← hst]; exact hb
  have hind' : Independent 3 c.stab := by rw [← hst]; exact hind
  obtain ⟨-, -, hZ⟩ := accepted_logical hc hb' hind'
  have hrow : c.stab.row 0 = [0, 1, 1, 0, 0, 0] := by rw [← hst]; rfl
  have hzrow : c.logicalZ.row 0 = [0, 0, 0, 0, 1, 0] := by
    rw [hZ, ← hN.1, ← hN.2]
    decide
  refine ⟨c, hc, hb', hind', hrow, hzrow, ?_⟩
  rw [hrow, hzrow]
  decide

/-- The hypotheses of C08 and of C09 (partial) are met by the code of the single generator IXX, see `C09_refuted`, and by
the repetition code, see `Props/Constructor`. -/
example : ∃ c, stabInit (.rows [[0, 1, 1, 0, 0, 0]]) 3 2 none = .ok c ∧ BinaryArr c.stab ∧ Independent 3 c.stab := by
  obtain ⟨c, h1, h2, h3, -⟩ := C09_refuted
  exact ⟨c, h1, h2, h3⟩

end PyQ
