import Verif.Props.Logical

/-! Certificates by which a concrete generator list is seen to be accepted, with its normal form.  Used only for the
non-vacuity examples and the counterexamples. -/

namespace PyQ

open Spec

/-- The rank of an integer matrix, over every field at once, from a factorisation and a one-sided inverse. -/
theorem rank_cert {m n r : ℕ} {M : Matrix (Fin m) (Fin n) ℤ} (L : Matrix (Fin m) (Fin r) ℤ) (R : Matrix (Fin r) (Fin n) ℤ)
    (P : Matrix (Fin r) (Fin m) ℤ) (Q : Matrix (Fin n) (Fin r) ℤ) (h1 : M = L * R) (h2 : P * M * Q = 1)
    (F : Type) [Field F] : (M.map (Int.cast : ℤ → F)).rank = r := by
  have c : ∀ {a b c : ℕ} (A : Matrix (Fin a) (Fin b) ℤ) (B : Matrix (Fin b) (Fin c) ℤ),
      (A * B).map (Int.cast : ℤ → F) = A.map (Int.cast : ℤ → F) * B.map (Int.cast : ℤ → F) := by
    intro a b c A B
    exact Matrix.map_mul (f := Int.castRingHom F)
  apply le_antisymm
  · rw [h1, c]
    exact (Matrix.rank_mul_le_left _ _).trans ((Matrix.rank_le_card_width _).trans (by simp))
  · have h3 := congrArg (fun X : Matrix (Fin r) (Fin r) ℤ => (X.map (Int.cast : ℤ → F)).rank) h2
    simp only [c] at h3
    have h4 : ((1 : Matrix (Fin r) (Fin r) ℤ).map (Int.cast : ℤ → F)).rank = r := by
      rw [Matrix.map_one _ (by simp) (by simp), Matrix.rank_one, Fintype.card_fin]
    rw [h4] at h3
    rw [← h3]
    exact (Matrix.rank_mul_le_left _ _).trans (Matrix.rank_mul_le_right _ _)

/-- Independence modulo two from a right inverse. -/
theorem independent_cert {n : ℕ} (A : Arr ℤ) (Q : ℕ → ℕ → ZMod 2)
    (h : ∀ i < A.rows, ∀ a < A.rows, ∑ j ∈ Finset.range (2 * n), ((A.get i j : ℤ) : ZMod 2) * Q j a = if i = a then 1 else 0) :
    Independent n A := by
  unfold Independent
  rw [Fintype.linearIndependent_iff]
  intro g hg a
  have hsum : ∀ j < 2 * n, ∑ i : Fin A.rows, g i * ((A.get i j : ℤ) : ZMod 2) = 0 := by
    intro j hj
    by_cases hjn : j < n
    · have := congrFun (congrArg Prod.fst hg) ⟨j, hjn⟩
      simpa [rowVec, Finset.sum_apply, Prod.fst_sum] using this
    · have := congrFun (congrArg Prod.snd hg) ⟨j - n, by omega⟩
      simp [rowVec, Finset.sum_apply, Prod.snd_sum] at this
      rw [show n + (j - n) = j by omega] at this
      exact this
  have h1 : ∑ i : Fin A.rows, g i * (∑ j ∈ Finset.range (2 * n), ((A.get i j : ℤ) : ZMod 2) * Q j a) = g a := by
    rw [Finset.sum_eq_single a]
    · rw [h a a.2 a a.2, if_pos rfl, mul_one]
    · intro i _ hi
      rw [h i i.2 a a.2, if_neg (fun h' => hi (Fin.ext h')), mul_zero]
    · simp
  rw [← h1]
  simp only [Finset.mul_sum, ← mul_assoc]
  rw [Finset.sum_comm]
  apply Finset.sum_eq_zero
  intro j hj
  rw [← Finset.sum_mul, hsum j (Finset.mem_range.mp hj), zero_mul]

/-- Acceptance of a concrete list of rows, with the resulting object. -/
theorem concrete_code {l : List (List ℤ)} {n k r e : ℕ} (hne : l ≠ []) (hl : ∀ r ∈ l, r.length = 2 * n)
    (hk : l.length + k = n) (hb : ∀ r ∈ l, IsBinary r)
    (hcom : ∀ p ∈ l, ∀ q ∈ l, symp (rowPauli n p) (rowPauli n q) = 0)
    (hind : Independent n (Arr.ofRows (2 * n) l))
    (hr : ∀ (F : Type) [Field F], (Matrix.of fun (i : Fin l.length) (j : Fin n) =>
      (((Arr.ofRows (2 * n) l).get i j : ℤ) : F)).rank = r)
    (he : r = l.length ∨ npRank ((firstBlock n r (Arr.ofRows (2 * n) l)).slice r l.length (n + r) (2 * n)) = e) :
    ∃ c, stabInit (.rows l) n k none = .ok c ∧ BinaryArr c.stab ∧ Independent n c.stab ∧
      c.stab = Arr.ofRows (2 * n) l ∧ c.rank = r ∧
      c.normalForm = (if r = l.length then firstBlock n r (Arr.ofRows (2 * n) l)
        else secondBlockLoops n k r e (firstBlock n r (Arr.ofRows (2 * n) l))) := by
  have hA := initArray_rows_ok (n := n) (k := k) hne hl hk
  have hbA : BinaryArr (Arr.ofRows (2 * n) l) := ofRows_binary hb
  have hcomA : Commuting n (Arr.ofRows (2 * n) l) := by
    intro i hi j hj
    have hi' : i < l.length := hi
    have hj' : j < l.length := hj
    rw [rowVec_ofRows, rowVec_ofRows, List.getD_eq_getElem _ _ hi', List.getD_eq_getElem _ _ hj']
    exact hcom _ (List.getElem_mem hi') _ (List.getElem_mem hj')
  have hQ : xRankQ n (Arr.ofRows (2 * n) l) = r := hr ℚ
  have h2 : xRank2 n (Arr.ofRows (2 * n) l) = r := hr (ZMod 2)
  obtain ⟨c, hc⟩ := (stabInit_none hA hk hbA hcomA hind).1 (by rw [hQ, h2])
  obtain ⟨hst, -, -, hN, -⟩ := stabInit_ok hc
  rw [hA] at hst
  simp only [Except.ok.injEq] at hst
  refine ⟨c, hc, by rw [← hst]; exact hbA, by rw [← hst]; exact hind, hst.symm, ?_⟩
  rw [← hst] at hN
  have hrows : (firstBlock n r (Arr.ofRows (2 * n) l)).rows = l.length := by
    have := equi_firstBlock (n := n) (rank := r) (Arr.ofRows (2 * n) l) (by rw [← hQ]; exact xRankQ_le_n _)
      (by rw [← hQ]; exact xRankQ_le_rows _)
    exact this.rows
  have hcols : (firstBlock n r (Arr.ofRows (2 * n) l)).cols = 2 * n := by
    have := equi_firstBlock (n := n) (rank := r) (Arr.ofRows (2 * n) l) (by rw [← hQ]; exact xRankQ_le_n _)
      (by rw [← hQ]; exact xRankQ_le_rows _)
    exact this.cols
  have hpos : 0 < l.length := List.length_pos_iff.mpr hne
  have hrn : r ≤ l.length := by rw [← hQ]; exact xRankQ_le_rows (n := n) (Arr.ofRows (2 * n) l)
  unfold standardNormalForm at hN
  rw [matrixRank_ok (A := (Arr.ofRows (2 * n) l).slice 0 (Arr.ofRows (2 * n) l).rows 0 n) (show 0 < l.length - 0 by omega)
    (show 0 < n - 0 by omega)] at hN
  simp only [npRank_x, hQ, ok_bind'] at hN
  unfold secondBlock at hN
  by_cases h : r = l.length
  · rw [if_pos (by rw [hrows]; exact h)] at hN
    simp only [ok_bind', pure_ok', Except.ok.injEq, Prod.mk.injEq] at hN
    rw [if_pos h]
    exact ⟨hN.2.symm, hN.1.symm⟩
  · have he' := he.resolve_left h
    rw [if_neg (by rw [hrows]; exact h)] at hN
    rw [hrows, hcols, matrixRank_ok (A := (firstBlock n r (Arr.ofRows (2 * n) l)).slice r l.length (n + r) (2 * n))
      (show 0 < l.length - r by omega) (show 0 < 2 * n - (n + r) by omega)] at hN
    simp only [ok_bind', he'] at hN
    rw [if_neg (by omega)] at hN
    simp only [ok_bind', pure_ok', Except.ok.injEq, Prod.mk.injEq] at hN
    rw [if_neg h]
    exact ⟨hN.2.symm, hN.1.symm⟩

end PyQ
