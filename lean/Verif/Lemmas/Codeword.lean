import Verif.Lemmas.Encode

/-! Pauli operators on codewords. -/

namespace PyQ

open Spec

variable {n k r : ℕ} {nf : Arr ℤ}

theorem pauliAct_ket (p : Pauli n) (b : Fin n → ZMod 2) :
    pauliAct p (ket b) = (sgn (dotp p.z b) : ℂ) • ket (b + p.x) := by
  funext a
  rw [pauliAct_apply, Pi.smul_apply, smul_eq_mul]
  unfold ket
  by_cases h : a + p.x = b
  · have h' : a = b + p.x := by rw [← h, add_add_cancel_f]
    rw [if_pos h, if_pos h', h]
  · have h' : a ≠ b + p.x := by rintro rfl; exact h (add_add_cancel_f _ _)
    rw [if_neg h, if_neg h', mul_zero, mul_zero]

/-- `∏ (1 + g) / √2` applied to any state. -/
noncomputable def projOp (gs : List (Pauli n)) (ψ : Amp n) : Amp n :=
  gs.foldl (fun ψ g => ((Real.sqrt 2 : ℝ) : ℂ)⁻¹ • (ψ + pauliAct g ψ)) ψ

theorem projected_eq (gs : List (Pauli n)) (b : Fin n → ZMod 2) : projected gs b = projOp gs (ket b) := rfl

theorem projOp_cons (g : Pauli n) (gs : List (Pauli n)) (ψ : Amp n) :
    projOp (g :: gs) ψ = projOp gs (((Real.sqrt 2 : ℝ) : ℂ)⁻¹ • (ψ + pauliAct g ψ)) := rfl

theorem projOp_smul (gs : List (Pauli n)) (a : ℂ) (ψ : Amp n) : projOp gs (a • ψ) = a • projOp gs ψ := by
  induction gs generalizing ψ with
  | nil => rfl
  | cons g gs ih =>
    rw [projOp_cons, projOp_cons, pauliAct_smul, ← smul_add, smul_comm, ih]

theorem projOp_add (gs : List (Pauli n)) (ψ φ : Amp n) : projOp gs (ψ + φ) = projOp gs ψ + projOp gs φ := by
  induction gs generalizing ψ φ with
  | nil => rfl
  | cons g gs ih =>
    rw [projOp_cons, projOp_cons, projOp_cons, ← ih, ← smul_add, pauliAct_add]
    congr 2
    abel

theorem pauliAct_projOp (p : Pauli n) (gs : List (Pauli n)) (hc : ∀ g ∈ gs, symp p g = 0) (ψ : Amp n) :
    pauliAct p (projOp gs ψ) = projOp gs (pauliAct p ψ) := by
  induction gs generalizing ψ with
  | nil => rfl
  | cons g gs ih =>
    rw [projOp_cons, projOp_cons, ih (fun g' h => hc g' (by simp [h])), pauliAct_smul, pauliAct_add, pauliAct_comm,
      hc g (by simp), sgn_zero, one_smul]

theorem pauliAct_projected (p : Pauli n) (gs : List (Pauli n)) (hc : ∀ g ∈ gs, symp p g = 0) (b : Fin n → ZMod 2) :
    pauliAct p (projected gs b) = (sgn (dotp p.z b) : ℂ) • projected gs (b + p.x) := by
  rw [projected_eq, pauliAct_projOp p gs hc, pauliAct_ket, projOp_smul, projected_eq]

theorem projected_fixed (g : Pauli n) (gs : List (Pauli n)) (hg : g ∈ gs) (hc : ∀ g' ∈ gs, symp g g' = 0)
    (hY : dotp g.z g.x = 0) (b : Fin n → ZMod 2) : pauliAct g (projected gs b) = projected gs b := by
  obtain ⟨l1, l2, rfl⟩ := List.append_of_mem hg
  rw [projected_eq]
  have hsplit : ∀ ψ : Amp n, projOp (l1 ++ g :: l2) ψ =
      projOp l2 (((Real.sqrt 2 : ℝ) : ℂ)⁻¹ • (projOp l1 ψ + pauliAct g (projOp l1 ψ))) := by
    intro ψ
    unfold projOp
    rw [List.foldl_append]
    rfl
  rw [hsplit, pauliAct_projOp g l2 (fun g' h => hc g' (by simp [h])), pauliAct_smul, pauliAct_add, pauliAct_comp, hY,
    sgn_zero, one_smul]
  have : g.add g = ⟨0, 0⟩ := by simp [Pauli.add, add_self_f]
  rw [this, pauliAct_one, add_comm]

/-! ### Codewords -/

theorem dotp_range (f g : ℕ → ZMod 2) : dotp (fun j : Fin n => f j) (fun j : Fin n => g j) = ∑ j ∈ Finset.range n, f j * g j := by
  unfold dotp; rw [Finset.sum_range]

/-- The label on natural indices. -/
def labelN (n k r : ℕ) (nf : Arr ℤ) (δ : ℕ → ZMod 2) (j : ℕ) : ZMod 2 :=
  if j < r then 0
  else if j < n - k then ∑ i ∈ Finset.range k, ((nf.get j (n + (n - k) + i) : ℤ) : ZMod 2) * δ i
  else δ (j - (n - k))

theorem codeLabel_eq (δ : ℕ → ZMod 2) : codeLabel n k r nf δ = fun j : Fin n => labelN n k r nf δ j := rfl

theorem rowPauli_z_fun {A : Arr ℤ} (hc : A.cols = 2 * n) (i : ℕ) :
    (rowPauli n (A.row i)).z = fun j : Fin n => ((A.get i (n + j) : ℤ) : ZMod 2) := by
  funext j; exact rowPauli_z hc i j

theorem rowPauli_x_fun {A : Arr ℤ} (hc : A.cols = 2 * n) (i : ℕ) :
    (rowPauli n (A.row i)).x = fun j : Fin n => ((A.get i j : ℤ) : ZMod 2) := by
  funext j; exact rowPauli_x hc i j

/-- The lower rows of the normal form act trivially on the label. -/
theorem lower_dot (hsh : NormalShape n k r nf) {a : ℕ} (ha1 : r ≤ a) (ha2 : a < nf.rows) (δ : ℕ → ZMod 2) :
    dotp (rowPauli n (nf.row a)).z (codeLabel n k r nf δ) = 0 := by
  have h1 := hsh.rows
  have h2 := hsh.rank_le
  rw [rowPauli_z_fun hsh.cols, codeLabel_eq,
    dotp_range (fun j => ((nf.get a (n + j) : ℤ) : ZMod 2)) (labelN n k r nf δ), sum_blocks h2 h1]
  have s1 : ∑ j ∈ Finset.range r, ((nf.get a (n + j) : ℤ) : ZMod 2) * labelN n k r nf δ j = 0 := by
    apply Finset.sum_eq_zero
    intro j hj
    rw [Finset.mem_range] at hj
    unfold labelN
    rw [if_pos hj, mul_zero]
  have s2 : ∑ t ∈ Finset.range (nf.rows - r), ((nf.get a (n + (r + t)) : ℤ) : ZMod 2) * labelN n k r nf δ (r + t)
      = labelN n k r nf δ a := by
    rw [Finset.sum_eq_single (a - r)]
    · rw [show r + (a - r) = a by omega, hsh.lowerI a ha1 ha2 a ha1 ha2, if_pos rfl]; simp
    · intro t ht hne
      rw [Finset.mem_range] at ht
      rw [hsh.lowerI a ha1 ha2 (r + t) (by omega) (by omega), if_neg (by omega)]; simp
    · intro h; exact absurd (Finset.mem_range.mpr (by omega)) h
  have s3 : ∑ t ∈ Finset.range k, ((nf.get a (n + (nf.rows + t)) : ℤ) : ZMod 2) * labelN n k r nf δ (nf.rows + t)
      = labelN n k r nf δ a := by
    conv_rhs => unfold labelN
    rw [if_neg (by omega), if_pos (by omega)]
    apply Finset.sum_congr rfl
    intro t ht
    unfold labelN
    rw [if_neg (by omega), if_neg (by omega), show nf.rows + t - (n - k) = t by omega,
      show n + (nf.rows + t) = n + (n - k) + t by omega]
  rw [s1, s2, s3, zero_add, add_self_z]

theorem upper_rows_mem {i : ℕ} (hi : i < r) :
    rowPauli n (nf.row i) ∈ (List.range r).map fun i => rowPauli n (nf.row i) :=
  List.mem_map_of_mem (List.mem_range.mpr hi)

theorem nf_symp (hsh : NormalShape n k r nf) (hcom : Commuting n nf) {a b : ℕ} (ha : a < nf.rows) (hb : b < nf.rows) :
    symp (rowPauli n (nf.row a)) (rowPauli n (nf.row b)) = 0 := by
  rw [← sympV_vec, rowPauli_row hsh.cols, rowPauli_row hsh.cols]
  exact hcom a ha b hb

/-- Rows with an even number of Y's fix every codeword. -/
theorem row_fixes (hsh : NormalShape n k r nf) (hcom : Commuting n nf) {a : ℕ} (ha : a < nf.rows)
    (hY : dotp (rowPauli n (nf.row a)).z (rowPauli n (nf.row a)).x = 0) (δ : ℕ → ZMod 2) :
    pauliAct (rowPauli n (nf.row a)) (codeword n k r nf δ) = codeword n k r nf δ := by
  have h2 := hsh.rank_le
  have hc : ∀ g ∈ (List.range r).map (fun i => rowPauli n (nf.row i)), symp (rowPauli n (nf.row a)) g = 0 := by
    intro g hg
    simp only [List.mem_map, List.mem_range] at hg
    obtain ⟨i, hi, rfl⟩ := hg
    exact nf_symp hsh hcom ha (by omega)
  unfold codeword
  by_cases har : a < r
  · exact projected_fixed _ _ (upper_rows_mem har) hc hY _
  · rw [pauliAct_projected _ _ hc, lower_dot hsh (by omega) ha, sgn_zero, one_smul]
    congr 1
    have hx : (rowPauli n (nf.row a)).x = 0 := by
      funext j
      rw [rowPauli_x hsh.cols, hsh.lowerX a (by omega) ha j j.2]; rfl
    rw [hx, add_zero]

/-! ### Logical operators on codewords -/

/-- The label with bit `i` flipped. -/
theorem label_flip (hsh : NormalShape n k r nf) {i : ℕ} (hi : i < k) (δ : ℕ → ZMod 2) :
    codeLabel n k r nf δ + (rowPauli n ((logicalXOf n k r nf).row i)).x =
      codeLabel n k r nf (Function.update δ i (δ i + 1)) := by
  have h1 := hsh.rows
  have h2 := hsh.rank_le
  funext j
  rw [Pi.add_apply, rowPauli_x (lx_shape hsh).2, lx_x hsh j.2]
  unfold codeLabel
  by_cases hj1 : j.val < r
  · rw [if_pos hj1, if_pos hj1, if_pos hj1]; simp
  · rw [if_neg hj1, if_neg hj1, if_neg hj1]
    by_cases hj2 : j.val < n - k
    · rw [if_pos hj2, if_pos hj2, if_pos (by omega)]
      have : ∀ t ∈ Finset.range k, ((nf.get j (n + (n - k) + t) : ℤ) : ZMod 2) * Function.update δ i (δ i + 1) t =
          ((nf.get j (n + (n - k) + t) : ℤ) : ZMod 2) * δ t +
            ((nf.get j (n + (n - k) + t) : ℤ) : ZMod 2) * (((if t = i then 1 else 0 : ℤ)) : ZMod 2) := by
        intro t _
        by_cases h : t = i
        · subst h; rw [Function.update_self, if_pos rfl]; push_cast; ring
        · rw [Function.update_of_ne h, if_neg h]; push_cast; ring
      rw [Finset.sum_congr rfl this, Finset.sum_add_distrib, sum_ite_unit hi, show n + (n - k) + i = 2 * n - k + i by omega]
    · rw [if_neg hj2, if_neg hj2, if_neg (by omega), show nf.rows = n - k by omega]
      by_cases h : i = j.val - (n - k)
      · rw [if_pos h, ← h, Function.update_self]; simp
      · rw [if_neg h, Function.update_of_ne (fun h' => h h'.symm)]; simp

theorem lx_dot (hsh : NormalShape n k r nf) (i : ℕ) (δ : ℕ → ZMod 2) :
    dotp (rowPauli n ((logicalXOf n k r nf).row i)).z (codeLabel n k r nf δ) = 0 := by
  unfold dotp
  apply Finset.sum_eq_zero
  intro j _
  rw [rowPauli_z (lx_shape hsh).2]
  by_cases hj : j.val < r
  · unfold codeLabel; rw [if_pos hj, mul_zero]
  · rw [lx_z_high hsh (by omega)]; simp

theorem lz_dot (hsh : NormalShape n k r nf) {i : ℕ} (hi : i < k) (δ : ℕ → ZMod 2) :
    dotp (rowPauli n ((logicalZOf n k r nf).row i)).z (codeLabel n k r nf δ) = δ i := by
  have h1 := hsh.rows
  have h2 := hsh.rank_le
  unfold dotp
  rw [Finset.sum_eq_single (⟨nf.rows + i, by omega⟩ : Fin n)]
  · rw [rowPauli_z (lz_shape hsh).2, lz_z hsh (by simp only; omega)]
    simp only
    rw [if_neg (by omega), if_neg (by omega), if_pos (by omega)]
    unfold codeLabel
    simp only
    rw [if_neg (by omega), if_neg (by omega), show nf.rows + i - (n - k) = i by omega]
    simp
  · intro j _ hj
    have hj' : j.val ≠ nf.rows + i := fun h => hj (Fin.ext h)
    rw [rowPauli_z (lz_shape hsh).2, lz_z hsh j.2]
    by_cases hj1 : j.val < r
    · unfold codeLabel; rw [if_pos hj1, if_pos hj1, mul_zero]
    · rw [if_neg hj1]
      by_cases hj2 : j.val < nf.rows
      · rw [if_pos hj2]; simp
      · rw [if_neg hj2, if_neg (by omega)]; simp
  · simp

theorem lx_symp_upper (hsh : NormalShape n k r nf) {i : ℕ} (hi : i < k) :
    ∀ g ∈ (List.range r).map (fun i => rowPauli n (nf.row i)), symp (rowPauli n ((logicalXOf n k r nf).row i)) g = 0 := by
  intro g hg
  simp only [List.mem_map, List.mem_range] at hg
  obtain ⟨a, ha, rfl⟩ := hg
  have h2 := hsh.rank_le
  rw [← sympV_vec, rowPauli_row (lx_shape hsh).2, rowPauli_row hsh.cols]
  exact lx_comm_nf hsh hi (by omega)

theorem lz_symp_upper (hsh : NormalShape n k r nf) {i : ℕ} (hi : i < k) :
    ∀ g ∈ (List.range r).map (fun i => rowPauli n (nf.row i)), symp (rowPauli n ((logicalZOf n k r nf).row i)) g = 0 := by
  intro g hg
  simp only [List.mem_map, List.mem_range] at hg
  obtain ⟨a, ha, rfl⟩ := hg
  have h2 := hsh.rank_le
  rw [← sympV_vec, rowPauli_row (lz_shape hsh).2, rowPauli_row hsh.cols]
  exact lz_comm_nf hsh hi (by omega)

/-- Logical X flips a bit. -/
theorem lx_codeword (hsh : NormalShape n k r nf) {i : ℕ} (hi : i < k) (δ : ℕ → ZMod 2) :
    pauliAct (rowPauli n ((logicalXOf n k r nf).row i)) (codeword n k r nf δ) =
      codeword n k r nf (Function.update δ i (δ i + 1)) := by
  unfold codeword
  rw [pauliAct_projected _ _ (lx_symp_upper hsh hi), lx_dot hsh, sgn_zero, one_smul, label_flip hsh hi]

/-- Logical Z gives a sign. -/
theorem lz_codeword (hsh : NormalShape n k r nf) {i : ℕ} (hi : i < k) (δ : ℕ → ZMod 2) :
    pauliAct (rowPauli n ((logicalZOf n k r nf).row i)) (codeword n k r nf δ) =
      (sgn (δ i) : ℂ) • codeword n k r nf δ := by
  unfold codeword
  rw [pauliAct_projected _ _ (lz_symp_upper hsh hi), lz_dot hsh hi]
  congr 2
  have hx : (rowPauli n ((logicalZOf n k r nf).row i)).x = 0 := by
    funext j
    rw [rowPauli_x (lz_shape hsh).2, lz_x j.2]; rfl
  rw [hx, add_zero]

end PyQ
